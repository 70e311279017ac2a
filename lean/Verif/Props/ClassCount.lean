import Verif.Props.Regularize

/-
Property C168 of GaussianModel (diamondback/models/gaussian_model.py): what repeating samples does.  The matrix of a class is the scatter of its samples
divided by their length, not by their number (line 86), so it grows with the number of samples.
-/

namespace Verif.Props

open Verif Verif.Spec Matrix

/-- A list `m` times over. -/
def times {α : Type*} (m : ℕ) (z : List α) : List α := (List.replicate m z).flatten

theorem times_succ {α : Type*} (m : ℕ) (z : List α) : times (m + 1) z = z ++ times m z := by simp [times, List.replicate_succ]

theorem times_length {α : Type*} (m : ℕ) (z : List α) : (times m z).length = m * z.length := by simp [times]

theorem times_sum {α : Type*} (m : ℕ) (z : List α) (f : α → ℝ) : ((times m z).map f).sum = m * (z.map f).sum := by
  induction m with
  | zero => simp [times]
  | succ m ih => rw [times_succ, List.map_append, List.sum_append, ih]; push_cast; ring

theorem times_mean {n : ℕ} (m : ℕ) (hm : m ≠ 0) (z : List (Vec n)) : sampleMean (times m z) = sampleMean z := by
  funext j
  have : (m : ℝ) ≠ 0 := Nat.cast_ne_zero.mpr hm
  rw [sampleMean, sampleMean, times_sum, times_length]
  push_cast
  rw [mul_div_mul_left _ _ this]

theorem times_scatter {n : ℕ} (m : ℕ) (hm : m ≠ 0) (z : List (Vec n)) : scatter (times m z) = (m : ℝ) • scatter z := by
  ext i j
  rw [scatter, times_mean m hm z]
  rw [times_sum]
  rfl

/-- C168: `m` copies of the samples have the same mean, and the matrix learnt from them is `m` times the matrix which `regularize / m` gives for the samples themselves. -/
theorem C168_repeat {n : ℕ} (m : ℕ) (hm : m ≠ 0) (r : ℝ) (z : List (Vec n)) :
    sampleMean (times m z) = sampleMean z ∧ moment r (times m z) = (m : ℝ) • moment (r / m) z := by
  refine ⟨times_mean m hm z, ?_⟩
  have h : (m : ℝ) ≠ 0 := Nat.cast_ne_zero.mpr hm
  rw [moment, moment, times_scatter m hm, smul_add, smul_smul, smul_smul, smul_smul, mul_div_cancel₀ _ h, mul_comm]

/-- Three copies of two samples. -/
example := C168_repeat 3 (by norm_num) (1 / 2) [(![0] : Vec 1), ![2]]

/-- C168: the squared distance from a class given `m` times. -/
theorem C168_distance {n : ℕ} (m : ℕ) (hm : m ≠ 0) (r : ℝ) (z : List (Vec n)) (x : Vec n) (d : ℝ) :
    IsSquaredDistance (moment r (times m z)) (sampleMean (times m z)) x d ↔ IsSquaredDistance (moment (r / m) z) (sampleMean z) x (m * d) := by
  have h : (m : ℝ) ≠ 0 := Nat.cast_ne_zero.mpr hm
  obtain ⟨e1, e2⟩ := C168_repeat m hm r z
  rw [e1, e2]
  constructor
  · rintro ⟨w, h1, h2⟩
    refine ⟨(m : ℝ) • w, ?_, ?_⟩
    · rw [Matrix.mulVec_smul, ← h1, Matrix.smul_mulVec]
    · rw [h2, smul_dotProduct, smul_eq_mul]
  · rintro ⟨w, h1, h2⟩
    refine ⟨(m : ℝ)⁻¹ • w, ?_, ?_⟩
    · rw [Matrix.smul_mulVec, Matrix.mulVec_smul, smul_smul, mul_inv_cancel₀ h, one_smul, h1]
    · rw [smul_dotProduct, smul_eq_mul, ← h2, inv_mul_cancel_left₀ h]

example (d : ℝ) := C168_distance 3 (by norm_num) (1 / 2) [(![0] : Vec 1), ![2]] ![5] d

theorem samplesOf_append {V : Type*} (p q : List (V × ℤ)) (c : ℤ) : samplesOf (p ++ q) c = samplesOf p c ++ samplesOf q c := by
  simp [samplesOf]

theorem samplesOf_times {V : Type*} (m : ℕ) (p : List (V × ℤ)) (c : ℤ) : samplesOf (times m p) c = times m (samplesOf p c) := by
  induction m with
  | zero => simp [times, samplesOf]
  | succ m ih => rw [times_succ, times_succ, samplesOf_append, ih]

theorem times_zip {α β : Type*} (m : ℕ) (x : List α) (y : List β) (h : y.length = x.length) : (times m x).zip (times m y) = times m (x.zip y) := by
  induction m with
  | zero => simp [times]
  | succ m ih => rw [times_succ, times_succ, times_succ, List.zip_append h.symm, ih]

theorem times_mem {α : Type*} (m : ℕ) (hm : m ≠ 0) (z : List α) (a : α) : a ∈ times m z ↔ a ∈ z := by
  simp [times, hm]

/-- C168: a training set given `m` times over with `regularize = r` predicts what the set itself does with `regularize = r / m`: every row ranks the classes
by the squared distances of `r / m`. -/
theorem C168_scaled (argsort : List ℝ → List ℕ) (hs : ∀ v, IsRanking v (argsort v)) (g : Gauss) (hr : 0 < g.regularize) (m : ℕ) (hm : m ≠ 0) (n : ℕ) (hn : n ≠ 0) (x : List (Vec n)) (hx : x ≠ [])
    (y : List ℤ) (hy : y.length = x.length) (q : List (Vec n)) (hq : q ≠ []) :
    ∃ L rows, IsLabels y L ∧ (g.fit (some ⟨n, times m x⟩) ⟨true, times m y⟩).2.predict argsort (some ⟨n, q⟩) = .ok rows ∧
      List.Forall₂ (fun o p => ∃ d : List ℝ, List.Forall₂ (fun c v => IsSquaredDistance (moment (g.regularize / m) (samplesOf (x.zip y) c)) (sampleMean (samplesOf (x.zip y) c)) o v) L d ∧
        IsRanking d p) q rows := by
  have hm' : (0 : ℝ) < m := by positivity
  have hx' : times m x ≠ [] := by
    obtain ⟨a, ha⟩ := List.exists_mem_of_ne_nil x hx
    exact List.ne_nil_of_mem ((times_mem m hm x a).mpr ha)
  obtain ⟨L, rows, h1, h2, h3⟩ := C54_rows argsort hs g hr n hn (times m x) hx' (times m y) (by rw [times_length, times_length, hy]) q hq
  refine ⟨L, rows, ⟨h1.1, fun c => (h1.2 c).trans (times_mem m hm y c)⟩, h2, h3.imp ?_⟩
  rintro o p ⟨d, hd, hp1, hp2⟩
  refine ⟨d.map fun v => m * v, ?_, by simpa using hp1, hp2.imp fun {a b} hab => ?_⟩
  · rw [List.forall₂_map_right_iff]
    refine hd.imp fun c v hv => ?_
    rw [times_zip m x y hy, samplesOf_times] at hv
    exact (C168_distance m hm _ _ _ _).mp hv
  · have e : ∀ k, (d.map fun v => (m : ℝ) * v).getD k 0 = m * d.getD k 0 := by
      intro k
      simp only [List.getD_eq_getElem?_getD, List.getElem?_map]
      cases d[k]? <;> simp
    rw [e, e]
    exact mul_le_mul_of_nonneg_left hab hm'.le

/-- The set of `C68_violation`, three times over. -/
example := C168_scaled sortPositions sortPositions_ranking (Gauss.mk 1 ⟨0, []⟩) (by norm_num) 3 (by norm_num) 1 (by norm_num) [![0], ![2], ![5]] (by simp) [0, 0, 1] rfl [![18 / 5]] (by simp)

/-! ### One class repeated -/

theorem times_quad {n : ℕ} (m : ℕ) (hm : m ≠ 0) (r : ℝ) (z : List (Vec n)) (w : Vec n) :
    w ⬝ᵥ (moment r (times m z) *ᵥ w) = r * (w ⬝ᵥ w) + m * ((1 / (n : ℝ)) * (z.map fun v => ((v - sampleMean z) ⬝ᵥ w) ^ 2).sum) := by
  rw [moment_quad, times_mean m hm, times_sum]
  ring

/-- C168: more copies of its samples bring a class nearer to every observation. -/
theorem C168_nearer {n : ℕ} (m m' : ℕ) (hm : m ≠ 0) (hmm : m ≤ m') (r : ℝ) (hr : 0 < r) (z : List (Vec n)) (x : Vec n) (d d' : ℝ)
    (h : IsSquaredDistance (moment r (times m z)) (sampleMean (times m z)) x d) (h' : IsSquaredDistance (moment r (times m' z)) (sampleMean (times m' z)) x d') : d' ≤ d := by
  have hm' : m' ≠ 0 := by omega
  obtain ⟨w, h1, h2⟩ := h'
  have k := distance_ge r hr _ x d h w
  have e : d' = w ⬝ᵥ (moment r (times m' z) *ᵥ w) := by rw [h1, h2]
  rw [times_mean m' hm'] at h2
  rw [times_quad m hm, times_mean m hm, ← h2] at k
  rw [times_quad m' hm'] at e
  have hB0 : 0 ≤ (1 / (n : ℝ)) * (z.map fun v => ((v - sampleMean z) ⬝ᵥ w) ^ 2).sum := mul_nonneg (by positivity) (list_sum_nonneg_of _ _ fun v _ => sq_nonneg _)
  have := mul_le_mul_of_nonneg_right (Nat.cast_le (α := ℝ).mpr hmm) hB0
  linarith

/-- The samples of a class do not lie in one hyperplane. -/
def Spans {n : ℕ} (z : List (Vec n)) : Prop := ∀ w : Vec n, w ≠ 0 → ∃ v ∈ z, (v - sampleMean z) ⬝ᵥ w ≠ 0

theorem spans_solve {n : ℕ} (hn : n ≠ 0) (z : List (Vec n)) (hz : Spans z) (a : Vec n) : ∃ w, moment 0 z *ᵥ w = a := by
  have hn' : (0 : ℝ) < 1 / n := by positivity
  have hinj : Function.Injective (moment 0 z).mulVec := by
    rw [← Matrix.coe_mulVecLin, ← LinearMap.ker_eq_bot, LinearMap.ker_eq_bot']
    intro w hw
    by_contra hne
    obtain ⟨v, hv, hv0⟩ := hz w hne
    have k := moment_quad 0 z w
    rw [Matrix.mulVecLin_apply] at hw
    rw [hw, dotProduct_zero, zero_mul, zero_add] at k
    have hpos : 0 < (z.map fun v => ((v - sampleMean z) ⬝ᵥ w) ^ 2).sum := by
      refine lt_of_lt_of_le (by positivity : 0 < ((v - sampleMean z) ⬝ᵥ w) ^ 2) ?_
      exact List.single_le_sum (by intro t ht; obtain ⟨u, _, rfl⟩ := List.mem_map.mp ht; exact sq_nonneg _) _ (List.mem_map.mpr ⟨v, hv, rfl⟩)
    exact absurd k (ne_of_lt (mul_pos hn' hpos))
  exact (LinearMap.injective_iff_surjective (f := (moment 0 z).mulVecLin)).mp hinj a

/-- C168: copies of samples which do not lie in one hyperplane bring the class as near as one likes to an observation. -/
theorem C168_attract {n : ℕ} (hn : n ≠ 0) (r : ℝ) (hr : 0 < r) (z : List (Vec n)) (hz : Spans z) (x : Vec n) :
    ∃ K : ℝ, 0 ≤ K ∧ ∀ m : ℕ, m ≠ 0 → ∀ d, IsSquaredDistance (moment r (times m z)) (sampleMean (times m z)) x d → d ≤ K / m := by
  obtain ⟨w₀, hw₀⟩ := spans_solve hn z hz (x - sampleMean z)
  refine ⟨w₀ ⬝ᵥ (moment 0 z *ᵥ w₀), by rw [moment_quad]; exact add_nonneg (by simp) (mul_nonneg (by positivity) (list_sum_nonneg_of _ _ fun v _ => sq_nonneg _)), fun m hm d hd => ?_⟩
  have hm' : (0 : ℝ) < m := by positivity
  obtain ⟨w, h1, h2⟩ := hd
  have e : d = w ⬝ᵥ (moment r (times m z) *ᵥ w) := by rw [h1, h2]
  rw [times_mean m hm, ← hw₀] at h2
  have e' : (m : ℝ) * (w ⬝ᵥ (moment 0 z *ᵥ w)) ≤ d := by
    rw [e, times_quad m hm, moment_quad]
    have := mul_nonneg hr.le (dot_self_nonneg w)
    linarith
  have hsym : w₀ ⬝ᵥ (moment 0 z *ᵥ w) = w ⬝ᵥ (moment 0 z *ᵥ w₀) := by
    rw [dot_moment, dot_moment, dotProduct_comm]
    congr 3
    exact List.map_congr_left fun v _ => mul_comm _ _
  have k := moment_ge 0 z ((m : ℝ) • w - w₀)
  simp only [Matrix.mulVec_sub, sub_dotProduct, dotProduct_sub, Matrix.mulVec_smul, smul_dotProduct, dotProduct_smul, smul_eq_mul, hsym, ← h2, zero_mul] at k
  rw [le_div_iff₀ hm']
  have := mul_le_mul_of_nonneg_left e' hm'.le
  linarith

theorem samplesOf_replicate {V : Type*} (c c' : ℤ) (z : List V) : samplesOf (z.zip (List.replicate z.length c)) c' = if c' = c then z else [] := by
  induction z with
  | nil => simp [samplesOf]
  | cons v t ih =>
    simp only [List.length_cons, List.replicate_succ, List.zip_cons_cons, samplesOf, List.filterMap_cons]
    simp only [samplesOf] at ih
    rw [ih]
    by_cases h : c' = c
    · simp [h]
    · simp [h, Ne.symm h]

/-- C168: however near the means of the other classes are, an observation which is none of them is ranked to a class whose samples do not lie in one hyperplane,
once enough copies of the samples of that class are added to the training set. -/
theorem C168_majority (argsort : List ℝ → List ℕ) (hs : ∀ v, IsRanking v (argsort v)) (g : Gauss) (hr : 0 < g.regularize) (n : ℕ) (hn : n ≠ 0) (x : List (Vec n)) (hx : x ≠ [])
    (y : List ℤ) (hy : y.length = x.length) (c : ℤ) (hc : c ∈ y) (hz : Spans (samplesOf (x.zip y) c)) (q : List (Vec n)) (hq : q ≠ [])
    (hne : ∀ o ∈ q, ∀ c' ∈ y, c' ≠ c → o ≠ sampleMean (samplesOf (x.zip y) c')) :
    ∃ m₀ : ℕ, ∀ m, m₀ ≤ m → ∃ L rows, IsLabels y L ∧
      (g.fit (some ⟨n, x ++ times m (samplesOf (x.zip y) c)⟩) ⟨true, y ++ List.replicate (times m (samplesOf (x.zip y) c)).length c⟩).2.predict argsort (some ⟨n, q⟩) = .ok rows ∧
      List.Forall₂ (fun _ p => ∃ a t, p = a :: t ∧ L[a]? = some c) q rows := by
  set z := samplesOf (x.zip y) c with hzdef
  set s : ℤ → ℝ := fun c' => g.regularize + spread (samplesOf (x.zip y) c') / n with hsdef
  set E : Vec n → ℤ → ℝ := fun o c' => (o - sampleMean (samplesOf (x.zip y) c')) ⬝ᵥ (o - sampleMean (samplesOf (x.zip y) c')) with hE
  have hs0 : ∀ c', 0 < s c' := fun c' => add_pos_of_pos_of_nonneg hr (div_nonneg (list_sum_nonneg_of _ _ fun v _ => dot_self_nonneg _) (by positivity))
  -- enough copies for one observation and one other class
  have hone : ∀ (o : Vec n) (c' : ℤ), ∃ m₀ : ℕ, ∀ m, m₀ ≤ m → 0 < E o c' → ∀ d, IsSquaredDistance (moment g.regularize (times (m + 1) z)) (sampleMean (times (m + 1) z)) o d → d < E o c' / s c' := by
    intro o c'
    obtain ⟨K, hK, key⟩ := C168_attract hn g.regularize hr z hz o
    obtain ⟨m₀, hm₀⟩ := exists_nat_gt (K / (E o c' / s c'))
    refine ⟨m₀, fun m hm hpos d hd => (key (m + 1) (by omega) d hd).trans_lt ?_⟩
    have hp : 0 < E o c' / s c' := div_pos hpos (hs0 c')
    rw [div_lt_iff₀ hp] at hm₀
    rw [div_lt_iff₀ (by positivity)]
    have hle : (m₀ : ℝ) ≤ ((m + 1 : ℕ) : ℝ) := by exact_mod_cast (by omega : m₀ ≤ m + 1)
    have := mul_le_mul_of_nonneg_right hle hp.le
    linarith
  have hfin : ∀ T : List (Vec n × ℤ), ∃ m₀ : ℕ, ∀ t ∈ T, ∀ m, m₀ ≤ m → 0 < E t.1 t.2 → ∀ d, IsSquaredDistance (moment g.regularize (times (m + 1) z)) (sampleMean (times (m + 1) z)) t.1 d → d < E t.1 t.2 / s t.2 := by
    intro T
    induction T with
    | nil => exact ⟨0, by simp⟩
    | cons t T ih =>
      obtain ⟨m1, k1⟩ := ih
      obtain ⟨m2, k2⟩ := hone t.1 t.2
      refine ⟨max m1 m2, fun u hu m hm => ?_⟩
      rcases List.mem_cons.mp hu with rfl | hu
      · exact k2 m ((le_max_right _ _).trans hm)
      · exact k1 u hu m ((le_max_left _ _).trans hm)
  obtain ⟨m₀, key⟩ := hfin (q.product y)
  refine ⟨m₀, fun m hm => ?_⟩
  set e := times m z with he
  obtain ⟨L, rows, h1, h2, h3⟩ := C54_rows argsort hs g hr n hn (x ++ e) (by simp [hx]) (y ++ List.replicate e.length c) (by simp [hy]) q hq
  have hL : IsLabels y L := ⟨h1.1, fun c' => (h1.2 c').trans (by
    rw [List.mem_append, List.mem_replicate]
    exact ⟨fun h => h.elim id fun h => h.2 ▸ hc, Or.inl⟩)⟩
  refine ⟨L, rows, hL, h2, ?_⟩
  have hlen := h3.length_eq
  refine List.forall₂_iff_get.mpr ⟨hlen, fun i hi hi' => ?_⟩
  obtain ⟨d, hd, hp⟩ := (List.forall₂_iff_get.mp h3).2 i hi hi'
  have ho : q.get ⟨i, hi⟩ ∈ q := List.get_mem _ _
  generalize q.get ⟨i, hi⟩ = o at *
  have hsame : samplesOf ((x ++ e).zip (y ++ List.replicate e.length c)) c = times (m + 1) z := by
    rw [List.zip_append hy.symm, samplesOf_append, samplesOf_replicate, if_pos rfl, times_succ]
  have hother : ∀ c', c' ≠ c → samplesOf ((x ++ e).zip (y ++ List.replicate e.length c)) c' = samplesOf (x.zip y) c' := by
    intro c' h
    rw [List.zip_append hy.symm, samplesOf_append, samplesOf_replicate, if_neg h, List.append_nil]
  exact predicted (fun c' => moment g.regularize (samplesOf ((x ++ e).zip (y ++ List.replicate e.length c)) c'))
    (fun c' => sampleMean (samplesOf ((x ++ e).zip (y ++ List.replicate e.length c)) c')) _ _ h1.1 d _ hd hp c ((hL.2 c).mpr hc) (by
      intro v hv c' hc' hne' v' hv'
      simp only [hsame] at hv
      simp only [hother c' hne'] at hv'
      have hy' := (hL.2 c').mp hc'
      have hpos : 0 < E o c' := by
        refine lt_of_le_of_ne (dot_self_nonneg _) fun h0 => hne o ho c' hy' hne' (sub_eq_zero.mp (dotProduct_self_eq_zero.mp h0.symm))
      have k1 := key (o, c') (List.mem_product.mpr ⟨ho, hy'⟩) m hm hpos v hv
      have k2 := (C104_bounds g.regularize hr _ o v' hv').2
      refine k1.trans_le ?_
      rw [div_le_iff₀ (hs0 c'), mul_comm]
      exact k2)

/-- Classes 0 with samples 0 and 2, and 1 with sample 5: an observation beside the sample of class 1. -/
example := C168_majority sortPositions sortPositions_ranking (Gauss.mk 1 ⟨0, []⟩) (by norm_num) 1 (by norm_num) [![0], ![2], ![5]] (by simp) [0, 0, 1] rfl 0 (by simp)
  (by
    have s : samplesOf ([(![0] : Vec 1), ![2], ![5]].zip [0, 0, 1]) 0 = [![0], ![2]] := by simp [samplesOf]
    rw [s]
    intro w hw
    refine ⟨![0], by simp, fun h => hw ?_⟩
    have m1 : sampleMean ([![0], ![2]] : List (Vec 1)) = ![1] := by ext i; fin_cases i; norm_num [sampleMean]
    rw [m1] at h
    ext i; fin_cases i
    simpa [dotProduct] using h) [![499 / 100]] (by simp)
  (by
    intro o ho c' hc' hne
    have : c' = 1 := by simp at hc'; omega
    subst this
    have s : samplesOf ([(![0] : Vec 1), ![2], ![5]].zip [0, 0, 1]) 1 = [![5]] := by simp [samplesOf]
    rw [s]
    have m1 : sampleMean ([![5]] : List (Vec 1)) = ![5] := by ext i; fin_cases i; norm_num [sampleMean]
    rw [m1]
    simp only [List.mem_singleton] at ho
    subst ho
    intro h
    have := congrFun h 0
    norm_num at this)

end Verif.Props
