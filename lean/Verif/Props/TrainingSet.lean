import Verif.Props.Gaussian
import Mathlib.Tactic.Positivity
import Mathlib.Tactic.LinearCombination
import Mathlib.Tactic.Linarith

/-
Property C104: GaussianModel (diamondback/models/gaussian_model.py) on its training set.
-/

namespace Verif.Props

open Verif Verif.Spec Matrix

/-- The sum of the squared Euclidean distances of samples from their mean. -/
noncomputable def spread {n : ℕ} (z : List (Vec n)) : ℝ := (z.map fun v => (v - sampleMean z) ⬝ᵥ (v - sampleMean z)).sum

theorem list_sum_nonneg_of {α : Type*} (l : List α) (f : α → ℝ) (h : ∀ v ∈ l, 0 ≤ f v) : 0 ≤ (l.map f).sum :=
  List.sum_nonneg (by intro t ht; obtain ⟨v, hv, rfl⟩ := List.mem_map.mp ht; exact h v hv)

theorem list_sum_le_of {α : Type*} (l : List α) (f g : α → ℝ) (h : ∀ v ∈ l, f v ≤ g v) : (l.map f).sum ≤ (l.map g).sum := by
  induction l with
  | nil => simp
  | cons a t ih =>
    simp only [List.map_cons, List.sum_cons]
    exact add_le_add (h a (by simp)) (ih fun v hv => h v (by simp [hv]))

theorem list_le_sum_of {α : Type*} (l : List α) (f : α → ℝ) (h : ∀ v ∈ l, 0 ≤ f v) (a : α) (ha : a ∈ l) : f a ≤ (l.map f).sum := by
  induction l with
  | nil => simp at ha
  | cons b t ih =>
    simp only [List.map_cons, List.sum_cons]
    have h1 := h b (by simp)
    have h2 := list_sum_nonneg_of t f fun v hv => h v (by simp [hv])
    rcases List.mem_cons.mp ha with rfl | ha
    · linarith
    · have := ih (fun v hv => h v (by simp [hv])) ha
      linarith

theorem dot_scatter {n : ℕ} (z : List (Vec n)) (x y : Vec n) :
    x ⬝ᵥ (scatter z *ᵥ y) = (z.map fun v => ((v - sampleMean z) ⬝ᵥ x) * ((v - sampleMean z) ⬝ᵥ y)).sum := by
  have key : ∀ (l : List (Vec n)) (u : Vec n), x ⬝ᵥ ((fun i j => (l.map fun v => (v i - u i) * (v j - u j)).sum : Matrix (Fin n) (Fin n) ℝ) *ᵥ y) =
      (l.map fun v => ((v - u) ⬝ᵥ x) * ((v - u) ⬝ᵥ y)).sum := by
    intro l u
    induction l with
    | nil => simp [dotProduct, Matrix.mulVec]
    | cons a t ih =>
      simp only [List.map_cons, List.sum_cons]
      rw [← ih]
      simp only [dotProduct, Matrix.mulVec, add_mul, Finset.sum_add_distrib, mul_add, Pi.sub_apply]
      congr 1
      rw [Finset.sum_mul_sum]
      refine Finset.sum_congr rfl fun i _ => ?_
      rw [Finset.mul_sum]
      refine Finset.sum_congr rfl fun j _ => ?_
      ring
  exact key z (sampleMean z)

theorem dot_moment {n : ℕ} (r : ℝ) (z : List (Vec n)) (x y : Vec n) :
    x ⬝ᵥ (moment r z *ᵥ y) = r * (x ⬝ᵥ y) + (1 / (n : ℝ)) * (z.map fun v => ((v - sampleMean z) ⬝ᵥ x) * ((v - sampleMean z) ⬝ᵥ y)).sum := by
  rw [← dot_scatter]
  simp [moment, Matrix.add_mulVec, Matrix.smul_mulVec, dotProduct_add, dotProduct_smul]
  ring

theorem dot_self_nonneg {n : ℕ} (x : Vec n) : 0 ≤ x ⬝ᵥ x := Finset.sum_nonneg fun _ _ => mul_self_nonneg _

theorem dot_cauchy {n : ℕ} (x y : Vec n) : (x ⬝ᵥ y) ^ 2 ≤ (x ⬝ᵥ x) * (y ⬝ᵥ y) := by
  have := Finset.sum_mul_sq_le_sq_mul_sq Finset.univ x y
  simpa [dotProduct, pow_two] using this

/-- The quadratic form of the matrix of a class. -/
theorem moment_quad {n : ℕ} (r : ℝ) (z : List (Vec n)) (w : Vec n) :
    w ⬝ᵥ (moment r z *ᵥ w) = r * (w ⬝ᵥ w) + (1 / (n : ℝ)) * (z.map fun v => ((v - sampleMean z) ⬝ᵥ w) ^ 2).sum := by
  rw [dot_moment]; simp only [pow_two]

theorem moment_ge {n : ℕ} (r : ℝ) (z : List (Vec n)) (w : Vec n) : r * (w ⬝ᵥ w) ≤ w ⬝ᵥ (moment r z *ᵥ w) := by
  rw [moment_quad]
  have : 0 ≤ (1 / (n : ℝ)) * (z.map fun v => ((v - sampleMean z) ⬝ᵥ w) ^ 2).sum := mul_nonneg (by positivity) (list_sum_nonneg_of _ _ fun v _ => sq_nonneg _)
  linarith

theorem moment_le {n : ℕ} (r : ℝ) (z : List (Vec n)) (w : Vec n) : w ⬝ᵥ (moment r z *ᵥ w) ≤ (r + spread z / n) * (w ⬝ᵥ w) := by
  rw [moment_quad]
  have : (z.map fun v => ((v - sampleMean z) ⬝ᵥ w) ^ 2).sum ≤ (z.map fun v => ((v - sampleMean z) ⬝ᵥ (v - sampleMean z)) * (w ⬝ᵥ w)).sum :=
    list_sum_le_of _ _ _ fun v _ => dot_cauchy _ _
  rw [List.sum_map_mul_right] at this
  have h2 : (1 / (n : ℝ)) * (z.map fun v => ((v - sampleMean z) ⬝ᵥ w) ^ 2).sum ≤ (1 / (n : ℝ)) * (spread z * (w ⬝ᵥ w)) := mul_le_mul_of_nonneg_left this (by positivity)
  calc _ ≤ r * (w ⬝ᵥ w) + (1 / (n : ℝ)) * (spread z * (w ⬝ᵥ w)) := by linarith
    _ = _ := by ring

/-- C104: the squared distance of a training sample from its own class is less than the number of columns, however far it lies from the mean. -/
theorem C104_own {n : ℕ} (hn : n ≠ 0) (r : ℝ) (hr : 0 < r) (z : List (Vec n)) (v : Vec n) (hv : v ∈ z) (d : ℝ) (h : IsSquaredDistance (moment r z) (sampleMean z) v d) : d < n := by
  obtain ⟨w, h1, h2⟩ := h
  have hn' : (0 : ℝ) < n := by exact_mod_cast Nat.pos_of_ne_zero hn
  have e : d = w ⬝ᵥ (moment r z *ᵥ w) := by rw [h1, h2]
  rw [moment_quad] at e
  have hs : ((v - sampleMean z) ⬝ᵥ w) ^ 2 ≤ (z.map fun v => ((v - sampleMean z) ⬝ᵥ w) ^ 2).sum := list_le_sum_of z (fun v => ((v - sampleMean z) ⬝ᵥ w) ^ 2) (fun v _ => sq_nonneg _) v hv
  rw [dotProduct_comm, ← h2] at hs
  by_contra hc
  push Not at hc
  have h3 : d ≤ 1 / (n : ℝ) * d ^ 2 := by
    rw [one_div, inv_mul_eq_div, le_div_iff₀ hn']
    nlinarith
  have h4 : 1 / (n : ℝ) * d ^ 2 ≤ 1 / (n : ℝ) * (z.map fun v => ((v - sampleMean z) ⬝ᵥ w) ^ 2).sum := mul_le_mul_of_nonneg_left hs (by positivity)
  have h5 : w ⬝ᵥ w ≤ 0 := by
    by_contra hp
    push Not at hp
    have := mul_pos hr hp
    linarith
  have h6 : w ⬝ᵥ w = 0 := le_antisymm h5 (dot_self_nonneg w)
  have hw : w = 0 := dotProduct_self_eq_zero.mp h6
  rw [hw, zero_dotProduct] at h2
  linarith

/-- C104: the squared distance from a class lies between the squared Euclidean distance divided by `regularize` and that divided by `regularize` and the spread of the class. -/
theorem C104_bounds {n : ℕ} (r : ℝ) (hr : 0 < r) (z : List (Vec n)) (x : Vec n) (d : ℝ) (h : IsSquaredDistance (moment r z) (sampleMean z) x d) :
    r * d ≤ (x - sampleMean z) ⬝ᵥ (x - sampleMean z) ∧ (x - sampleMean z) ⬝ᵥ (x - sampleMean z) ≤ (r + spread z / n) * d := by
  obtain ⟨w, h1, h2⟩ := h
  set a := x - sampleMean z with ha
  have e : d = w ⬝ᵥ (moment r z *ᵥ w) := by rw [h1, h2]
  have g1 := moment_ge r z w
  rw [← e] at g1
  have hw0 := dot_self_nonneg w
  have ha0 := dot_self_nonneg a
  have hd0 : 0 ≤ d := le_trans (mul_nonneg hr.le hw0) g1
  rcases eq_or_lt_of_le hd0 with hd | hd
  · have hw : w = 0 := by
      have : w ⬝ᵥ w = 0 := by nlinarith
      exact dotProduct_self_eq_zero.mp this
    rw [hw, Matrix.mulVec_zero] at h1
    rw [← hd, ← h1]; simp
  · constructor
    · have := dot_cauchy w a
      rw [← h2] at this
      -- d² ≤ |w|² |a|² and r |w|² ≤ d
      have h3 : r * d ^ 2 ≤ d * (a ⬝ᵥ a) := by
        calc r * d ^ 2 ≤ r * ((w ⬝ᵥ w) * (a ⬝ᵥ a)) := mul_le_mul_of_nonneg_left this hr.le
          _ = (r * (w ⬝ᵥ w)) * (a ⬝ᵥ a) := by ring
          _ ≤ d * (a ⬝ᵥ a) := mul_le_mul_of_nonneg_right g1 ha0
      nlinarith
    · have g2 := moment_le r z a
      -- positivity on the combination d a - |a|² w
      have g3 := le_trans (mul_nonneg hr.le (dot_self_nonneg (d • a - (a ⬝ᵥ a) • w))) (moment_ge r z (d • a - (a ⬝ᵥ a) • w))
      have hsym : w ⬝ᵥ (moment r z *ᵥ a) = a ⬝ᵥ a := by
        have : w ⬝ᵥ (moment r z *ᵥ a) = a ⬝ᵥ (moment r z *ᵥ w) := by
          rw [dot_moment, dot_moment, dotProduct_comm]
          congr 3
          exact List.map_congr_left fun v _ => mul_comm _ _
        rw [this, h1]
      have e3 : (d • a - (a ⬝ᵥ a) • w) ⬝ᵥ (moment r z *ᵥ (d • a - (a ⬝ᵥ a) • w)) = d * (d * (a ⬝ᵥ (moment r z *ᵥ a)) - (a ⬝ᵥ a) ^ 2) := by
        simp only [Matrix.mulVec_sub, Matrix.mulVec_smul, sub_dotProduct, dotProduct_sub, smul_dotProduct, dotProduct_smul, smul_eq_mul, h1, ← h2, hsym]
        ring
      rw [e3] at g3
      have g4 : (a ⬝ᵥ a) ^ 2 ≤ d * (a ⬝ᵥ (moment r z *ᵥ a)) := by
        have := (mul_nonneg_iff_of_pos_left hd).mp g3
        linarith
      rcases eq_or_lt_of_le ha0 with hz | hz
      · rw [← hz]
        have hsp : 0 ≤ spread z := list_sum_nonneg_of _ _ fun v _ => dot_self_nonneg _
        positivity
      · have g5 : (a ⬝ᵥ a) ^ 2 ≤ d * ((r + spread z / n) * (a ⬝ᵥ a)) := le_trans g4 (mul_le_mul_of_nonneg_left g2 hd.le)
        nlinarith

/-- Samples 0 and 4 and `regularize` 1: the squared distance of the sample 4 from its class is 4/9. -/
example : IsSquaredDistance (moment 1 [![0], ![4]]) (sampleMean [![0], ![4]]) (![4] : Vec 1) (4 / 9) ∧ (4 / 9 : ℝ) < (1 : ℕ) := by
  have m1 : sampleMean ([![0], ![4]] : List (Vec 1)) = ![2] := by ext i; fin_cases i; norm_num [sampleMean]
  have h : IsSquaredDistance (moment 1 [![0], ![4]]) (sampleMean [![0], ![4]]) (![4] : Vec 1) (4 / 9) := by
    refine ⟨![2 / 9], ?_, ?_⟩
    · ext i; fin_cases i
      simp [moment, scatter, m1, Matrix.mulVec, dotProduct, Matrix.add_apply]
      norm_num
    · rw [m1]; simp [dotProduct]; norm_num
  exact ⟨h, C104_own one_ne_zero 1 one_pos _ _ (by simp) _ h⟩

/-- The first entry of a row of predict is the position of a class if the squared distance from this class is less than from every other one. -/
theorem first_is_nearest (d : List ℝ) (p : List ℕ) (h : IsRanking d p) (a : ℕ) (ha : a < d.length) (hlt : ∀ b < d.length, b ≠ a → d.getD a 0 < d.getD b 0) : ∃ t, p = a :: t := by
  obtain ⟨c, t, rfl, hc, hle⟩ := C54_first d p h (by rintro rfl; simp at ha)
  refine ⟨t, ?_⟩
  by_contra hne
  have : c ≠ a := by rintro rfl; exact hne rfl
  exact absurd (hle a ha) (not_le.mpr (hlt c hc this))

/-- The rows of predict start with the class of an observation whose squared distance from it is less than a bound that all others exceed. -/
theorem predicted {n : ℕ} (S : ℤ → Matrix (Fin n) (Fin n) ℝ) (u : ℤ → Vec n) (o : Vec n) (L : List ℤ) (hL : L.Pairwise (· < ·)) (d : List ℝ) (p : List ℕ)
    (hd : List.Forall₂ (fun c v => IsSquaredDistance (S c) (u c) o v) L d) (hp : IsRanking d p) (c : ℤ) (hc : c ∈ L)
    (hlt : ∀ v, IsSquaredDistance (S c) (u c) o v → ∀ c' ∈ L, c' ≠ c → ∀ v', IsSquaredDistance (S c') (u c') o v' → v < v') : ∃ a t, p = a :: t ∧ L[a]? = some c := by
  obtain ⟨a, ha, rfl⟩ := List.mem_iff_getElem.mp hc
  have hlen := hd.length_eq
  have hget := (List.forall₂_iff_get.mp hd).2
  obtain ⟨t, ht⟩ := first_is_nearest d p hp a (by omega) (fun b hb hne => by
    have h1 := hget a ha (by omega)
    have h2 := hget b (by omega) hb
    have hne' : L[b] ≠ L[a] := by
      have hnd : L.Nodup := hL.imp fun h => h.ne
      exact fun e => hne ((hnd.getElem_inj_iff).mp e)
    have := hlt _ h1 _ (List.getElem_mem (by omega : b < L.length)) hne' _ h2
    simpa [List.getD_eq_getElem?_getD, hb, (by omega : a < d.length)] using this)
  exact ⟨a, t, ht, by simp⟩

theorem samples_mem {n : ℕ} (xy : List (Vec n × ℤ)) (v : Vec n) (c : ℤ) (h : (v, c) ∈ xy) : v ∈ samplesOf xy c := by
  simp only [samplesOf, List.mem_filterMap]
  exact ⟨(v, c), h, by simp⟩

/-- C104: predict puts first the class of each training sample whose squared Euclidean distance from the mean of every other class is at least the spread of that class and
`regularize` times the number of columns. -/
theorem C104_training (argsort : List ℝ → List ℕ) (hs : ∀ v, IsRanking v (argsort v)) (g : Gauss) (hr : 0 < g.regularize) (n : ℕ) (hn : n ≠ 0) (x : List (Vec n)) (hx : x ≠ []) (y : List ℤ) (hy : y.length = x.length) :
    ∃ L rows, IsLabels y L ∧ (g.fit (some ⟨n, x⟩) ⟨true, y⟩).2.predict argsort (some ⟨n, x⟩) = .ok rows ∧
      List.Forall₂ (fun s p => (∀ c ∈ y, c ≠ s.2 → n * g.regularize + spread (samplesOf (x.zip y) c) ≤ (s.1 - sampleMean (samplesOf (x.zip y) c)) ⬝ᵥ (s.1 - sampleMean (samplesOf (x.zip y) c))) →
        ∃ a t, p = a :: t ∧ L[a]? = some s.2) (x.zip y) rows := by
  obtain ⟨L, rows, h1, h2, h3⟩ := C54_rows argsort hs g hr n hn x hx y hy x hx
  refine ⟨L, rows, h1, h2, ?_⟩
  have hn' : (0 : ℝ) < n := by exact_mod_cast Nat.pos_of_ne_zero hn
  have hlen := h3.length_eq
  refine List.forall₂_iff_get.mpr ⟨by simp; omega, fun i hi hi' hfar => ?_⟩
  have hix : i < x.length := by omega
  have hiy : i < y.length := by omega
  simp only [List.get_eq_getElem, List.getElem_zip] at hfar ⊢
  obtain ⟨d, hd, hp⟩ := (List.forall₂_iff_get.mp h3).2 i hix hi'
  simp only [List.get_eq_getElem] at hd hp
  refine predicted _ _ _ L h1.1 d _ hd hp y[i] ((h1.2 _).mpr (List.getElem_mem hiy)) fun v hv c hc hne v' hv' => ?_
  have hmem : (x[i], y[i]) ∈ x.zip y := by
    have : (x.zip y)[i] = (x[i], y[i]) := by simp
    rw [← this]; exact List.getElem_mem hi
  have k1 := C104_own hn g.regularize hr _ _ (samples_mem _ _ _ hmem) v hv
  have k2 := (C104_bounds g.regularize hr _ _ _ hv').2
  have k3 := hfar c ((h1.2 _).mp hc) hne
  have hsp : 0 ≤ spread (samplesOf (x.zip y) c) := list_sum_nonneg_of _ _ fun v _ => dot_self_nonneg _
  have e : (g.regularize + spread (samplesOf (x.zip y) c) / n) * (n : ℝ) = n * g.regularize + spread (samplesOf (x.zip y) c) := by field_simp
  have k4 : (g.regularize + spread (samplesOf (x.zip y) c) / n) * (n : ℝ) ≤ (g.regularize + spread (samplesOf (x.zip y) c) / n) * v' := by rw [e]; exact le_trans k3 k2
  have k5 : (n : ℝ) ≤ v' := le_of_mul_le_mul_left k4 (by positivity)
  linarith

/-- C104: predict puts first the class of an observation whose mean is near: its squared Euclidean distance divided by `regularize` is less than that from every other mean divided by
`regularize` and the spread of the other class over the columns. -/
theorem C104_near (argsort : List ℝ → List ℕ) (hs : ∀ v, IsRanking v (argsort v)) (g : Gauss) (hr : 0 < g.regularize) (n : ℕ) (hn : n ≠ 0) (x : List (Vec n)) (hx : x ≠ []) (y : List ℤ) (hy : y.length = x.length)
    (q : List (Vec n)) (hq : q ≠ []) : ∃ L rows, IsLabels y L ∧ (g.fit (some ⟨n, x⟩) ⟨true, y⟩).2.predict argsort (some ⟨n, q⟩) = .ok rows ∧
      List.Forall₂ (fun o p => ∀ k ∈ y, (∀ c ∈ y, c ≠ k → ((o - sampleMean (samplesOf (x.zip y) k)) ⬝ᵥ (o - sampleMean (samplesOf (x.zip y) k))) / g.regularize <
          ((o - sampleMean (samplesOf (x.zip y) c)) ⬝ᵥ (o - sampleMean (samplesOf (x.zip y) c))) / (g.regularize + spread (samplesOf (x.zip y) c) / n)) →
        ∃ a t, p = a :: t ∧ L[a]? = some k) q rows := by
  obtain ⟨L, rows, h1, h2, h3⟩ := C54_rows argsort hs g hr n hn x hx y hy q hq
  refine ⟨L, rows, h1, h2, h3.imp ?_⟩
  rintro o p ⟨d, hd, hp⟩ k hk hfar
  refine predicted _ _ _ L h1.1 d _ hd hp k ((h1.2 _).mpr hk) fun v hv c hc hne v' hv' => ?_
  have k1 := (C104_bounds g.regularize hr _ _ _ hv).1
  have k2 := (C104_bounds g.regularize hr _ _ _ hv').2
  have hsp : 0 ≤ spread (samplesOf (x.zip y) c) := list_sum_nonneg_of _ _ fun v _ => dot_self_nonneg _
  have hpos : 0 < g.regularize + spread (samplesOf (x.zip y) c) / n := by positivity
  calc v ≤ _ := (le_div_iff₀' hr).mpr k1
    _ < _ := hfar c ((h1.2 _).mp hc) hne
    _ ≤ v' := (div_le_iff₀' hpos).mpr k2

/-- Two classes of one column, means 0 and 10: the hypotheses hold. -/
example : ∀ s ∈ ([![-1], ![1], ![9], ![11]] : List (Vec 1)).zip [3, 3, 8, 8], ∀ c ∈ ([3, 3, 8, 8] : List ℤ), c ≠ s.2 →
    ((1 : ℕ) : ℝ) * 1 + spread (samplesOf (([![-1], ![1], ![9], ![11]] : List (Vec 1)).zip [3, 3, 8, 8]) c) ≤
      (s.1 - sampleMean (samplesOf (([![-1], ![1], ![9], ![11]] : List (Vec 1)).zip [3, 3, 8, 8]) c)) ⬝ᵥ (s.1 - sampleMean (samplesOf (([![-1], ![1], ![9], ![11]] : List (Vec 1)).zip [3, 3, 8, 8]) c)) := by
  have e3 : samplesOf (([![-1], ![1], ![9], ![11]] : List (Vec 1)).zip [3, 3, 8, 8]) 3 = [![-1], ![1]] := by simp [samplesOf]
  have e8 : samplesOf (([![-1], ![1], ![9], ![11]] : List (Vec 1)).zip [3, 3, 8, 8]) 8 = [![9], ![11]] := by simp [samplesOf]
  intro s hs c hc hne
  simp only [List.zip_cons_cons, List.zip_nil_right, List.mem_cons, List.not_mem_nil, or_false] at hs hc
  rcases hs with rfl | rfl | rfl | rfl <;> rcases hc with rfl | rfl | rfl | rfl <;> simp only [ne_eq, not_true_eq_false] at hne <;>
    first | rw [e3] | rw [e8]
  all_goals norm_num [spread, sampleMean, dotProduct]

example := C104_training sortPositions sortPositions_ranking ⟨1, ⟨0, []⟩⟩ one_pos 1 one_ne_zero [![-1], ![1], ![9], ![11]] (by simp) [3, 3, 8, 8] rfl

/-- The observation 1/2 and the means 0 and 10: the hypotheses of C104_near hold with class 3. -/
example : ∀ c ∈ ([3, 3, 8, 8] : List ℤ), c ≠ 3 → (((![1 / 2] : Vec 1) - sampleMean [![-1], ![1]]) ⬝ᵥ ((![1 / 2] : Vec 1) - sampleMean [![-1], ![1]])) / 1 <
    (((![1 / 2] : Vec 1) - sampleMean [![9], ![11]]) ⬝ᵥ ((![1 / 2] : Vec 1) - sampleMean [![9], ![11]])) / (1 + spread ([![9], ![11]] : List (Vec 1)) / (1 : ℕ)) := by
  intro _ _ _
  norm_num [spread, sampleMean, dotProduct]

example := C104_near sortPositions sortPositions_ranking ⟨1, ⟨0, []⟩⟩ one_pos 1 one_ne_zero [![-1], ![1], ![9], ![11]] (by simp) [3, 3, 8, 8] rfl [![1 / 2]] (by simp)

/-- C104: the condition is needed: the sample 0 of a class 0, 4 is predicted to be of another class that contains it. -/
theorem C104_condition (argsort : List ℝ → List ℕ) (hs : ∀ v, IsRanking v (argsort v)) : ∃ L a t rows, IsLabels [1, 1, 2] L ∧
    ((Gauss.mk 1 ⟨0, []⟩).fit (some ⟨1, [![0], ![4], ![0]]⟩) ⟨true, [1, 1, 2]⟩).2.predict argsort (some ⟨1, [![0]]⟩) = .ok ((a :: t) :: rows) ∧ L[a]? = some 2 := by
  obtain ⟨L, rows, h1, h2, h3⟩ := C54_rows argsort hs ⟨1, ⟨0, []⟩⟩ one_pos 1 one_ne_zero [![0], ![4], ![0]] (by simp) [1, 1, 2] rfl [![0]] (by simp)
  obtain ⟨p, rest, ⟨d, hd, hp⟩, -, rfl⟩ := List.forall₂_cons_left_iff.mp h3
  have e1 : samplesOf (([![0], ![4], ![0]] : List (Vec 1)).zip [1, 1, 2]) 1 = [![0], ![4]] := by simp [samplesOf]
  have e2 : samplesOf (([![0], ![4], ![0]] : List (Vec 1)).zip [1, 1, 2]) 2 = [![0]] := by simp [samplesOf]
  have m1 : sampleMean ([![0], ![4]] : List (Vec 1)) = ![2] := by ext i; fin_cases i; norm_num [sampleMean]
  have m2 : sampleMean ([![0]] : List (Vec 1)) = ![0] := by ext i; fin_cases i; norm_num [sampleMean]
  obtain ⟨a, t, rfl, ha⟩ := predicted _ _ _ L h1.1 d p hd hp 2 ((h1.2 _).mpr (by simp)) (by
    intro v hv c hc hne v' hv'
    have : c = 1 := by
      have := (h1.2 _).mp hc
      simp at this
      tauto
    subst this
    rw [e2, m2] at hv
    rw [e1, m1] at hv'
    obtain ⟨w, -, hv⟩ := hv
    obtain ⟨w', hw, hv'⟩ := hv'
    have k := congrFun hw 0
    simp [moment, scatter, m1, Matrix.mulVec, dotProduct, Matrix.add_apply] at k
    simp [dotProduct] at hv hv'
    norm_num at k
    rw [hv, hv']
    linarith)
  exact ⟨L, a, t, rest, h1, h2, ha⟩

/-- The hypothesis is met. -/
example := C104_condition sortPositions sortPositions_ranking

end Verif.Props
