import Verif.Props.TrainingSet

/-
Property C165 of GaussianModel (diamondback/models/gaussian_model.py): what `regularize` does.
-/

namespace Verif.Props

open Verif Verif.Spec Matrix

/-- A squared distance is the largest value of a concave function. -/
theorem distance_ge {n : ℕ} (r : ℝ) (hr : 0 < r) (z : List (Vec n)) (x : Vec n) (d : ℝ) (h : IsSquaredDistance (moment r z) (sampleMean z) x d) (v : Vec n) :
    2 * (v ⬝ᵥ (x - sampleMean z)) - v ⬝ᵥ (moment r z *ᵥ v) ≤ d := by
  obtain ⟨w, h1, h2⟩ := h
  set a := x - sampleMean z with ha
  have g := le_trans (mul_nonneg hr.le (dot_self_nonneg (v - w))) (moment_ge r z (v - w))
  have hsym : w ⬝ᵥ (moment r z *ᵥ v) = v ⬝ᵥ a := by
    have : w ⬝ᵥ (moment r z *ᵥ v) = v ⬝ᵥ (moment r z *ᵥ w) := by
      rw [dot_moment, dot_moment, dotProduct_comm]
      congr 3
      exact List.map_congr_left fun v _ => mul_comm _ _
    rw [this, h1]
  have e : (v - w) ⬝ᵥ (moment r z *ᵥ (v - w)) = v ⬝ᵥ (moment r z *ᵥ v) - 2 * (v ⬝ᵥ a) + d := by
    simp only [Matrix.mulVec_sub, sub_dotProduct, dotProduct_sub, h1, hsym, ← h2]
    ring
  linarith

/-- C165: a larger `regularize` makes every squared distance smaller, but less than in proportion. -/
theorem C165_monotone {n : ℕ} (r r' : ℝ) (hr : 0 < r) (hrr : r ≤ r') (z : List (Vec n)) (x : Vec n) (d d' : ℝ)
    (h : IsSquaredDistance (moment r z) (sampleMean z) x d) (h' : IsSquaredDistance (moment r' z) (sampleMean z) x d') : d' ≤ d ∧ r * d ≤ r' * d' := by
  have hr' : 0 < r' := hr.trans_le hrr
  constructor
  · obtain ⟨w, h1, h2⟩ := h'
    have k := distance_ge r hr z x d h w
    have e : d' = w ⬝ᵥ (moment r' z *ᵥ w) := by rw [h1, h2]
    rw [moment_quad] at k e
    have := mul_le_mul_of_nonneg_right hrr (dot_self_nonneg w)
    linarith
  · obtain ⟨w, h1, h2⟩ := h
    have k := distance_ge r' hr' z x d' h' ((r / r') • w)
    have e : d = w ⬝ᵥ (moment r z *ᵥ w) := by rw [h1, h2]
    simp only [Matrix.mulVec_smul, smul_dotProduct, dotProduct_smul, smul_eq_mul, ← h2] at k
    rw [moment_quad] at k e
    set A := w ⬝ᵥ w with hA
    set B := (1 / (n : ℝ)) * (z.map fun v => ((v - sampleMean z) ⬝ᵥ w) ^ 2).sum with hB
    have hB0 : 0 ≤ B := mul_nonneg (by positivity) (list_sum_nonneg_of _ _ fun v _ => sq_nonneg _)
    clear_value A B
    have k' := mul_le_mul_of_nonneg_left k hr'.le
    have e1 : r' * (2 * (r / r' * d) - r / r' * (r / r' * (r' * A + B))) = 2 * (r * d) - r * (r * A) - r * (r / r' * B) := by
      field_simp
      ring
    have h3 : r / r' * B ≤ B := mul_le_of_le_one_left hB0 ((div_le_one hr').mpr hrr)
    have h4 := mul_le_mul_of_nonneg_left h3 hr.le
    rw [e1] at k'
    have e2 : r * d = r * (r * A) + r * B := by rw [e]; ring
    linarith

/-- C165: which `regularize` is enough for the class of the nearer mean to have the smaller squared distance. -/
theorem C165_order {n : ℕ} (r : ℝ) (hr : 0 < r) (z z' : List (Vec n)) (x : Vec n) (d d' : ℝ)
    (h : IsSquaredDistance (moment r z) (sampleMean z) x d) (h' : IsSquaredDistance (moment r z') (sampleMean z') x d')
    (hlt : ((x - sampleMean z) ⬝ᵥ (x - sampleMean z)) * (r + spread z' / n) < r * ((x - sampleMean z') ⬝ᵥ (x - sampleMean z'))) : d < d' := by
  have k1 := (C104_bounds r hr z x d h).1
  have k2 := (C104_bounds r hr z' x d' h').2
  have hsp : 0 ≤ spread z' / n := div_nonneg (list_sum_nonneg_of _ _ fun v _ => dot_self_nonneg _) (by positivity)
  have hp : 0 < r + spread z' / n := by linarith
  have k3 := mul_le_mul_of_nonneg_right k1 hp.le
  have k4 := mul_le_mul_of_nonneg_left k2 hr.le
  have k5 : (r * (r + spread z' / n)) * d < (r * (r + spread z' / n)) * d' := by linarith
  exact lt_of_mul_lt_mul_left k5 (by positivity)

/-- C165: with a large enough `regularize` every row of predict is ordered by the Euclidean distances of the observation from the means of the classes. -/
theorem C165_limit (argsort : List ℝ → List ℕ) (hs : ∀ v, IsRanking v (argsort v)) (n : ℕ) (hn : n ≠ 0) (x : List (Vec n)) (hx : x ≠ []) (y : List ℤ) (hy : y.length = x.length)
    (q : List (Vec n)) (hq : q ≠ []) :
    ∃ r₀ : ℝ, 0 < r₀ ∧ ∀ g : Gauss, r₀ ≤ g.regularize → ∃ L rows, IsLabels y L ∧ (g.fit (some ⟨n, x⟩) ⟨true, y⟩).2.predict argsort (some ⟨n, q⟩) = .ok rows ∧
      List.Forall₂ (fun o p => p.Perm (List.range L.length) ∧ p.Pairwise fun a b => ∀ c c', L[a]? = some c → L[b]? = some c' →
        (o - sampleMean (samplesOf (x.zip y) c)) ⬝ᵥ (o - sampleMean (samplesOf (x.zip y) c)) ≤
          (o - sampleMean (samplesOf (x.zip y) c')) ⬝ᵥ (o - sampleMean (samplesOf (x.zip y) c'))) q rows := by
  set E : Vec n → ℤ → ℝ := fun o c => (o - sampleMean (samplesOf (x.zip y) c)) ⬝ᵥ (o - sampleMean (samplesOf (x.zip y) c)) with hE
  set s : ℤ → ℝ := fun c => spread (samplesOf (x.zip y) c) / n with hs'
  have hone : ∀ (o : Vec n) (c c' : ℤ), ∃ r₀ : ℝ, 0 < r₀ ∧ ∀ r, r₀ ≤ r → E o c < E o c' → E o c * (r + s c') < r * E o c' := by
    intro o c c'
    refine ⟨|E o c * s c'| / |E o c' - E o c| + 1, by positivity, fun r hr hlt => ?_⟩
    have hp : 0 < E o c' - E o c := by linarith
    rw [abs_of_pos hp] at hr
    have h1 : |E o c * s c'| / (E o c' - E o c) < r := by linarith
    rw [div_lt_iff₀ hp] at h1
    have := le_abs_self (E o c * s c')
    linarith
  have hfin : ∀ T : List (Vec n × ℤ × ℤ), ∃ r₀ : ℝ, 0 < r₀ ∧ ∀ t ∈ T, ∀ r, r₀ ≤ r → E t.1 t.2.1 < E t.1 t.2.2 → E t.1 t.2.1 * (r + s t.2.2) < r * E t.1 t.2.2 := by
    intro T
    induction T with
    | nil => exact ⟨1, one_pos, by simp⟩
    | cons t T ih =>
      obtain ⟨r1, p1, k1⟩ := ih
      obtain ⟨r2, p2, k2⟩ := hone t.1 t.2.1 t.2.2
      refine ⟨max r1 r2, lt_max_of_lt_left p1, fun u hu r hr => ?_⟩
      rcases List.mem_cons.mp hu with rfl | hu
      · exact k2 r ((le_max_right _ _).trans hr)
      · exact k1 u hu r ((le_max_left _ _).trans hr)
  obtain ⟨r₀, hr₀, key⟩ := hfin (q.product (y.product y))
  refine ⟨r₀, hr₀, fun g hg => ?_⟩
  have hgr : 0 < g.regularize := hr₀.trans_le hg
  obtain ⟨L, rows, h1, h2, h3⟩ := C54_rows argsort hs g hgr n hn x hx y hy q hq
  refine ⟨L, rows, h1, h2, ?_⟩
  have hlen := h3.length_eq
  refine List.forall₂_iff_get.mpr ⟨hlen, fun i hi hi' => ?_⟩
  obtain ⟨d, hd, hp1, hp2⟩ := (List.forall₂_iff_get.mp h3).2 i hi hi'
  have hdl := hd.length_eq
  refine ⟨by rw [hdl]; exact hp1, hp2.imp fun {a b} hab c c' hc hc' => ?_⟩
  obtain ⟨ha, rfl⟩ := List.getElem?_eq_some_iff.mp hc
  obtain ⟨hb, rfl⟩ := List.getElem?_eq_some_iff.mp hc'
  have ga := (List.forall₂_iff_get.mp hd).2 a ha (by omega)
  have gb := (List.forall₂_iff_get.mp hd).2 b hb (by omega)
  by_contra hnot
  rw [not_le] at hnot
  have hq' : q.get ⟨i, hi⟩ ∈ q := List.get_mem _ _
  have hmem : ((q.get ⟨i, hi⟩, L[b], L[a]) : Vec n × ℤ × ℤ) ∈ q.product (y.product y) :=
    List.mem_product.mpr ⟨hq', List.mem_product.mpr ⟨(h1.2 _).mp (List.getElem_mem hb), (h1.2 _).mp (List.getElem_mem ha)⟩⟩
  have hlt := C165_order g.regularize hgr _ _ _ _ _ gb ga (key _ hmem g.regularize hg hnot)
  have e1 : d.getD a 0 = d.get ⟨a, by omega⟩ := by simp [List.getD_eq_getElem?_getD, (by omega : a < d.length)]
  have e2 : d.getD b 0 = d.get ⟨b, by omega⟩ := by simp [List.getD_eq_getElem?_getD, (by omega : b < d.length)]
  rw [e1, e2] at hab
  exact absurd hab (not_le.mpr hlt)

/-- Three samples in two classes. -/
example := C165_limit sortPositions sortPositions_ranking 1 (by norm_num) [![0], ![1], ![9]] (by simp) [0, 0, 1] rfl [![3], ![6]] (by simp)

/-- A class of one column. -/
theorem one_column (r m S o : ℝ) (hr : 0 < r) (z : List (Vec 1)) (hm : sampleMean z = ![m]) (hS : scatter z 0 0 = S) (hS0 : 0 ≤ S) :
    ∀ d, IsSquaredDistance (moment r z) (sampleMean z) ![o] d ↔ d = (o - m) ^ 2 / (S + r) := by
  have hp : (moment r z).PosDef := by
    have := gm.covariance_posDef r hr z
    rwa [gm.covariance_eq] at this
  have hne : S + r ≠ 0 := by positivity
  have h : IsSquaredDistance (moment r z) (sampleMean z) ![o] ((o - m) ^ 2 / (S + r)) := by
    refine ⟨![(o - m) / (S + r)], ?_, ?_⟩
    · ext i; fin_cases i
      simp [moment, hS, hm, Matrix.mulVec, dotProduct]
      field_simp
    · rw [hm]; simp [dotProduct]; field_simp
  exact fun d => ⟨fun hd => IsSquaredDistance.unique hp hd h, fun e => e ▸ h⟩

/-- C165: with a small `regularize` it need not be so: a class which spreads widely is predicted although the mean of the other one is nearer. -/
theorem C165_small (argsort : List ℝ → List ℕ) (hs : ∀ v, IsRanking v (argsort v)) (g : Gauss) (hr : 0 < g.regularize) (hr1 : g.regularize ≤ 10) :
    ∃ t, (g.fit (some ⟨1, [![0], ![10], ![11]]⟩) ⟨true, [1, 1, 2]⟩).2.predict argsort (some ⟨1, [![9]]⟩) = .ok [0 :: t] ∧
      sampleMean (samplesOf ([(![0] : Vec 1), ![10], ![11]].zip [1, 1, 2]) 1) = ![5] ∧
      sampleMean (samplesOf ([(![0] : Vec 1), ![10], ![11]].zip [1, 1, 2]) 2) = ![11] := by
  have s1 : samplesOf ([(![0] : Vec 1), ![10], ![11]].zip [1, 1, 2]) 1 = [![0], ![10]] := by simp [samplesOf]
  have s2 : samplesOf ([(![0] : Vec 1), ![10], ![11]].zip [1, 1, 2]) 2 = [![11]] := by simp [samplesOf]
  have m1 : sampleMean ([![0], ![10]] : List (Vec 1)) = ![5] := by ext i; fin_cases i; norm_num [sampleMean]
  have m2 : sampleMean ([![11]] : List (Vec 1)) = ![11] := by ext i; fin_cases i; norm_num [sampleMean]
  have c1 : scatter ([![0], ![10]] : List (Vec 1)) 0 0 = 50 := by norm_num [scatter, m1]
  have c2 : scatter ([![11]] : List (Vec 1)) 0 0 = 0 := by norm_num [scatter, m2]
  obtain ⟨L, rows, h1, h2, h3⟩ := C54_rows argsort hs g hr 1 one_ne_zero [![0], ![10], ![11]] (by simp) [1, 1, 2] rfl [![9]] (by simp)
  have hL : L = [1, 2] := (gm.classes_eq _ _ h1).symm.trans (gm.classes_eq [1, 1, 2] [1, 2] (by simp [IsLabels]))
  subst hL
  obtain ⟨p, rows', hrow, hnil, rfl⟩ := List.forall₂_cons_left_iff.mp h3
  obtain rfl := List.forall₂_nil_left_iff.mp hnil
  obtain ⟨d, hd, hp⟩ := hrow
  obtain ⟨a, t, rfl, ha⟩ := predicted (fun c => moment g.regularize (samplesOf ([(![0] : Vec 1), ![10], ![11]].zip [1, 1, 2]) c))
    (fun c => sampleMean (samplesOf ([(![0] : Vec 1), ![10], ![11]].zip [1, 1, 2]) c)) _ _ h1.1 d p hd hp 1 (by simp) (by
      intro v hv c hc hne v' hv'
      have : c = 2 := by simp at hc; omega
      subst this
      simp only [s1, s2] at hv hv'
      rw [one_column g.regularize 5 50 9 hr _ m1 c1 (by norm_num)] at hv
      rw [one_column g.regularize 11 0 9 hr _ m2 c2 le_rfl] at hv'
      rw [hv, hv', div_lt_div_iff₀ (by linarith) (by linarith)]
      nlinarith)
  have : a = 0 := by
    rcases a with _ | _ | a
    · rfl
    · simp at ha
    · simp at ha
  subst this
  exact ⟨t, h2, by rw [s1, m1], by rw [s2, m2]⟩

/-- The hypotheses of `C165_order` hold, and so those of `C165_monotone` at 10 and 100: from 5 and 11 the observation 9 has the squared distances 16 and 4; 100 is enough. -/
example : (4 : ℝ) * (100 + 50 / 1) < 100 * 16 ∧ ¬ (4 : ℝ) * (10 + 50 / 1) < 10 * 16 := by norm_num

end Verif.Props
