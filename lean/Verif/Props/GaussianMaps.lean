import Verif.Props.Gaussian
import Mathlib.Algebra.BigOperators.Field

/- Property C83: how GaussianModel (diamondback/models/gaussian_model.py) follows linear maps of the observations. -/

namespace Verif.Props

open Verif Verif.Spec Matrix

theorem sampleMean_map {n : ℕ} (z : List (Vec n)) (P : Matrix (Fin n) (Fin n) ℝ) : sampleMean (z.map (P *ᵥ ·)) = P *ᵥ sampleMean z := by
  have hs : ∀ z : List (Vec n), ∀ j, ((z.map (P *ᵥ ·)).map fun v => v j).sum = ∑ k, P j k * (z.map fun v => v k).sum := by
    intro z j
    induction z with
    | nil => simp
    | cons v z ih =>
      simp only [List.map_cons, List.sum_cons, mul_add, Finset.sum_add_distrib, ← ih]
      rfl
  funext j
  simp only [sampleMean, hs, List.length_map, mulVec, dotProduct, Finset.sum_div, mul_div_assoc]

theorem sum_products_map {n : ℕ} (P : Matrix (Fin n) (Fin n) ℝ) (u : Vec n) (z : List (Vec n)) (i j : Fin n) :
    (z.map fun v => (P *ᵥ (v - u)) i * (P *ᵥ (v - u)) j).sum = ∑ k, ∑ l, P i k * (z.map fun v => (v k - u k) * (v l - u l)).sum * P j l := by
  induction z with
  | nil => simp
  | cons v z ih =>
    simp only [List.map_cons, List.sum_cons, mul_add, add_mul, Finset.sum_add_distrib, ih]
    congr 1
    simp only [mulVec, dotProduct, Finset.sum_mul_sum, Pi.sub_apply]
    refine Finset.sum_congr rfl fun k _ => Finset.sum_congr rfl fun l _ => by ring

theorem scatter_map {n : ℕ} (z : List (Vec n)) (P : Matrix (Fin n) (Fin n) ℝ) : scatter (z.map (P *ᵥ ·)) = P * scatter z * Pᵀ := by
  funext i j
  have h := sum_products_map P (sampleMean z) z i j
  simp only [scatter, List.map_map, sampleMean_map, Function.comp_def]
  simp only [mulVec_sub, Pi.sub_apply] at h
  rw [h]
  simp only [mul_apply, transpose_apply, Finset.sum_mul]
  rw [Finset.sum_comm]
  rfl

theorem covariance_map {n : ℕ} (z : List (Vec n)) (P : Matrix (Fin n) (Fin n) ℝ) (r r' : ℝ) (hr : r' • (1 : Matrix (Fin n) (Fin n) ℝ) = r • (P * Pᵀ)) :
    gm.covariance r' (z.map (P *ᵥ ·)) = P * gm.covariance r z * Pᵀ := by
  rw [gm.covariance_eq, gm.covariance_eq, scatter_map, hr]
  simp [mul_add, add_mul]

/-- C83.  An invertible linear map of the samples and of the observations leaves the outcome of fit and all predictions as they are, provided that it maps the regularisation as well:
`r' 1 = r P Pᵀ`. -/
theorem C83_linear (argsort : List ℝ → List ℕ) (r r' : ℝ) (fitted fitted' : (n : ℕ) × List (GClass n)) (n : ℕ) (hn : n ≠ 0) (x : List (Vec n)) (hx : x ≠ []) (y : List ℤ) (hy : y.length = x.length)
    (q : List (Vec n)) (P : Matrix (Fin n) (Fin n) ℝ) (hP : P.det ≠ 0) (hr : r' • (1 : Matrix (Fin n) (Fin n) ℝ) = r • (P * Pᵀ)) :
    ((Gauss.mk r' fitted').fit (some ⟨n, x.map (P *ᵥ ·)⟩) ⟨true, y⟩).1 = ((Gauss.mk r fitted).fit (some ⟨n, x⟩) ⟨true, y⟩).1 ∧
    ((Gauss.mk r' fitted').fit (some ⟨n, x.map (P *ᵥ ·)⟩) ⟨true, y⟩).2.predict argsort (some ⟨n, q.map (P *ᵥ ·)⟩) =
      ((Gauss.mk r fitted).fit (some ⟨n, x⟩) ⟨true, y⟩).2.predict argsort (some ⟨n, q⟩) := by
  have hg : ∀ ii, gm.group (x.map (P *ᵥ ·)) y ii = (gm.group x y ii).map (P *ᵥ ·) := by
    intro ii
    simp only [gm.group, List.zip_map_left, List.filter_map, List.map_map]
    rfl
  let F : GClass n → GClass n := fun m => ⟨(P * m.covariancei⁻¹ * Pᵀ)⁻¹, P *ᵥ m.mean⟩
  have hdet : ∀ z, (gm.covariance r' (z.map (P *ᵥ ·))).det = 0 ↔ (gm.covariance r z).det = 0 := by
    intro z
    rw [covariance_map z P r r' hr, det_mul, det_mul, det_transpose]
    simp [hP]
  have key : ∀ L, ∀ acc : List (GClass n),
      gm.loop (fun ii => gm.train r' (gm.group (x.map (P *ᵥ ·)) y ii)) L (acc.map F) =
        ((gm.loop (fun ii => gm.train r (gm.group x y ii)) L acc).1, (gm.loop (fun ii => gm.train r (gm.group x y ii)) L acc).2.map F) := by
    intro L
    induction L with
    | nil => intro acc; rfl
    | cons a t ih =>
      intro acc
      by_cases hd : (gm.covariance r (gm.group x y a)).det = 0
      · simp only [gm.loop, gm.train, hg, if_pos hd, if_pos ((hdet _).mpr hd)]
      · have hF : (⟨(gm.covariance r' ((gm.group x y a).map (P *ᵥ ·)))⁻¹, gm.mean ((gm.group x y a).map (P *ᵥ ·))⟩ : GClass n) =
            F ⟨(gm.covariance r (gm.group x y a))⁻¹, gm.mean (gm.group x y a)⟩ := by
          simp only [F, gm.mean_eq, sampleMean_map, covariance_map _ P r r' hr, nonsing_inv_nonsing_inv _ (isUnit_iff_ne_zero.mpr hd)]
        simp only [gm.loop, gm.train, hg, if_neg hd, if_neg (mt (hdet _).mp hd), hF]
        have := ih (acc ++ [⟨(gm.covariance r (gm.group x y a))⁻¹, gm.mean (gm.group x y a)⟩])
        simp only [List.map_append, List.map_cons, List.map_nil, gm.train, hg] at this
        exact this
  have hunit : ∀ L, ∀ acc : List (GClass n), (∀ m ∈ acc, IsUnit m.covariancei.det) → ∀ m ∈ (gm.loop (fun ii => gm.train r (gm.group x y ii)) L acc).2, IsUnit m.covariancei.det := by
    intro L
    induction L with
    | nil => intro acc h; simpa [gm.loop] using h
    | cons a t ih =>
      intro acc h
      by_cases hd : (gm.covariance r (gm.group x y a)).det = 0
      · simpa only [gm.loop, gm.train, if_pos hd] using h
      · simp only [gm.loop, gm.train, if_neg hd]
        refine ih _ ?_
        intro m hm
        rcases List.mem_append.mp hm with hm | hm
        · exact h m hm
        · rw [List.mem_singleton.mp hm]
          exact isUnit_nonsing_inv_det _ (isUnit_iff_ne_zero.mpr hd)
  have k0 := key (gm.classes y) []
  have u0 := hunit (gm.classes y) [] (by simp)
  rw [List.map_nil] at k0
  have hx' : x.map (P *ᵥ ·) ≠ [] := by simpa using hx
  rw [Gauss.fit_valid _ n hn _ hx' y (by simpa using hy), Gauss.fit_valid _ n hn x hx y hy]
  simp only [k0]
  refine ⟨trivial, ?_⟩
  simp only [Gauss.predict_valid _ _ _ hn, List.map_eq_nil_iff]
  congr 1
  congr 1
  rw [List.map_map]
  apply List.map_congr_left
  intro o _
  simp only [Function.comp, List.map_map]
  congr 1
  apply List.map_congr_left
  intro m hm
  have hPu : IsUnit P.det := isUnit_iff_ne_zero.mpr hP
  have hinv : (P * m.covariancei⁻¹ * Pᵀ)⁻¹ = Pᵀ⁻¹ * m.covariancei * P⁻¹ := by
    rw [Matrix.mul_inv_rev, Matrix.mul_inv_rev, nonsing_inv_nonsing_inv _ (u0 m hm), Matrix.mul_assoc]
  simp only [Function.comp, gm.quad, F, hinv, ← mulVec_sub]
  congr 1
  rw [← vecMul_transpose, vecMul_vecMul, ← Matrix.mul_assoc, ← Matrix.mul_assoc, mul_nonsing_inv _ (by rwa [det_transpose]), Matrix.one_mul, vecMul_transpose,
    ← vecMul_vecMul, ← dotProduct_mulVec, mulVec_mulVec, nonsing_inv_mul _ hPu, one_mulVec]

/-- A shear, without regularisation. -/
example : (!![1, 3; 0, 2] : Matrix (Fin 2) (Fin 2) ℝ).det ≠ 0 ∧ (0 : ℝ) • (1 : Matrix (Fin 2) (Fin 2) ℝ) = (0 : ℝ) • (!![1, 3; 0, 2] * !![1, 3; 0, 2]ᵀ) := by
  simp [Matrix.det_fin_two]

/-- C83.  Rotations, reflections and column orders (orthogonal matrices) change nothing, for any regularisation. -/
theorem C83_orthogonal (argsort : List ℝ → List ℕ) (g : Gauss) (n : ℕ) (hn : n ≠ 0) (x : List (Vec n)) (hx : x ≠ []) (y : List ℤ) (hy : y.length = x.length) (q : List (Vec n))
    (P : Matrix (Fin n) (Fin n) ℝ) (hP : P * Pᵀ = 1) :
    (g.fit (some ⟨n, x.map (P *ᵥ ·)⟩) ⟨true, y⟩).1 = (g.fit (some ⟨n, x⟩) ⟨true, y⟩).1 ∧
    (g.fit (some ⟨n, x.map (P *ᵥ ·)⟩) ⟨true, y⟩).2.predict argsort (some ⟨n, q.map (P *ᵥ ·)⟩) = (g.fit (some ⟨n, x⟩) ⟨true, y⟩).2.predict argsort (some ⟨n, q⟩) := by
  refine C83_linear argsort g.regularize g.regularize g.fitted g.fitted n hn x hx y hy q P ?_ (by rw [hP])
  intro h
  have := congrArg det hP
  rw [det_mul, h, zero_mul, det_one] at this
  exact zero_ne_one this

/-- A rotation by the angle of a 3-4-5 triangle. -/
example : (!![3 / 5, -4 / 5; 4 / 5, 3 / 5] : Matrix (Fin 2) (Fin 2) ℝ) * !![3 / 5, -4 / 5; 4 / 5, 3 / 5]ᵀ = 1 := by
  ext i j
  fin_cases i <;> fin_cases j <;> norm_num [Matrix.mul_apply, Fin.sum_univ_two]

/-- C83.  The order of the columns is irrelevant. -/
theorem C83_columns (argsort : List ℝ → List ℕ) (g : Gauss) (n : ℕ) (hn : n ≠ 0) (x : List (Vec n)) (hx : x ≠ []) (y : List ℤ) (hy : y.length = x.length) (q : List (Vec n)) (σ : Equiv.Perm (Fin n)) :
    (g.fit (some ⟨n, x.map (· ∘ σ)⟩) ⟨true, y⟩).1 = (g.fit (some ⟨n, x⟩) ⟨true, y⟩).1 ∧
    (g.fit (some ⟨n, x.map (· ∘ σ)⟩) ⟨true, y⟩).2.predict argsort (some ⟨n, q.map (· ∘ σ)⟩) = (g.fit (some ⟨n, x⟩) ⟨true, y⟩).2.predict argsort (some ⟨n, q⟩) := by
  have h : (fun v : Vec n => v ∘ σ) = (Matrix.of (fun i j => if σ i = j then (1 : ℝ) else 0) *ᵥ ·) := by
    funext v i
    simp [mulVec, dotProduct]
  rw [h]
  refine C83_orthogonal argsort g n hn x hx y hy q _ ?_
  ext i j
  rw [mul_apply, one_apply]
  simp only [transpose_apply, of_apply, ite_mul, one_mul, zero_mul, Finset.sum_ite_eq, Finset.mem_univ, if_true, EmbeddingLike.apply_eq_iff_eq]
  simp only [eq_comm]

/-- Three samples of two features, which are interchanged. -/
example := C83_columns sortPositions ⟨1, ⟨0, []⟩⟩ 2 (by decide) [![0, 1], ![2, 2], ![5, 0]] (by simp) [0, 0, 1] (by simp) [![1, 1]] (Equiv.swap 0 1)

/-- C83.  A change of the unit by the factor `c ≠ 0` changes nothing if `regularize` is multiplied by `c²`. -/
theorem C83_unit (argsort : List ℝ → List ℕ) (r c : ℝ) (hc : c ≠ 0) (fitted : (n : ℕ) × List (GClass n)) (n : ℕ) (hn : n ≠ 0) (x : List (Vec n)) (hx : x ≠ []) (y : List ℤ) (hy : y.length = x.length)
    (q : List (Vec n)) : ((Gauss.mk (c ^ 2 * r) fitted).fit (some ⟨n, x.map (c • ·)⟩) ⟨true, y⟩).2.predict argsort (some ⟨n, q.map (c • ·)⟩) =
      ((Gauss.mk r fitted).fit (some ⟨n, x⟩) ⟨true, y⟩).2.predict argsort (some ⟨n, q⟩) := by
  have h : (fun v : Vec n => c • v) = ((c • 1 : Matrix (Fin n) (Fin n) ℝ) *ᵥ ·) := by
    funext v
    rw [smul_mulVec, one_mulVec]
  rw [h]
  refine (C83_linear argsort r (c ^ 2 * r) fitted fitted n hn x hx y hy q _ ?_ ?_).2
  · rw [det_smul, det_one, mul_one]; exact pow_ne_zero _ hc
  · rw [transpose_smul, transpose_one, smul_mul_smul_comm, one_mul, smul_smul]; congr 1; ring

/-- Metres instead of millimetres. -/
example := C83_unit sortPositions 1 (1 / 1000) (by norm_num) ⟨0, []⟩ 2 (by decide) [![0, 1], ![2, 2], ![5, 0]] (by simp) [0, 0, 1] (by simp) [![1, 1]]

/-- C83, witness: with the same `regularize`, a change of the unit reverses a prediction.  Classes 0 with samples 0 and 2, and 1 with sample 5; the observation 4; ten times these. -/
theorem C83_unit_matters (argsort : List ℝ → List ℕ) (hs : ∀ v, IsRanking v (argsort v)) :
    ((Gauss.mk 1 ⟨0, []⟩).fit (some ⟨1, [![0], ![2], ![5]]⟩) ⟨true, [0, 0, 1]⟩).2.predict argsort (some ⟨1, [![4]]⟩) = .ok [[1, 0]] ∧
    ((Gauss.mk 1 ⟨0, []⟩).fit (some ⟨1, [![0], ![20], ![50]]⟩) ⟨true, [0, 0, 1]⟩).2.predict argsort (some ⟨1, [![40]]⟩) = .ok [[0, 1]] := by
  have dist : ∀ (S : Matrix (Fin 1) (Fin 1) ℝ) (s u o : ℝ) (m : Vec 1) (v : ℝ), IsSquaredDistance S m ![o] v → S 0 0 = s → m 0 = u → s ≠ 0 → v = (o - u) ^ 2 / s := by
    intro S s u o m v h hS hm h0
    obtain ⟨w, h1, h2⟩ := h
    have e := congrFun h1 0
    simp [Matrix.mulVec, dotProduct, hS, hm] at e
    simp [dotProduct, hm] at h2
    rw [h2]
    rw [← e, eq_div_iff h0]
    ring
  constructor
  · obtain ⟨L, rows, h1, h2, h3⟩ := C54_rows argsort hs (Gauss.mk 1 ⟨0, []⟩) (by norm_num) 1 (by norm_num) [![0], ![2], ![5]] (by simp) [0, 0, 1] rfl [![4]] (by simp)
    have hL : L = [0, 1] := (gm.classes_eq _ _ h1).symm.trans (gm.classes_eq _ _ (by simp [IsLabels]))
    subst hL
    rw [h2]
    obtain ⟨p, t, ⟨d, hd, hp⟩, ht, rfl⟩ := List.forall₂_cons_left_iff.mp h3
    obtain rfl := List.forall₂_nil_left_iff.mp ht
    obtain ⟨a, t, ha, ht1, rfl⟩ := List.forall₂_cons_left_iff.mp hd
    obtain ⟨b, t, hb, ht2, rfl⟩ := List.forall₂_cons_left_iff.mp ht1
    obtain rfl := List.forall₂_nil_left_iff.mp ht2
    have ea := dist _ 3 1 4 _ _ ha (by norm_num [moment, scatter, sampleMean, samplesOf, List.filterMap_cons]) (by norm_num [sampleMean, samplesOf, List.filterMap_cons]) (by norm_num)
    have eb := dist _ 1 5 4 _ _ hb (by norm_num [moment, scatter, sampleMean, samplesOf, List.filterMap_cons]) (by norm_num [sampleMean, samplesOf, List.filterMap_cons]) (by norm_num)
    rw [hp.two' (by rw [ea, eb]; norm_num)]
  · obtain ⟨L, rows, h1, h2, h3⟩ := C54_rows argsort hs (Gauss.mk 1 ⟨0, []⟩) (by norm_num) 1 (by norm_num) [![0], ![20], ![50]] (by simp) [0, 0, 1] rfl [![40]] (by simp)
    have hL : L = [0, 1] := (gm.classes_eq _ _ h1).symm.trans (gm.classes_eq _ _ (by simp [IsLabels]))
    subst hL
    rw [h2]
    obtain ⟨p, t, ⟨d, hd, hp⟩, ht, rfl⟩ := List.forall₂_cons_left_iff.mp h3
    obtain rfl := List.forall₂_nil_left_iff.mp ht
    obtain ⟨a, t, ha, ht1, rfl⟩ := List.forall₂_cons_left_iff.mp hd
    obtain ⟨b, t, hb, ht2, rfl⟩ := List.forall₂_cons_left_iff.mp ht1
    obtain rfl := List.forall₂_nil_left_iff.mp ht2
    have ea := dist _ 201 10 40 _ _ ha (by norm_num [moment, scatter, sampleMean, samplesOf, List.filterMap_cons]) (by norm_num [sampleMean, samplesOf, List.filterMap_cons]) (by norm_num)
    have eb := dist _ 1 50 40 _ _ hb (by norm_num [moment, scatter, sampleMean, samplesOf, List.filterMap_cons]) (by norm_num [sampleMean, samplesOf, List.filterMap_cons]) (by norm_num)
    rw [hp.two (by rw [ea, eb]; norm_num)]

/-- The hypothesis on argsort is met. -/
example : ∀ v, IsRanking v (sortPositions v) := sortPositions_ranking

end Verif.Props
