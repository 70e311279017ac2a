import Verif.Props.Gaussian
import Mathlib.Analysis.Real.Sqrt
import Mathlib.Algebra.BigOperators.Field
import Mathlib.Analysis.Complex.ExponentialBounds
import Mathlib.Analysis.SpecialFunctions.Trigonometric.Basic
import Mathlib.Analysis.Complex.Exponential
import Mathlib.Analysis.SpecialFunctions.Exp
import Mathlib.Tactic.Positivity
import Mathlib.Tactic.LinearCombination

/-
Property C91: predictions and posterior probabilities.
-/

namespace Verif.Props

open Verif Verif.Spec Matrix

/-- The density at `x` of the normal distribution of mean `u` and covariance matrix `S`. -/
noncomputable def normalDensity {n : ℕ} (S : Matrix (Fin n) (Fin n) ℝ) (u x : Vec n) : ℝ :=
  Real.exp (-(((x - u) ⬝ᵥ (S⁻¹ *ᵥ (x - u))) / 2)) / Real.sqrt ((2 * Real.pi) ^ n * S.det)

/-- The density at `x` of a mixture of normal distributions given by their precision matrices, the inverses of the covariance matrices. -/
noncomputable def mixDensity {n order : ℕ} (c : Fin order → MixComp n) (x : Vec n) : ℝ :=
  ∑ k, (c k).weight * normalDensity ((c k).precision)⁻¹ (c k).mean x

theorem density_of_distance {n : ℕ} {S : Matrix (Fin n) (Fin n) ℝ} (hS : S.PosDef) {u x : Vec n} {v : ℝ} (h : IsSquaredDistance S u x v) :
    normalDensity S u x = Real.exp (-(v / 2)) / Real.sqrt ((2 * Real.pi) ^ n * S.det) := by
  have hu : IsUnit S.det := (Matrix.isUnit_iff_isUnit_det S).mp hS.isUnit
  have : IsSquaredDistance S u x ((x - u) ⬝ᵥ (S⁻¹ *ᵥ (x - u))) := by
    refine ⟨S⁻¹ *ᵥ (x - u), ?_, dotProduct_comm _ _⟩
    rw [Matrix.mulVec_mulVec, Matrix.mul_nonsing_inv _ hu, Matrix.one_mulVec]
  rw [normalDensity, IsSquaredDistance.unique hS this h]

/-- C91, what holds: when the matrices learnt for the classes have one determinant, each row of predict is by nonincreasing density of the normal
distribution learnt for the class, that is by nonincreasing posterior probability of the classes if they are taken to be equally probable.
Missing: classes whose matrices have different determinants, for which it is false (C91_violation). -/
theorem C91_gaussian_partial (argsort : List ℝ → List ℕ) (hs : ∀ v, IsRanking v (argsort v)) (g : Gauss) (hr : 0 < g.regularize) (n : ℕ) (hn : n ≠ 0) (x : List (Vec n)) (hx : x ≠ []) (y : List ℤ) (hy : y.length = x.length)
    (q : List (Vec n)) (hq : q ≠ []) (D : ℝ) (hD : ∀ c ∈ y, (moment g.regularize (samplesOf (x.zip y) c)).det = D) :
    ∃ L rows, IsLabels y L ∧ (g.fit (some ⟨n, x⟩) ⟨true, y⟩).2.predict argsort (some ⟨n, q⟩) = .ok rows ∧
      List.Forall₂ (fun o p => p.Perm (List.range L.length) ∧ p.Pairwise fun a b => ∀ c c', L[a]? = some c → L[b]? = some c' →
        normalDensity (moment g.regularize (samplesOf (x.zip y) c')) (sampleMean (samplesOf (x.zip y) c')) o ≤
          normalDensity (moment g.regularize (samplesOf (x.zip y) c)) (sampleMean (samplesOf (x.zip y) c)) o) q rows := by
  obtain ⟨L, rows, h1, h2, h3⟩ := C54_rows argsort hs g hr n hn x hx y hy q hq
  refine ⟨L, rows, h1, h2, h3.imp ?_⟩
  rintro o p ⟨d, hd, hp, hk⟩
  refine ⟨by rw [hd.length_eq]; exact hp, hk.imp fun {a b} hab c c' hc hc' => ?_⟩
  have pd : ∀ c, (moment g.regularize (samplesOf (x.zip y) c)).PosDef := fun c => by
    have := gm.covariance_posDef g.regularize hr (samplesOf (x.zip y) c)
    rwa [gm.covariance_eq] at this
  have key : ∀ a c, L[a]? = some c → normalDensity (moment g.regularize (samplesOf (x.zip y) c)) (sampleMean (samplesOf (x.zip y) c)) o = Real.exp (-(d.getD a 0 / 2)) / Real.sqrt ((2 * Real.pi) ^ n * D) := by
    intro a c h
    obtain ⟨ha, rfl⟩ := List.getElem?_eq_some_iff.mp h
    have ha' : a < d.length := hd.length_eq ▸ ha
    have : IsSquaredDistance (moment g.regularize (samplesOf (x.zip y) L[a])) (sampleMean (samplesOf (x.zip y) L[a])) o d[a] := (List.forall₂_iff_get.mp hd).2 a ha ha'
    rw [density_of_distance (pd _) this, hD _ ((h1.2 _).mp (List.getElem_mem ha))]
    simp [List.getD_eq_getElem?_getD, ha']
  rw [key a c hc, key b c' hc']
  gcongr

/-- The hypotheses of C91_gaussian_partial are met: two classes of the same spread. -/
example : ∃ L rows, IsLabels [0, 0, 1, 1] L ∧ ((Gauss.mk 1 ⟨0, []⟩).fit (some ⟨1, [![0], ![2], ![5], ![7]]⟩) ⟨true, [0, 0, 1, 1]⟩).2.predict sortPositions (some ⟨1, [![3]]⟩) = .ok rows ∧ rows.length = 1 := by
  obtain ⟨L, rows, h1, h2, h3⟩ := C91_gaussian_partial sortPositions sortPositions_ranking (Gauss.mk 1 ⟨0, []⟩) (by norm_num) 1 (by norm_num) [![0], ![2], ![5], ![7]] (by simp) [0, 0, 1, 1] rfl [![3]] (by simp) 3 (by
    intro c hc
    rcases (by simpa using hc : c = 0 ∨ c = 1) with rfl | rfl <;>
      norm_num [Matrix.det_fin_one, moment, scatter, sampleMean, samplesOf, List.filterMap_cons])
  exact ⟨L, rows, h1, h2, h3.length_eq.symm⟩

theorem density_one (S : Matrix (Fin 1) (Fin 1) ℝ) (m x : Vec 1) (s u t : ℝ) (hS : S 0 0 = s) (hu : m 0 = u) (ht : x 0 = t) (h0 : s ≠ 0) :
    normalDensity S m x = Real.exp (-((t - u) ^ 2 / s / 2)) / Real.sqrt (2 * Real.pi * s) := by
  have hd : S.det = s := by rw [Matrix.det_fin_one, hS]
  have hi : S⁻¹ = !![s⁻¹] := by
    apply Matrix.inv_eq_right_inv
    ext i j
    fin_cases i; fin_cases j
    simp [Matrix.mul_apply, hS, h0]
  rw [normalDensity, hd, hi]
  congr 2
  · simp [dotProduct, Matrix.mulVec, hu, ht]
    ring
  · rw [pow_one]

/-- C91, witness: classes 0 with samples 0 and 2, and 1 with samples 4 and 24; at the observation 4 the density learnt for class 0 is the greater, predict ranks class 1 first. -/
theorem C91_violation (argsort : List ℝ → List ℕ) (hs : ∀ v, IsRanking v (argsort v)) :
    ((Gauss.mk 1 ⟨0, []⟩).fit (some ⟨1, [![0], ![2], ![4], ![24]]⟩) ⟨true, [0, 0, 1, 1]⟩).2.predict argsort (some ⟨1, [![4]]⟩) = .ok [[1, 0]] ∧
    normalDensity (moment 1 [![4], ![24]]) (sampleMean [![4], ![24]]) ![4] < normalDensity (moment 1 [![0], ![2]]) (sampleMean [![0], ![2]]) (![4] : Vec 1) := by
  have dist : ∀ (S : Matrix (Fin 1) (Fin 1) ℝ) (s u : ℝ) (m : Vec 1) (v : ℝ), IsSquaredDistance S m ![4] v → S 0 0 = s → m 0 = u → s ≠ 0 → v = (4 - u) ^ 2 / s := by
    intro S s u m v h hS hm h0
    obtain ⟨w, h1, h2⟩ := h
    have e := congrFun h1 0
    simp [Matrix.mulVec, dotProduct, hS, hm] at e
    simp [dotProduct, hm] at h2
    rw [h2]
    rw [← e, eq_div_iff h0]
    ring
  constructor
  · obtain ⟨L, rows, h1, h2, h3⟩ := C54_rows argsort hs (Gauss.mk 1 ⟨0, []⟩) (by norm_num) 1 (by norm_num) [![0], ![2], ![4], ![24]] (by simp) [0, 0, 1, 1] rfl [![4]] (by simp)
    have hL : L = [0, 1] := (gm.classes_eq _ _ h1).symm.trans (gm.classes_eq _ _ (by simp [IsLabels]))
    subst hL
    rw [h2]
    obtain ⟨p, t, ⟨d, hd, hp⟩, ht, rfl⟩ := List.forall₂_cons_left_iff.mp h3
    obtain rfl := List.forall₂_nil_left_iff.mp ht
    obtain ⟨a, t, ha, ht1, rfl⟩ := List.forall₂_cons_left_iff.mp hd
    obtain ⟨b, t, hb, ht2, rfl⟩ := List.forall₂_cons_left_iff.mp ht1
    obtain rfl := List.forall₂_nil_left_iff.mp ht2
    have ea := dist _ 3 1 _ _ ha (by norm_num [moment, scatter, sampleMean, samplesOf, List.filterMap_cons]) (by norm_num [sampleMean, samplesOf, List.filterMap_cons]) (by norm_num)
    have eb := dist _ 201 14 _ _ hb (by norm_num [moment, scatter, sampleMean, samplesOf, List.filterMap_cons]) (by norm_num [sampleMean, samplesOf, List.filterMap_cons]) (by norm_num)
    rw [hp.two' (by rw [ea, eb]; norm_num)]
  · rw [density_one _ _ _ 201 14 4 (by norm_num [moment, scatter, sampleMean]) (by norm_num [sampleMean]) (by simp) (by norm_num),
      density_one _ _ _ 3 1 4 (by norm_num [moment, scatter, sampleMean]) (by norm_num [sampleMean]) (by simp) (by norm_num)]
    have hpi := Real.pi_pos
    have hq : Real.sqrt (2 * Real.pi * 201) = Real.sqrt 67 * Real.sqrt (2 * Real.pi * 3) := by
      rw [← Real.sqrt_mul (by norm_num)]
      congr 1
      ring
    rw [hq, div_lt_div_iff₀ (by positivity) (by positivity)]
    have h3 : (0 : ℝ) < Real.sqrt (2 * Real.pi * 3) := by positivity
    have h8 : (8 : ℝ) ≤ Real.sqrt 67 := Real.le_sqrt_of_sq_le (by norm_num)
    have he : Real.exp (-((4 - 14) ^ 2 / 201 / 2 : ℝ)) ≤ 1 := Real.exp_le_one_iff.mpr (by norm_num)
    have hf : (1 / 5 : ℝ) < Real.exp (-((4 - 1) ^ 2 / 3 / 2 : ℝ)) := by
      have h1 : Real.exp (-((4 - 1) ^ 2 / 3 / 2 : ℝ)) ^ 2 = (Real.exp 1)⁻¹ ^ 3 := by
        rw [← Real.exp_neg, ← Real.exp_nat_mul, ← Real.exp_nat_mul]
        norm_num
      have h2 : (1 / 25 : ℝ) < (Real.exp 1)⁻¹ ^ 3 := by
        have := Real.exp_one_lt_d9
        have h0 := Real.exp_pos 1
        rw [inv_pow, one_div]
        apply inv_strictAnti₀ (by positivity)
        calc Real.exp 1 ^ 3 < 2.7182818286 ^ 3 := by gcongr
          _ < 25 := by norm_num
      have h0 := Real.exp_pos (-((4 - 1) ^ 2 / 3 / 2 : ℝ))
      nlinarith
    calc Real.exp (-((4 - 14) ^ 2 / 201 / 2 : ℝ)) * Real.sqrt (2 * Real.pi * 3) ≤ 1 * Real.sqrt (2 * Real.pi * 3) := by gcongr
      _ < (1 / 5 * 8) * Real.sqrt (2 * Real.pi * 3) := by gcongr; norm_num
      _ ≤ Real.exp (-((4 - 1) ^ 2 / 3 / 2 : ℝ)) * (Real.sqrt 67 * Real.sqrt (2 * Real.pi * 3)) := by
        rw [mul_assoc]
        gcongr

/-- C91 for mixtures, what holds: with nonnegative weights and positive definite precision matrices of one determinant, each row of predict is by nonincreasing density of the mixture.
Missing: precision matrices of different determinants, for which it is false (C91_mixture_violation). -/
theorem C91_mixture_partial (argsort : List ℝ → List ℕ) (hs : ∀ v, IsRanking v (argsort v)) (index : ℤ) (order : ℕ) (regularize : ℝ) (n : ℕ) (hn : n ≠ 0) (models : List (Fin order → MixComp n)) (hm : models ≠ [])
    (D : ℝ) (hD : ∀ m ∈ models, ∀ k, (m k).precision.PosDef ∧ (m k).precision.det = D) (q : List (Vec n)) (hq : q ≠ []) :
    ∃ rows, (GaussMix.mk index order regularize ⟨n, models⟩).predict argsort (some ⟨n, q⟩) = .ok rows ∧
      List.Forall₂ (fun o p => p.Perm (List.range models.length) ∧ p.Pairwise fun a b => ∀ m m', models[a]? = some m → models[b]? = some m' → mixDensity m' o ≤ mixDensity m o) q rows := by
  obtain ⟨rows, h1, h2⟩ := C56_rows argsort hs index order regularize n hn models hm q hq
  refine ⟨rows, h1, h2.imp ?_⟩
  rintro o p ⟨hp, hk⟩
  refine ⟨hp, hk.imp fun {a b} hab m m' hm hm' => ?_⟩
  have key : ∀ m ∈ models, mixDensity m o = mixScore m o / Real.sqrt ((2 * Real.pi) ^ n * D⁻¹) := by
    intro m hm
    unfold mixDensity mixScore
    rw [Finset.sum_div]
    refine Finset.sum_congr rfl fun k _ => ?_
    obtain ⟨hp, hd⟩ := hD m hm k
    have hu : IsUnit (m k).precision.det := (Matrix.isUnit_iff_isUnit_det _).mp hp.isUnit
    have hnn : 0 ≤ (o - (m k).mean) ⬝ᵥ ((m k).precision *ᵥ (o - (m k).mean)) := by
      have := hp.posSemidef.dotProduct_mulVec_nonneg (o - (m k).mean)
      rwa [star_trivial] at this
    rw [normalDensity, Matrix.nonsing_inv_nonsing_inv _ hu, Matrix.det_nonsing_inv, Ring.inverse_eq_inv', hd, max_eq_left hnn, mul_div_assoc, neg_div]
  rw [key m (List.mem_of_getElem? hm), key m' (List.mem_of_getElem? hm')]
  have := hab m m' hm hm'
  gcongr

/-- The hypotheses of C91_mixture_partial are met. -/
example : ∃ rows, (GaussMix.mk 100 1 (1 / 10) ⟨1, [fun _ => ⟨1, ![0], 1⟩, fun _ => ⟨1, ![3], 1⟩]⟩).predict sortPositions (some ⟨1, [![2]]⟩) = .ok rows ∧ rows.length = 1 := by
  obtain ⟨rows, h1, h2⟩ := C91_mixture_partial sortPositions sortPositions_ranking 100 1 (1 / 10) 1 (by norm_num) [fun _ => ⟨1, ![0], 1⟩, fun _ => ⟨1, ![3], 1⟩] (by simp) 1 (by
    intro m hm k
    rcases (by simpa using hm : m = (fun _ => ⟨1, ![0], 1⟩) ∨ m = (fun _ => ⟨1, ![3], 1⟩)) with rfl | rfl <;> exact ⟨Matrix.PosDef.one, Matrix.det_one⟩) [![2]] (by simp)
  exact ⟨rows, h1, h2.length_eq.symm⟩

/-- C91 for mixtures, witness: one normal distribution of precision 100 and one of precision 1 about zero; at 1/10 the density of the first is the greater, predict ranks the second first. -/
theorem C91_mixture_violation (argsort : List ℝ → List ℕ) (hs : ∀ v, IsRanking v (argsort v)) :
    (GaussMix.mk 100 1 (1 / 10) ⟨1, [fun _ => ⟨!![100], ![0], 1⟩, fun _ => ⟨!![1], ![0], 1⟩]⟩).predict argsort (some ⟨1, [![1 / 10]]⟩) = .ok [[1, 0]] ∧
    mixDensity (fun _ : Fin 1 => (⟨!![1], ![0], 1⟩ : MixComp 1)) ![1 / 10] < mixDensity (fun _ : Fin 1 => (⟨!![100], ![0], 1⟩ : MixComp 1)) ![1 / 10] := by
  constructor
  · have h : ∀ a b : ℝ, a < b → argsort [a, b] = [0, 1] := fun a b h => (hs [a, b]).two h
    have e : ∀ s : ℝ, 0 ≤ s → gm.score (fun _ : Fin 1 => (⟨!![s], ![0], 1⟩ : MixComp 1)) ![1 / 10] = Real.exp (-(s / 200)) := by
      intro s hs
      have : gm.quad (!![s]) (![0] : Vec 1) ![1 / 10] = s / 100 := by
        unfold gm.quad
        rw [max_eq_left]
        · simp [dotProduct, Matrix.vecMul]; ring
        · simp [dotProduct, Matrix.vecMul]; positivity
      simp only [gm.score, Finset.univ_unique, Finset.sum_singleton, this, one_mul]
      congr 1
      ring
    have hp : (GaussMix.mk 100 1 (1 / 10) ⟨1, [fun _ => ⟨!![100], ![0], 1⟩, fun _ => ⟨!![1], ![0], 1⟩]⟩).predict argsort (some ⟨1, [![1 / 10]]⟩) =
        .ok [(argsort [gm.score (fun _ : Fin 1 => (⟨!![100], ![0], 1⟩ : MixComp 1)) ![1 / 10], gm.score (fun _ : Fin 1 => (⟨!![1], ![0], 1⟩ : MixComp 1)) ![1 / 10]]).reverse] := by
      simp only [GaussMix.predict, List.cons_ne_nil, one_ne_zero, or_self, if_false, dif_pos, List.map_cons, List.map_nil]
      rfl
    rw [hp, e 100 (by norm_num), e 1 (by norm_num), h _ _ (Real.exp_lt_exp.mpr (by norm_num))]
    rfl
  · have e : ∀ s : ℝ, 0 < s → mixDensity (fun _ : Fin 1 => (⟨!![s], ![0], 1⟩ : MixComp 1)) ![1 / 10] = Real.exp (-(s / 200)) / Real.sqrt (2 * Real.pi * s⁻¹) := by
      intro s hs
      simp only [mixDensity, Finset.univ_unique, Finset.sum_singleton, one_mul]
      rw [density_one _ _ _ s⁻¹ 0 (1 / 10) _ (by simp) (by simp) (by positivity)]
      · congr 2
        field_simp
        norm_num
      · have : (!![s] : Matrix (Fin 1) (Fin 1) ℝ)⁻¹ = !![s⁻¹] := by
          apply Matrix.inv_eq_right_inv
          ext i j
          fin_cases i; fin_cases j
          simp [Matrix.mul_apply, hs.ne']
        rw [this]
        simp
    rw [e 1 (by norm_num), e 100 (by norm_num)]
    have hpi := Real.pi_pos
    have hq : Real.sqrt (2 * Real.pi * 1⁻¹) = 10 * Real.sqrt (2 * Real.pi * 100⁻¹) := by
      rw [show (10 : ℝ) = Real.sqrt 100 from by rw [show (100 : ℝ) = 10 ^ 2 by norm_num, Real.sqrt_sq (by norm_num)], ← Real.sqrt_mul (by norm_num)]
      congr 1
      ring
    rw [hq, div_lt_div_iff₀ (by positivity) (by positivity)]
    have h3 : (0 : ℝ) < Real.sqrt (2 * Real.pi * 100⁻¹) := by positivity
    have he : Real.exp (-(1 / 200) : ℝ) ≤ 1 := Real.exp_le_one_iff.mpr (by norm_num)
    have hf : (1 / 2 : ℝ) ≤ Real.exp (-(100 / 200) : ℝ) := by
      have := Real.add_one_le_exp (-(100 / 200) : ℝ)
      linarith
    calc Real.exp (-(1 / 200) : ℝ) * Real.sqrt (2 * Real.pi * 100⁻¹) ≤ 1 * Real.sqrt (2 * Real.pi * 100⁻¹) := by gcongr
      _ < (1 / 2 * 10) * Real.sqrt (2 * Real.pi * 100⁻¹) := by gcongr; norm_num
      _ ≤ Real.exp (-(100 / 200) : ℝ) * (10 * Real.sqrt (2 * Real.pi * 100⁻¹)) := by
        rw [mul_assoc]
        gcongr

/-- The hypothesis of `C91_violation` and `C91_mixture_violation` is met. -/
example := And.intro (C91_violation sortPositions sortPositions_ranking) (C91_mixture_violation sortPositions sortPositions_ranking)

end Verif.Props
