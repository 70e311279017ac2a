import Verif.Model.GaussianUnderflow
import Verif.Props.Posterior
import Mathlib.Analysis.Normed.Module.FiniteDimension
import Mathlib.Topology.Instances.Matrix
import Mathlib.Topology.MetricSpace.ProperSpace

/- Property C158: GaussianMixtureModel.predict (diamondback/models/gaussian_mixture_model.py) of observations far from all the classes. -/

namespace Verif.Props

open Finset Spec Matrix

/-- A positive definite form grows with the square of the distance. -/
theorem posDef_lower {n : ℕ} (P : Matrix (Fin n) (Fin n) ℝ) (hP : P.PosDef) : ∃ l : ℝ, 0 < l ∧ ∀ y : Vec n, l * ‖y‖ ^ 2 ≤ (y ᵥ* P) ⬝ᵥ y := by
  have hpos : ∀ y : Vec n, y ≠ 0 → 0 < (y ᵥ* P) ⬝ᵥ y := by
    intro y hy
    have := hP.dotProduct_mulVec_pos hy
    rw [dotProduct_mulVec] at this
    simpa using this
  have hcont : Continuous fun y : Vec n => (y ᵥ* P) ⬝ᵥ y := by fun_prop
  rcases (Metric.sphere (0 : Vec n) 1).eq_empty_or_nonempty with he | hne
  · refine ⟨1, one_pos, fun y => ?_⟩
    by_cases hy : y = 0
    · subst hy; simp
    · exfalso
      have : (‖y‖⁻¹ • y) ∈ Metric.sphere (0 : Vec n) 1 := by
        rw [mem_sphere_zero_iff_norm, norm_smul, norm_inv, norm_norm, inv_mul_cancel₀ (norm_ne_zero_iff.mpr hy)]
      rw [he] at this
      exact this
  · obtain ⟨z, hz, hmin⟩ := (isCompact_sphere (0 : Vec n) 1).exists_isMinOn hne hcont.continuousOn
    have hz1 : ‖z‖ = 1 := mem_sphere_zero_iff_norm.mp hz
    have hz0 : z ≠ 0 := by intro h; rw [h, norm_zero] at hz1; exact zero_ne_one hz1
    refine ⟨(z ᵥ* P) ⬝ᵥ z, hpos z hz0, fun y => ?_⟩
    by_cases hy : y = 0
    · subst hy; simp
    · have hn : ‖y‖ ≠ 0 := norm_ne_zero_iff.mpr hy
      have hs : (‖y‖⁻¹ • y) ∈ Metric.sphere (0 : Vec n) 1 := by
        rw [mem_sphere_zero_iff_norm, norm_smul, norm_inv, norm_norm, inv_mul_cancel₀ hn]
      have := hmin hs
      simp only [Set.mem_ofPred_eq, smul_vecMul, smul_dotProduct, dotProduct_smul, smul_eq_mul] at this
      have h2 : 0 < ‖y‖ ^ 2 := by positivity
      calc _ ≤ (‖y‖⁻¹ * (‖y‖⁻¹ * ((y ᵥ* P) ⬝ᵥ y))) * ‖y‖ ^ 2 := mul_le_mul_of_nonneg_right this h2.le
        _ = _ := by field_simp

/-- Beyond some distance the form is as large as one likes. -/
theorem quad_far {n : ℕ} (P : Matrix (Fin n) (Fin n) ℝ) (hP : P.PosDef) (u : Vec n) (B : ℝ) : ∃ R : ℝ, ∀ x : Vec n, R ≤ ‖x‖ → B ≤ gm.quad P u x := by
  obtain ⟨l, hl, h⟩ := posDef_lower P hP
  refine ⟨‖u‖ + (1 + |B| / l), fun x hx => ?_⟩
  have h1 : 1 + |B| / l ≤ ‖x - u‖ := by have := norm_sub_norm_le x u; linarith
  have h2 : |B| / l ≤ ‖x - u‖ ^ 2 := by
    have : 0 ≤ |B| / l := by positivity
    nlinarith
  have h3 : |B| ≤ l * ‖x - u‖ ^ 2 := by rw [div_le_iff₀ hl] at h2; linarith
  exact (le_abs_self B).trans (h3.trans ((h (x - u)).trans (le_max_left _ _)))

theorem far_components {n order : ℕ} (m : Fin order → MixComp n) (hm : ∀ k, (m k).precision.PosDef) (B : ℝ) :
    ∃ R : ℝ, ∀ x : Vec n, R ≤ ‖x‖ → ∀ k, B ≤ gm.quad (m k).precision (m k).mean x := by
  choose R hR using fun k => quad_far (m k).precision (hm k) (m k).mean B
  refine ⟨∑ k, |R k|, fun x hx k => hR k x ?_⟩
  exact (le_abs_self _).trans ((single_le_sum (f := fun k => |R k|) (fun i _ => abs_nonneg _) (mem_univ k)).trans hx)

theorem far_models {n order : ℕ} (B : ℝ) (models : List (Fin order → MixComp n)) : (∀ m ∈ models, ∀ k, (m k).precision.PosDef) →
    ∃ R : ℝ, ∀ x : Vec n, R ≤ ‖x‖ → ∀ m ∈ models, ∀ k, B ≤ gm.quad (m k).precision (m k).mean x := by
  induction models with
  | nil => intro _; exact ⟨0, by simp⟩
  | cons m t ih =>
    intro h
    obtain ⟨R, hR⟩ := ih fun m hm => h m (List.mem_cons_of_mem _ hm)
    obtain ⟨R', hR'⟩ := far_components m (h m List.mem_cons_self) B
    refine ⟨max R R', fun x hx m' hm' => ?_⟩
    rcases List.mem_cons.mp hm' with rfl | hm'
    · exact hR' x ((le_max_right _ _).trans hx)
    · exact hR x ((le_max_left _ _).trans hx) m' hm'

/-- With the exponential function the parameter changes nothing. -/
theorem C158_exact (argsort : List ℝ → List ℕ) (g : GaussMix) (x : MatArg) : g.predictWith Real.exp argsort x = g.predict argsort x := rfl

/-- C158.  The prediction is that of the exponential function when no exponent underflows. -/
theorem C158_near (argsort : List ℝ → List ℕ) (E : ℝ → ℝ) (T : ℝ) (hE : ∀ v, -T < v → v ≤ 0 → E v = Real.exp v) (index : ℤ) (order : ℕ) (regularize : ℝ) (n : ℕ)
    (models : List (Fin order → MixComp n)) (q : List (Vec n)) (hq : ∀ o ∈ q, ∀ m ∈ models, ∀ k, (o - (m k).mean) ⬝ᵥ ((m k).precision *ᵥ (o - (m k).mean)) < 2 * T) (hT : 0 < T) :
    (GaussMix.mk index order regularize ⟨n, models⟩).predictWith E argsort (some ⟨n, q⟩) = (GaussMix.mk index order regularize ⟨n, models⟩).predict argsort (some ⟨n, q⟩) := by
  unfold GaussMix.predictWith GaussMix.predict
  simp only
  split
  · rfl
  split
  · rfl
  rw [dif_pos trivial, dif_pos trivial]
  congr 1
  apply List.map_congr_left
  intro o ho
  congr 2
  apply List.map_congr_left
  intro m hm
  unfold gm.scoreWith gm.score
  apply sum_congr rfl
  intro k _
  congr 1
  have h0 : 0 ≤ gm.quad (m k).precision (m k).mean o := le_max_right _ _
  apply hE
  · have h1 := hq o ho m hm k
    rw [dotProduct_mulVec] at h1
    have : gm.quad (m k).precision (m k).mean o < 2 * T := max_lt h1 (by linarith)
    show -T < -(1 / 2) * gm.quad (m k).precision (m k).mean o
    linarith
  · show -(1 / 2) * gm.quad (m k).precision (m k).mean o ≤ 0
    linarith

/-- With the exponential of double, a sample 30 deviations away is still near. -/
example := C158_near sortPositions (fun v => if v ≤ -746 then 0 else Real.exp v) 746 (fun v h _ => if_neg (by linarith)) 100 1 (1 / 10) 1
  [fun _ => ⟨!![1], ![0], 1⟩, fun _ => ⟨!![1], ![60], 1⟩] [![30]] (by
    intro o ho m hm k
    rw [List.mem_singleton.mp ho]
    simp only [List.mem_cons, List.not_mem_nil, or_false] at hm
    rcases hm with rfl | rfl <;> simp [dotProduct, Matrix.mulVec] <;> norm_num) (by norm_num)

/-- C158.  All observations far enough from the classes have the same prediction: the one of scores which are all zero. -/
theorem C158_far (argsort : List ℝ → List ℕ) (E : ℝ → ℝ) (T : ℝ) (hE : ∀ v ≤ -T, E v = 0) (index : ℤ) (order : ℕ) (regularize : ℝ) (n : ℕ) (hn : n ≠ 0)
    (models : List (Fin order → MixComp n)) (hm : models ≠ []) (hP : ∀ m ∈ models, ∀ k, (m k).precision.PosDef) :
    ∃ R : ℝ, ∀ q : List (Vec n), q ≠ [] → (∀ o ∈ q, R ≤ ‖o‖) →
      (GaussMix.mk index order regularize ⟨n, models⟩).predictWith E argsort (some ⟨n, q⟩) =
        .ok (List.replicate q.length (argsort (List.replicate models.length 0)).reverse) := by
  obtain ⟨R, hR⟩ := far_models (2 * T) models hP
  refine ⟨R, fun q hq hfar => ?_⟩
  unfold GaussMix.predictWith
  simp only
  rw [if_neg hm, if_neg (by tauto), dif_pos trivial]
  congr 1
  rw [List.eq_replicate_iff]
  refine ⟨by simp, fun b hb => ?_⟩
  obtain ⟨o, ho, rfl⟩ := List.mem_map.mp hb
  congr 2
  rw [List.eq_replicate_iff]
  refine ⟨by simp, fun s hs => ?_⟩
  obtain ⟨m, hm', rfl⟩ := List.mem_map.mp hs
  unfold gm.scoreWith
  apply sum_eq_zero
  intro k _
  have h1 : 2 * T ≤ gm.quad (m k).precision (m k).mean o := hR o (hfar o ho) m hm' k
  have : E (-(1 / 2) * gm.quad (m k).precision (m k).mean o) = 0 := hE _ (by linarith)
  show (m k).weight * E (-(1 / 2) * gm.quad (m k).precision (m k).mean o) = 0
  rw [this, mul_zero]

example : (1 : ℕ) ≠ 0 ∧ ([fun _ => ⟨!![1], ![0], 1⟩, fun _ => ⟨!![1], ![100], 1⟩] : List (Fin 1 → MixComp 1)) ≠ [] ∧
    (∀ m ∈ ([fun _ => ⟨!![1], ![0], 1⟩, fun _ => ⟨!![1], ![100], 1⟩] : List (Fin 1 → MixComp 1)), ∀ k, (m k).precision.PosDef) ∧
    ∃ E : ℝ → ℝ, (∀ v ≤ -746, E v = 0) ∧ ∀ v, -700 < v → v ≤ 0 → E v = Real.exp v := by
  have h1 : (!![1] : Matrix (Fin 1) (Fin 1) ℝ) = 1 := by ext i j; fin_cases i; fin_cases j; rfl
  refine ⟨one_ne_zero, by simp, ?_, fun v => if v ≤ -746 then 0 else Real.exp v, fun v hv => if_pos hv, fun v hv _ => if_neg (by linarith)⟩
  intro m hm k
  simp only [List.mem_cons, List.not_mem_nil, or_false] at hm
  rcases hm with rfl | rfl <;> simp only [h1] <;> exact PosDef.one

theorem ranking_two_gt {a b : ℝ} {p : List ℕ} (h : IsRanking [a, b] p) (hab : b < a) : p = [1, 0] := by
  obtain ⟨h1, h2⟩ := h
  have hl := h1.length_eq
  match p, hl, h1, h2 with
  | [i, j], _, h1, h2 =>
    have hi : i ∈ List.range [a, b].length := h1.subset (by simp)
    have hj : j ∈ List.range [a, b].length := h1.subset (by simp)
    have hd : i ≠ j := by
      have := h1.nodup_iff.mpr List.nodup_range
      simpa using this
    simp only [List.length_cons, List.length_nil, List.mem_range] at hi hj
    have hi' : i = 0 ∨ i = 1 := by omega
    have hj' : j = 0 ∨ j = 1 := by omega
    simp only [List.pairwise_cons] at h2
    rcases hi' with rfl | rfl <;> rcases hj' with rfl | rfl
    · exact absurd rfl hd
    · have := h2.1 1 (by simp)
      simp at this
      linarith
    · rfl
    · exact absurd rfl hd

/-- C158.  Two classes of the same shape with the means 0 and 100: the exponential function ranks the observation 41 to the first and 59 to the second, but with an
exponential function which underflows below -746 both have the same prediction, so that one of them is wrong. -/
theorem C158_wrong (argsort : List ℝ → List ℕ) (hs : ∀ v, IsRanking v (argsort v)) (E : ℝ → ℝ) (hE : ∀ v ≤ -746, E v = 0) :
    (GaussMix.mk 100 1 (1 / 10) ⟨1, [fun _ => ⟨!![1], ![0], 1⟩, fun _ => ⟨!![1], ![100], 1⟩]⟩).predict argsort (some ⟨1, [![41], ![59]]⟩) = .ok [[0, 1], [1, 0]] ∧
    ∃ p, (GaussMix.mk 100 1 (1 / 10) ⟨1, [fun _ => ⟨!![1], ![0], 1⟩, fun _ => ⟨!![1], ![100], 1⟩]⟩).predictWith E argsort (some ⟨1, [![41], ![59]]⟩) = .ok [p, p] := by
  have hq : ∀ u x : ℝ, gm.quad (!![1]) (![u] : Vec 1) ![x] = (x - u) ^ 2 := by
    intro u x
    unfold gm.quad
    rw [max_eq_left]
    · simp [dotProduct, Matrix.vecMul]; ring
    · simp [dotProduct, Matrix.vecMul]; exact mul_self_nonneg _
  have hp : ∀ F : ℝ → ℝ, (GaussMix.mk 100 1 (1 / 10) ⟨1, [fun _ => ⟨!![1], ![0], 1⟩, fun _ => ⟨!![1], ![100], 1⟩]⟩).predictWith F argsort (some ⟨1, [![41], ![59]]⟩) =
      .ok [(argsort [F (-(1681 / 2)), F (-(3481 / 2))]).reverse, (argsort [F (-(3481 / 2)), F (-(1681 / 2))]).reverse] := by
    intro F
    have e : ∀ u x : ℝ, gm.scoreWith F (fun _ : Fin 1 => (⟨!![1], ![u], 1⟩ : MixComp 1)) ![x] = F (-((x - u) ^ 2 / 2)) := by
      intro u x
      simp only [gm.scoreWith, Finset.univ_unique, Finset.sum_singleton, hq, one_mul]
      congr 1
      ring
    have hp : (GaussMix.mk 100 1 (1 / 10) ⟨1, [fun _ => ⟨!![1], ![0], 1⟩, fun _ => ⟨!![1], ![100], 1⟩]⟩).predictWith F argsort (some ⟨1, [![41], ![59]]⟩) =
        .ok [(argsort [gm.scoreWith F (fun _ : Fin 1 => (⟨!![1], ![0], 1⟩ : MixComp 1)) ![41], gm.scoreWith F (fun _ : Fin 1 => (⟨!![1], ![100], 1⟩ : MixComp 1)) ![41]]).reverse,
          (argsort [gm.scoreWith F (fun _ : Fin 1 => (⟨!![1], ![0], 1⟩ : MixComp 1)) ![59], gm.scoreWith F (fun _ : Fin 1 => (⟨!![1], ![100], 1⟩ : MixComp 1)) ![59]]).reverse] := by
      simp only [GaussMix.predictWith, List.cons_ne_nil, one_ne_zero, or_self, if_false, dif_pos, List.map_cons, List.map_nil]
      rfl
    rw [hp, e, e, e, e]
    norm_num
  refine ⟨?_, ?_⟩
  · rw [← C158_exact, hp]
    have h1 : Real.exp (-(3481 / 2)) < Real.exp (-(1681 / 2)) := Real.exp_lt_exp.mpr (by norm_num)
    rw [ranking_two_gt (hs _) h1, (hs _).two h1]
    rfl
  · rw [hp, hE _ (by norm_num), hE _ (by norm_num)]
    exact ⟨_, rfl⟩

/-- The hypotheses of `C158_wrong` are met. -/
example := C158_wrong sortPositions sortPositions_ranking (fun v => if v ≤ -746 then 0 else Real.exp v) fun _ h => if_pos h

end Verif.Props
