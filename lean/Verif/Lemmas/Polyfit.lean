import Verif.Spec.Rate
import Verif.Lemmas.Fir
import Mathlib.Analysis.InnerProductSpace.Projection.Basic
import Mathlib.Analysis.InnerProductSpace.Projection.Minimal
import Mathlib.Analysis.InnerProductSpace.PiL2

/- Least squares fits exist, so the assumption on `numpy.polyfit` can be met. -/

namespace Verif

open Finset Spec

theorem polyfit_exists (n : ℕ) (dat : List ℝ) : ∃ c, IsPolyfit n dat c := by
  classical
  let E := EuclideanSpace ℝ (Fin (n + 1))
  let F := EuclideanSpace ℝ (Fin 4)
  let w : Fin (n + 1) → ℝ := fun j => ∑ i ∈ range 4, ((i : ℝ) - 1) ^ (2 * (n - j.1))
  have hw : ∀ j, 0 < w j := by
    intro j
    simp only [w, sum_range_succ, range_zero, sum_empty]
    have : ∀ t : ℝ, 0 ≤ t ^ (2 * (n - j.1)) := fun t => by rw [pow_mul]; positivity
    have h2 : (0 : ℝ) < (((2 : ℕ) : ℝ) - 1) ^ (2 * (n - j.1)) := by norm_num
    have a := this (((0 : ℕ) : ℝ) - 1)
    have b := this (((1 : ℕ) : ℝ) - 1)
    have c := this (((3 : ℕ) : ℝ) - 1)
    linarith
  let s : Fin (n + 1) → ℝ := fun j => Real.sqrt (w j)
  have hs : ∀ j, 0 < s j := fun j => Real.sqrt_pos.mpr (hw j)
  let A : E →ₗ[ℝ] F :=
    { toFun := fun d => WithLp.toLp 2 fun i : Fin 4 => ∑ j : Fin (n + 1), d j / s j * ((i.1 : ℝ) - 1) ^ (n - j.1)
      map_add' := by
        intro a b
        ext i
        show ∑ j, (a j + b j) / s j * ((i.1 : ℝ) - 1) ^ (n - j.1) =
          ∑ j, a j / s j * ((i.1 : ℝ) - 1) ^ (n - j.1) + ∑ j, b j / s j * ((i.1 : ℝ) - 1) ^ (n - j.1)
        simp only [add_div, add_mul, sum_add_distrib]
      map_smul' := by
        intro r a
        ext i
        show ∑ j, (r * a j) / s j * ((i.1 : ℝ) - 1) ^ (n - j.1) = r * ∑ j, a j / s j * ((i.1 : ℝ) - 1) ^ (n - j.1)
        rw [mul_sum]
        apply sum_congr rfl
        intro j _
        ring }
  let y : F := WithLp.toLp 2 fun i : Fin 4 => at0 dat i.1
  obtain ⟨d0, hd0⟩ : ∃ d0, A d0 = (LinearMap.range A).starProjection y := by
    have : (LinearMap.range A).starProjection y ∈ LinearMap.range A := Submodule.starProjection_apply_mem _ _
    exact this
  set p := (LinearMap.range A).starProjection y with hp
  let d : E := d0 - (LinearMap.ker A).starProjection d0
  have hAd : A d = p := by
    have : (LinearMap.ker A).starProjection d0 ∈ LinearMap.ker A := Submodule.starProjection_apply_mem _ _
    simp only [d, map_sub, hd0, LinearMap.mem_ker.mp this, sub_zero]
  have hpyth : ∀ e : E, ‖y - A e‖ ^ 2 = ‖y - p‖ ^ 2 + ‖p - A e‖ ^ 2 := by
    intro e
    have horth : inner ℝ (y - p) (p - A e) = 0 := by
      have h1 : y - p ∈ (LinearMap.range A)ᗮ := Submodule.sub_starProjection_mem_orthogonal y
      have h2 : p - A e ∈ LinearMap.range A := Submodule.sub_mem _ (Submodule.starProjection_apply_mem _ _) ⟨e, rfl⟩
      rw [real_inner_comm]
      exact h1 _ h2
    have : y - A e = (y - p) + (p - A e) := by abel
    rw [this, norm_add_sq_real, horth]; ring
  have hpyth2 : ∀ e : E, A e = p → ‖e‖ ^ 2 = ‖d‖ ^ 2 + ‖e - d‖ ^ 2 := by
    intro e he
    have horth : inner ℝ d (e - d) = 0 := by
      have h1 : d ∈ (LinearMap.ker A)ᗮ := Submodule.sub_starProjection_mem_orthogonal d0
      have h2 : e - d ∈ LinearMap.ker A := by rw [LinearMap.mem_ker, map_sub, he, hAd, sub_self]
      rw [real_inner_comm]
      exact h1 _ h2
    have : e = d + (e - d) := by abel
    conv_lhs => rw [this]
    rw [norm_add_sq_real, horth]; ring
  -- translation to coefficient lists
  let coef : E → List ℝ := fun e => List.ofFn fun j : Fin (n + 1) => e j / s j
  have hcoef : ∀ e (j : Fin (n + 1)), at0 (coef e) j.1 = e j / s j := by
    intro e j
    rw [at0_of_lt _ _ (by simp only [coef, List.length_ofFn]; exact j.2)]
    simp only [coef, List.getElem_ofFn]
  have hlen : ∀ e, (coef e).length = n + 1 := by intro e; simp [coef]
  have hpoly : ∀ e (t : ℝ), polyAt (coef e) t = ∑ j : Fin (n + 1), e j / s j * t ^ (n - j.1) := by
    intro e t
    unfold polyAt
    rw [hlen, ← Fin.sum_univ_eq_sum_range (fun i => at0 (coef e) i * t ^ (n + 1 - 1 - i)) (n + 1)]
    apply sum_congr rfl
    intro j _
    rw [hcoef]; rfl
  have herr : ∀ e, sqErr dat (coef e) = ‖y - A e‖ ^ 2 := by
    intro e
    rw [EuclideanSpace.norm_sq_eq]
    unfold sqErr
    rw [← Fin.sum_univ_eq_sum_range (fun i => (at0 dat i - polyAt (coef e) ((i : ℝ) - 1)) ^ 2) 4]
    apply sum_congr rfl
    intro i _
    rw [hpoly, Real.norm_eq_abs, sq_abs]
    rfl
  have hnorm : ∀ e, fitNorm (coef e) = ‖e‖ ^ 2 := by
    intro e
    rw [EuclideanSpace.norm_sq_eq]
    unfold fitNorm
    rw [hlen, ← Fin.sum_univ_eq_sum_range (fun j => (∑ i ∈ range 4, ((i : ℝ) - 1) ^ (2 * (n + 1 - 1 - j))) * at0 (coef e) j ^ 2) (n + 1)]
    apply sum_congr rfl
    intro j _
    rw [hcoef, Real.norm_eq_abs, sq_abs, div_pow]
    have : (∑ i ∈ range 4, ((i : ℝ) - 1) ^ (2 * (n + 1 - 1 - j.1))) = s j ^ 2 := by
      simp only [s]
      rw [Real.sq_sqrt (hw j).le]
      rfl
    rw [this]
    have := (hs j).ne'
    field_simp
  have hsurj : ∀ c : List ℝ, c.length = n + 1 → ∃ e, coef e = c := by
    intro c hc
    refine ⟨WithLp.toLp 2 fun j : Fin (n + 1) => at0 c j.1 * s j, ?_⟩
    apply List.ext_getElem (by rw [hlen, hc])
    intro i h1 h2
    simp only [coef, List.getElem_ofFn]
    rw [mul_div_assoc, div_self (hs _).ne', mul_one]
    exact at0_of_lt _ _ h2
  refine ⟨coef d, hlen d, fun c hc => ?_⟩
  obtain ⟨e, rfl⟩ := hsurj c hc
  rw [herr, herr, hnorm, hnorm, hpyth e, hpyth d, hAd, sub_self, norm_zero]
  refine ⟨by nlinarith [sq_nonneg ‖p - A e‖], fun h => ?_⟩
  have h0 : ‖p - A e‖ ^ 2 = 0 := by linarith
  have h1 : A e = p := by
    have := pow_eq_zero_iff (two_ne_zero) |>.mp h0
    exact (sub_eq_zero.mp (norm_eq_zero.mp this)).symm
  rw [hpyth2 e h1]
  nlinarith [sq_nonneg ‖e - d‖]

end Verif
