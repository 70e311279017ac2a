import Verif.Spec.Response
import Verif.Model.IirDesign
import Verif.Lemmas.ZTransform
import Verif.Lemmas.Fir

namespace Verif

open Finset Spec

/-- `numpy.polyval` of coefficients in powers of `1/z` at a point of the unit circle. -/
theorem polyval_circle (c : List ℝ) (f : ℝ) :
    np.polyval (np.complexOf c) (Complex.exp (Complex.I * Real.pi * f)) =
      Complex.exp (Complex.I * Real.pi * f) ^ (c.length - 1) * dtft c f := by
  rw [np.polyval_eq, np.eval_toPoly, dtft, mul_sum, show (np.complexOf c).length = c.length by simp [np.complexOf]]
  apply sum_congr rfl
  intro i hi
  rw [at0_complexOf]
  have hi' : i ≤ c.length - 1 := by have := mem_range.mp hi; omega
  rw [← Complex.exp_nat_mul, ← Complex.exp_nat_mul, mul_left_comm (Complex.exp _) _ (Complex.exp _), ← Complex.exp_add, Nat.cast_sub hi']
  congr 2
  ring

theorem norm_circle (f : ℝ) (n : ℕ) : ‖Complex.exp (Complex.I * Real.pi * f) ^ n‖ = 1 := by
  rw [norm_pow, show Complex.I * Real.pi * f = ((Real.pi * f : ℝ) : ℂ) * Complex.I by push_cast; ring, Complex.norm_exp_ofReal_mul_I, one_pow]

theorem dtft_one_sub (a : List ℝ) (ha : a ≠ []) (h0 : at0 a 0 = 0) (f : ℝ) : dtft (1 :: a.tail.map (- ·)) f = 1 - dtft a f := by
  cases a with
  | nil => exact absurd rfl ha
  | cons x a =>
    simp only [at0, List.getD_cons_zero] at h0
    subst h0
    unfold dtft
    simp only [List.tail_cons, List.length_cons, List.length_map]
    rw [sum_range_succ', sum_range_succ']
    have : ∀ n, at0 ((1 : ℝ) :: a.map (- ·)) (n + 1) = - at0 ((0 : ℝ) :: a) (n + 1) := by
      intro n
      simp only [at0, List.getD_eq_getElem?_getD]
      cases h : a[n]? <;> simp [h]
    simp only [this]
    simp [at0, sum_neg_distrib]
    ring

theorem iir.deviation_eq (f : ℝ) (count : ℕ) (a b : List ℝ) (ha : a ≠ []) (h0 : at0 a 0 = 0) :
    iir.deviation f count (a, b) = 1 / Real.sqrt 2 - ‖freqResp a b f‖ ^ count := by
  unfold iir.deviation
  simp only
  rw [polyval_circle, polyval_circle, norm_div, norm_mul, norm_mul, norm_circle, norm_circle, one_mul, one_mul, dtft_one_sub a ha h0,
    ← norm_div, freqResp]
  congr 1
  rw [Real.rpow_neg (by norm_num), show (0.5 : ℝ) = 1 / 2 by norm_num, ← Real.sqrt_eq_rpow, one_div]

theorem fir.deviation_eq (f : ℝ) (count : ℕ) (b : List ℝ) :
    fir.deviation f count b = 1 / Real.sqrt 2 - ‖freqResp [] b f‖ ^ count := by
  unfold fir.deviation
  have := polyval_circle b f
  unfold np.complexOf at this
  rw [this, norm_mul, norm_circle, one_mul, freqResp]
  simp only [dtft, List.length_nil, range_zero, sum_empty, sub_zero, div_one]
  congr 1
  rw [Real.rpow_neg (by norm_num), show (0.5 : ℝ) = 1 / 2 by norm_num, ← Real.sqrt_eq_rpow, one_div]

end Verif
