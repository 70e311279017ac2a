import Verif.Lemmas.ComplexFilter
import Verif.Lemmas.Energy
import Verif.Spec.Delay
import Mathlib.Analysis.Calculus.SmoothSeries
import Mathlib.RingTheory.PowerSeries.Derivative
import Mathlib.Analysis.SpecialFunctions.ExpDeriv
import Mathlib.Analysis.Complex.RealDeriv

/- Tones with an amplitude which grows linearly, through a kernel with a summable first moment. -/

namespace Verif

open Finset Complex Spec

theorem SumBound.add {K L : ℝ} {p q : PowerSeries ℂ} (hp : SumBound K p) (hq : SumBound L q) : SumBound (K + L) (p + q) := by
  intro n
  refine le_trans (sum_le_sum fun k _ => ?_) ((sum_add_distrib (s := range n)).trans_le (add_le_add (hp n) (hq n)))
  rw [map_add]
  exact norm_add_le _ _

theorem sumBound_finite (p : PowerSeries ℂ) (N : ℕ) (h : ∀ k, N ≤ k → PowerSeries.coeff k p = 0) : SumBound (∑ k ∈ range N, ‖PowerSeries.coeff k p‖) p := by
  intro n
  rcases le_total n N with hn | hn
  · exact sum_le_sum_of_subset_of_nonneg (range_subset_range.mpr hn) (fun _ _ _ => norm_nonneg _)
  · apply le_of_eq
    symm
    apply sum_subset (range_subset_range.mpr hn)
    intro k _ hk
    rw [mem_range, not_lt] at hk
    rw [h k hk, norm_zero]

theorem sumBound_derivative_ser (l : List ℂ) : ∃ K, SumBound K (PowerSeries.derivative ℂ (ser l)) :=
  ⟨_, sumBound_finite _ l.length fun k hk => by rw [PowerSeries.coeff_derivative, coeff_ser, at0_of_le _ _ (by omega), zero_mul]⟩

/-- The impulse response of a stable filter has a summable first moment. -/
theorem stableC_moment (a b : List ℂ) (h0 : at0 a 0 = 0) (ha : a ≠ []) (hst : StableC a) :
    Summable fun k : ℕ => (k : ℝ) * ‖PowerSeries.coeff k (ser b * recip a)‖ := by
  obtain ⟨K, hK⟩ := stableC_sumBound a h0 ha hst
  obtain ⟨A, hA⟩ := sumBound_derivative_ser a
  obtain ⟨B, hB⟩ := sumBound_derivative_ser b
  have hmul := mul_recip a h0
  have hrec : PowerSeries.derivative ℂ (recip a) = PowerSeries.derivative ℂ (ser a) * (recip a * recip a) := by
    have h1 := congrArg (PowerSeries.derivative ℂ) hmul
    rw [Derivation.leibniz, map_sub, PowerSeries.derivative_one] at h1
    simp only [smul_eq_mul] at h1
    linear_combination (recip a) * h1 - PowerSeries.derivative ℂ (recip a) * hmul
  have hd : PowerSeries.derivative ℂ (ser b * recip a) = ser b * (PowerSeries.derivative ℂ (ser a) * (recip a * recip a)) + recip a * PowerSeries.derivative ℂ (ser b) := by
    rw [Derivation.leibniz, hrec, smul_eq_mul, smul_eq_mul]
  have hS := ((sumBound_serC b).mul (hA.mul (hK.mul hK))).add (hK.mul hB)
  rw [← hd] at hS
  have hsum := hS.summable
  rw [← summable_nat_add_iff 1]
  refine hsum.congr fun k => ?_
  rw [PowerSeries.coeff_derivative, norm_mul, mul_comm]
  congr 1
  rw [show ((k : ℂ) + 1) = ((k + 1 : ℕ) : ℂ) by push_cast; rfl, Complex.norm_natCast]

/-- The sum of the kernel over the circle has the derivative one expects. -/
theorem kernel_deriv (h : ℕ → ℂ) (hs : Summable fun k => ‖h k‖) (hm : Summable fun k : ℕ => (k : ℝ) * ‖h k‖) (u : ℝ) :
    HasDerivAt (fun u : ℝ => ∑' i : ℕ, h i * cexp (-(I * Real.pi * u * i))) (-(I * Real.pi) * ∑' i : ℕ, (i : ℂ) * (h i * cexp (-(I * Real.pi * u * i)))) u := by
  have hz : ∀ (v : ℝ) (i : ℕ), ‖cexp (-(I * Real.pi * v * i))‖ = 1 := by
    intro v i
    rw [show -(I * Real.pi * v * i) = ((-(Real.pi * v * i) : ℝ) : ℂ) * I by push_cast; ring, Complex.norm_exp_ofReal_mul_I]
  have hd := hasDerivAt_tsum (𝕜 := ℝ) (u := fun k : ℕ => Real.pi * ((k : ℝ) * ‖h k‖)) (g := fun (i : ℕ) (v : ℝ) => h i * cexp (-(I * Real.pi * v * i)))
    (g' := fun (i : ℕ) (v : ℝ) => -(I * Real.pi) * ((i : ℂ) * (h i * cexp (-(I * Real.pi * v * i))))) (y₀ := 0) (hm.mul_left _)
    (fun i v => by
      have h1 : HasDerivAt (fun z : ℂ => cexp (-(I * Real.pi * z * i))) (cexp (-(I * Real.pi * v * i)) * (-(I * Real.pi * i))) (v : ℂ) := by
        apply HasDerivAt.cexp
        have := (((hasDerivAt_id (v : ℂ)).const_mul (I * Real.pi)).mul_const (i : ℂ)).neg
        rw [mul_one] at this
        exact this
      have h2 := h1.comp_ofReal.const_mul (h i)
      convert! h2 using 1
      ring)
    (fun i v => by
      rw [norm_mul, norm_mul, norm_mul, hz, norm_neg, norm_mul, Complex.norm_I, Complex.norm_real, Complex.norm_natCast, Real.norm_eq_abs, abs_of_pos Real.pi_pos]
      apply le_of_eq
      ring)
    (Summable.of_norm (by simpa only [norm_mul, hz, mul_one] using hs)) u
  rw [tsum_mul_left] at hd
  exact hd

/-- A tone whose amplitude grows linearly. -/
theorem ramp_limit (h : ℕ → ℂ) (hs : Summable fun k => ‖h k‖) (hm : Summable fun k : ℕ => (k : ℝ) * ‖h k‖) (c d : ℂ) (u : ℝ) (H Q : ℂ)
    (hH : H = ∑' i : ℕ, h i * cexp (-(I * Real.pi * u * i))) (hQ : Q = ∑' i : ℕ, (i : ℂ) * (h i * cexp (-(I * Real.pi * u * i)))) :
    Filter.Tendsto (fun n : ℕ => ∑ i ∈ range (n + 1), h i * ((c + d * ((n - i : ℕ) : ℂ)) * cexp (I * Real.pi * u * ((n - i : ℕ) : ℂ))) -
      cexp (I * Real.pi * u * n) * ((c + d * n) * H - d * Q)) Filter.atTop (nhds 0) := by
  set z : ℕ → ℂ := fun i => h i * cexp (-(I * Real.pi * u * i)) with hz
  have hzn : ∀ i, ‖z i‖ = ‖h i‖ := by
    intro i
    rw [hz]
    simp only
    rw [norm_mul, show -(I * Real.pi * u * i) = ((-(Real.pi * u * i) : ℝ) : ℂ) * I by push_cast; ring, Complex.norm_exp_ofReal_mul_I, mul_one]
  have hsz : Summable z := Summable.of_norm (by simpa only [hzn] using hs)
  have hmz' : Summable fun i : ℕ => ‖(i : ℂ) * z i‖ := by
    simpa only [norm_mul, hzn, Complex.norm_natCast] using hm
  have hmz : Summable fun i : ℕ => (i : ℂ) * z i := Summable.of_norm hmz'
  have hP : Filter.Tendsto (fun n => ∑ i ∈ range (n + 1), z i) Filter.atTop (nhds H) := by
    rw [hH]; exact hsz.hasSum.tendsto_sum_nat.comp (Filter.tendsto_add_atTop_nat 1)
  have hR : Filter.Tendsto (fun n => ∑ i ∈ range (n + 1), (i : ℂ) * z i) Filter.atTop (nhds Q) := by
    rw [hQ]; exact hmz.hasSum.tendsto_sum_nat.comp (Filter.tendsto_add_atTop_nat 1)
  have hN : Filter.Tendsto (fun n : ℕ => (n : ℂ) * (∑ i ∈ range (n + 1), z i - H)) Filter.atTop (nhds 0) := by
    have ht : Filter.Tendsto (fun n : ℕ => ∑' k : ℕ, ‖((k + (n + 1) : ℕ) : ℂ) * z (k + (n + 1))‖) Filter.atTop (nhds 0) :=
      (tendsto_sum_nat_add fun i : ℕ => ‖(i : ℂ) * z i‖).comp (Filter.tendsto_add_atTop_nat 1)
    refine squeeze_zero_norm (fun n => ?_) ht
    have e := hsz.sum_add_tsum_nat_add (n + 1)
    rw [← hH] at e
    rw [show ∑ i ∈ range (n + 1), z i - H = -∑' k, z (k + (n + 1)) by rw [← e]; ring, mul_neg, norm_neg, ← tsum_mul_left]
    have hsn : Summable fun k : ℕ => ‖((k + (n + 1) : ℕ) : ℂ) * z (k + (n + 1))‖ := (summable_nat_add_iff (n + 1)).mpr hmz'
    have hle : ∀ k : ℕ, ‖(n : ℂ) * z (k + (n + 1))‖ ≤ ‖((k + (n + 1) : ℕ) : ℂ) * z (k + (n + 1))‖ := by
      intro k
      rw [norm_mul (n : ℂ), norm_mul ((k + (n + 1) : ℕ) : ℂ), Complex.norm_natCast, Complex.norm_natCast]
      refine mul_le_mul_of_nonneg_right ?_ (norm_nonneg _)
      exact_mod_cast (by omega : n ≤ k + (n + 1))
    have hsn' : Summable fun k : ℕ => ‖(n : ℂ) * z (k + (n + 1))‖ := Summable.of_nonneg_of_le (fun _ => norm_nonneg _) hle hsn
    exact (norm_tsum_le_tsum_norm hsn').trans (hsn'.tsum_le_tsum hle hsn)
  have hlim : Filter.Tendsto (fun n : ℕ => c * (∑ i ∈ range (n + 1), z i - H) + d * ((n : ℂ) * (∑ i ∈ range (n + 1), z i - H)) - d * (∑ i ∈ range (n + 1), (i : ℂ) * z i - Q))
      Filter.atTop (nhds 0) := by
    have := (((hP.sub_const H).const_mul c).add (hN.const_mul d)).sub ((hR.sub_const Q).const_mul d)
    simpa using this
  rw [tendsto_zero_iff_norm_tendsto_zero] at hlim ⊢
  refine hlim.congr fun n => ?_
  have e : ∑ i ∈ range (n + 1), h i * ((c + d * ((n - i : ℕ) : ℂ)) * cexp (I * Real.pi * u * ((n - i : ℕ) : ℂ))) =
      cexp (I * Real.pi * u * n) * ((c + d * n) * ∑ i ∈ range (n + 1), z i - d * ∑ i ∈ range (n + 1), (i : ℂ) * z i) := by
    rw [mul_sum, mul_sum, ← sum_sub_distrib, mul_sum]
    refine sum_congr rfl fun i hi => ?_
    have hi := mem_range.mp hi
    have e2 : cexp (I * Real.pi * u * ((n - i : ℕ) : ℂ)) = cexp (-(I * Real.pi * u * i)) * cexp (I * Real.pi * u * n) := by
      rw [← Complex.exp_add, Nat.cast_sub (by omega)]
      congr 1
      ring
    rw [e2, hz, Nat.cast_sub (by omega)]
    simp only
    ring
  rw [e, ← mul_sub, norm_mul, tone_norm, one_mul]
  congr 1
  ring

/-- The group delay is the real part of the lag. -/
theorem lag_re (H : ℝ → ℂ) (u : ℝ) : (I * deriv H u / (Real.pi * H u)).re = groupDelay H u := by
  unfold groupDelay
  rw [show I * deriv H u / (Real.pi * H u) = ((1 / Real.pi : ℝ) : ℂ) * (I * (deriv H u / H u)) by
    rw [mul_div_assoc, mul_comm (Real.pi : ℂ), ← div_div]
    push_cast
    ring, Complex.re_ofReal_mul, I_mul_re]
  ring

end Verif
