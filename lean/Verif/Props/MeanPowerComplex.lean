import Verif.Props.MeanPower
import Verif.Props.ComplexFilter

/- C175 of filters with complex coefficients. -/

namespace Verif.Props

open MeasureTheory Finset Spec

/-- The mean power of a response whose denominator has no zeros on the circle. -/
private theorem response_powerC (b a : List ℂ) (N : ℕ) (hN : 0 < N) (hd : ∀ u, dtftC a u ≠ 0) :
    ∃ y f, np.responseC b a N 1 = .ok (y, f) ∧ meanPower y = (∑ k ∈ range N, ‖dtftC b (2 * k / N) / dtftC a (2 * k / N)‖ ^ 2) / N := by
  classical
  refine ⟨_, _, by unfold np.responseC; rw [if_neg (by omega), if_neg (by omega)], ?_⟩
  have hz : ∀ (c : List ℂ) (k : ℕ), np.polyval c.reverse (Complex.exp (-(Complex.I * (2 * Real.pi * k / N)))) = dtftC c (2 * k / N) := by
    intro c k
    rw [show -(Complex.I * (2 * Real.pi * k / N)) = -(Complex.I * Real.pi * ((2 * k / N : ℝ) : ℂ)) by push_cast; ring, polyval_reverseC]
  unfold meanPower
  rw [List.map_map, List.length_map]
  congr 1
  · rw [rotate_map, rotate_sum]
    unfold np.freqzC
    rw [List.map_map, Int.toNat_natCast]
    change ∑ k ∈ range N, _ = _
    refine sum_congr rfl fun k _ => ?_
    simp only [Function.comp_apply, hz]
    rw [if_neg (hd _)]
    simp
  · simp only [np.rotate, np.freqzC, List.length_append, List.length_drop, List.length_take, List.length_map, List.length_range, Int.toNat_natCast]
    norm_cast
    omega

/-- C175.  The mean power of the response of a FirFilter with complex coefficients, of a length not less than that of the filter, is the sum of the squared
magnitudes of its coefficients. -/
theorem C175_fir_complex (g : Fir ℂ) (hb : g.b ≠ []) (length : ℤ) (hl : (g.b.length : ℤ) ≤ length) :
    ∃ y f, g.responseC length 1 = .ok (y, f) ∧ meanPower y = (g.b.map fun v => ‖v‖ ^ 2).sum := by
  have hbl := List.length_pos_of_ne_nil hb
  obtain ⟨N, rfl⟩ : ∃ N : ℕ, length = N := ⟨length.toNat, by omega⟩
  have hone : ∀ u, dtftC [1, 0] u = 1 := fun u => by simp [dtftC, sum_range_succ, at0]
  obtain ⟨y, f, h1, h2⟩ := response_powerC g.b [1, 0] N (by omega) fun u => by rw [hone]; exact one_ne_zero
  refine ⟨y, f, h1, ?_⟩
  have hN0 : (N : ℝ) ≠ 0 := by exact_mod_cast (show N ≠ 0 by omega)
  have hd : ∀ u, dtftC g.b u = ∑ i ∈ range N, at0 g.b i * Complex.exp (-(Complex.I * Real.pi * u * i)) := by
    intro u
    unfold dtftC
    apply sum_subset (range_subset_range.mpr (by omega))
    intro i _ hi
    rw [at0_of_le _ _ (by simpa using hi)]
    simp
  have he : (g.b.map fun v => ‖v‖ ^ 2).sum = ∑ i ∈ range N, ‖at0 g.b i‖ ^ 2 := by
    have := energy_eq g.b
    unfold energy at this
    rw [this]
    apply sum_subset (range_subset_range.mpr (by omega))
    intro i _ hi
    rw [at0_of_le _ _ (by simpa using hi)]
    simp
  simp only [hone, div_one, hd] at h2
  rw [h2, power_finite, he, mul_div_cancel_left₀ _ hN0]

example := C175_fir_complex ⟨id, [1, Complex.I, -2], [0, 0, 0]⟩ (by simp) 5 (by simp)

variable {Ω : Type*} [MeasurableSpace Ω] {μ : Measure Ω} [IsProbabilityMeasure μ]

/-- C175.  The mean power of the response of a stable IirFilter with complex coefficients tends to a limit as the response gets longer, and this limit is the factor
of the power of white noise. -/
theorem C175_iir_complex (g : Iir ℂ) (hc : g.cast = id) (hwf : g.WF) (h0 : at0 g.a 0 = 0) (hst : StableC g.a) : ∃ G : ℝ,
    (∀ ε > 0, ∃ N0 : ℕ, ∀ length : ℤ, N0 ≤ length → ∃ y f, g.responseC length 1 = .ok (y, f) ∧ |meanPower y - G| ≤ ε) ∧
    ∀ ε > 0, ∃ n0 : ℕ, ∀ (N : ℕ) (σ : ℝ) (d : ℕ → ℂ) (x : ℕ → Ω → ℂ), 0 < N → White μ x N σ → ∃ (y : Ω → List ℂ) (m : List ℂ) (g' : Iir ℂ),
      (∀ ω, ∃ f', g.filter (noisy d x N ω) = (.ok (y ω), f')) ∧ g.filter ((List.range N).map d) = (.ok m, g') ∧
      ∀ n < N, ∫ ω, ‖at0 (y ω) n - at0 m n‖ ^ 2 ∂μ ≤ σ ^ 2 * G ∧ (n0 ≤ n → σ ^ 2 * (G - ε) ≤ ∫ ω, ‖at0 (y ω) n - at0 m n‖ ^ 2 ∂μ) := by
  obtain ⟨h, hi, hn⟩ := C114_iir (μ := μ) g hc hwf h0
  have hga := wf_ne hwf
  have hh : ∀ k, h k = PowerSeries.coeff k (ser g.b * recip g.a) := by
    intro k
    obtain ⟨ys, g1, k1, k2, k3⟩ := filter_conv ({ g with s := List.replicate g.s.length 0 } : Iir ℂ)
      ⟨by simpa using hwf.1, by simpa using hwf.2.1, hwf.2.2⟩ hc h0 (fun v hv => List.eq_of_mem_replicate hv) (1 :: List.replicate k 0) (by simp)
    obtain ⟨g', hg⟩ := hi k
    rw [k1] at hg
    cases hg
    have := k3 k (by simp)
    rw [at0_sampled _ _ _ (by omega), sum_range_succ, sum_eq_zero, zero_add, Nat.sub_self] at this
    · rw [this]; simp [at0]
    · intro i hi
      have := mem_range.mp hi
      obtain ⟨m, hm⟩ : ∃ m, k - i = m + 1 := ⟨k - i - 1, by omega⟩
      rw [hm]
      by_cases hmn : m < k <;> simp [at0, hmn]
  obtain ⟨K, hK⟩ := stableC_impulse g.a g.b h0 hga hst
  have hsum : Summable fun k => ‖h k‖ := by
    have := hK.summable
    simp only [← hh] at this
    exact this
  have hlim := fun u => (impulse_sumC g.a g.b h0 hga hst u).2
  simp only [← hh] at hlim
  have hsq : Summable fun k => ‖h k‖ ^ 2 := by
    refine Summable.of_nonneg_of_le (fun k => sq_nonneg _) (fun k => ?_) (hsum.mul_left (∑' j, ‖h j‖))
    rw [sq]
    exact mul_le_mul_of_nonneg_right (hsum.le_tsum k fun _ _ => norm_nonneg _) (norm_nonneg _)
  have hpart := hsq.hasSum.tendsto_sum_nat
  refine ⟨∑' k, ‖h k‖ ^ 2, fun ε hε => ?_, fun ε hε => ?_⟩
  · have t1 : Filter.Tendsto (fun N => 2 * (∑' k, ‖h k‖) * ∑' k, ‖h (k + N)‖) Filter.atTop (nhds (2 * (∑' k, ‖h k‖) * 0)) :=
      (tendsto_sum_nat_add fun k => ‖h k‖).const_mul _
    rw [mul_zero] at t1
    obtain ⟨N1, hN1⟩ := Filter.eventually_atTop.mp (t1.eventually (gt_mem_nhds (half_pos hε)))
    obtain ⟨N2, hN2⟩ := Metric.tendsto_atTop.mp hpart (ε / 2) (half_pos hε)
    refine ⟨max 1 (max N1 N2), fun length hl => ?_⟩
    obtain ⟨N, rfl⟩ : ∃ N : ℕ, length = N := ⟨length.toNat, by omega⟩
    have hl' : max 1 (max N1 N2) ≤ N := by exact_mod_cast hl
    obtain ⟨y, f, h1, h2⟩ := response_powerC g.b (1 :: g.a.tail.map (- ·)) N (by omega) fun u => by
      rw [dtftC_one_sub _ hga h0]; exact (impulse_sumC g.a g.b h0 hga hst u).1
    refine ⟨y, f, h1, ?_⟩
    simp only [dtftC_one_sub _ hga h0] at h2
    have h3 := power_limit h (freqRespC g.a g.b) hsum hlim N (by omega)
    have h4 := hN2 N (by omega)
    have h5 := hN1 N (by omega)
    rw [Real.dist_eq] at h4
    unfold freqRespC at h3
    rw [h2, ← sub_add_sub_cancel _ (∑ i ∈ range N, ‖h i‖ ^ 2) _]
    exact (abs_add_le _ _).trans (by linarith)
  · obtain ⟨n0, hn0⟩ := Metric.tendsto_atTop.mp hpart ε hε
    refine ⟨n0, fun N σ d x hN hx => ?_⟩
    obtain ⟨y, m, g', y1, y2, y3⟩ := hn N σ d x hN hx
    refine ⟨y, m, g', y1, y2, fun n hnN => ?_⟩
    rw [y3.power n hnN]
    refine ⟨mul_le_mul_of_nonneg_left (hsq.sum_le_tsum _ fun _ _ => sq_nonneg _) (sq_nonneg _), fun hle => ?_⟩
    refine mul_le_mul_of_nonneg_left ?_ (sq_nonneg _)
    have := hn0 (n + 1) (by omega)
    rw [Real.dist_eq] at this
    linarith [(abs_lt.mp this).1]

/-- A pole at half the imaginary unit, in a state which is not zero. -/
example := C175_iir_complex (μ := μ) (⟨id, [0, Complex.I / 2], [1, 0], [3, Complex.I]⟩ : Iir ℂ) rfl ⟨rfl, rfl, by simp⟩ rfl (by
  intro z hz
  have h : z = Complex.I / 2 := by
    simp [poleValue, at0] at hz
    linear_combination hz
  rw [h]
  norm_num)

end Verif.Props
