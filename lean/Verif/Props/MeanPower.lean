import Verif.Spec.MeanPower
import Verif.Props.Energy
import Verif.Props.Noise

/-
C175.  The mean power of the response reported is the factor by which a filter multiplies the power of white noise: exactly for a FirFilter, for a stable
IirFilter in the limit of long responses.
-/

namespace Verif.Props

open MeasureTheory Finset Spec

theorem rotate_sum (y : List ℝ) : (np.rotate y).sum = y.sum := by
  unfold np.rotate
  rw [List.sum_append, add_comm, ← List.sum_append, List.take_append_drop]

theorem rotate_map {α β : Type*} (f : α → β) (y : List α) : (np.rotate y).map f = np.rotate (y.map f) := by
  simp [np.rotate, List.map_drop, List.map_take]

private theorem sum_list (N : ℕ) (F : ℕ → ℝ) : ((List.range N).map F).sum = ∑ k ∈ range N, F k := rfl

/-- The mean power of a response whose denominator has no zeros on the circle. -/
theorem response_power (b a : List ℝ) (N : ℕ) (hN : 0 < N) (hd : ∀ u, dtft a u ≠ 0) :
    ∃ y f, np.response b a N 1 = .ok (y, f) ∧ meanPower y = (∑ k ∈ range N, ‖dtft b (2 * k / N) / dtft a (2 * k / N)‖ ^ 2) / N := by
  classical
  refine ⟨_, _, by unfold np.response; rw [if_neg (by omega), if_neg (by omega)], ?_⟩
  have hz : ∀ (c : List ℝ) (k : ℕ), np.polyval (np.complexOf c).reverse (Complex.exp (-(Complex.I * (2 * Real.pi * k / N)))) = dtft c (2 * k / N) := by
    intro c k
    rw [show -(Complex.I * (2 * Real.pi * k / N)) = -(Complex.I * Real.pi * ((2 * k / N : ℝ) : ℂ)) by push_cast; ring, polyval_reverse]
  unfold meanPower
  rw [List.map_map, List.length_map]
  congr 1
  · rw [rotate_map, rotate_sum]
    unfold np.freqz
    rw [List.map_map, Int.toNat_natCast, sum_list]
    refine sum_congr rfl fun k _ => ?_
    simp only [Function.comp_apply, hz]
    rw [if_neg (hd _)]
    simp
  · simp only [np.rotate, np.freqz, List.length_append, List.length_drop, List.length_take, List.length_map, List.length_range, Int.toNat_natCast]
    norm_cast
    omega

/-- A spectrum sampled as often as there are coefficients. -/
theorem power_finite (h : ℕ → ℂ) (N : ℕ) :
    ∑ k ∈ range N, ‖∑ i ∈ range N, h i * Complex.exp (-(Complex.I * Real.pi * ((2 * k / N : ℝ) : ℂ) * i))‖ ^ 2 = N * ∑ i ∈ range N, ‖h i‖ ^ 2 := by
  rw [← dft_parseval]
  refine sum_congr rfl fun k _ => ?_
  congr 2
  refine sum_congr rfl fun i _ => ?_
  unfold turn
  congr 2
  push_cast
  ring

/-! ### FirFilter -/

/-- C175.  The mean power of the response of a FirFilter, of a length not less than that of the filter, is the sum of the squares of its coefficients. -/
theorem C175_fir (g : Fir ℝ) (hb : g.b ≠ []) (length : ℤ) (hl : (g.b.length : ℤ) ≤ length) :
    ∃ y f, g.response length 1 = .ok (y, f) ∧ meanPower y = (g.b.map fun v => v ^ 2).sum := by
  have hbl := List.length_pos_of_ne_nil hb
  obtain ⟨N, rfl⟩ : ∃ N : ℕ, length = N := ⟨length.toNat, by omega⟩
  have hone : ∀ u, dtft [1, 0] u = 1 := fun u => by simp [dtft, sum_range_succ, at0]
  obtain ⟨y, f, h1, h2⟩ := response_power g.b [1, 0] N (by omega) fun u => by rw [hone]; exact one_ne_zero
  refine ⟨y, f, h1, ?_⟩
  have hN0 : (N : ℝ) ≠ 0 := by exact_mod_cast (show N ≠ 0 by omega)
  have hd : ∀ u, dtft g.b u = ∑ i ∈ range N, ((at0 g.b i : ℝ) : ℂ) * Complex.exp (-(Complex.I * Real.pi * u * i)) := by
    intro u
    unfold dtft
    apply sum_subset (range_subset_range.mpr (by omega))
    intro i _ hi
    rw [at0_of_le _ _ (by simpa using hi)]
    simp
  have he : (g.b.map fun v => v ^ 2).sum = ∑ i ∈ range N, ‖((at0 g.b i : ℝ) : ℂ)‖ ^ 2 := by
    have := energy_eq g.b
    unfold energy at this
    simp only [Real.norm_eq_abs, sq_abs] at this
    rw [this]
    simp only [Complex.norm_real, Real.norm_eq_abs, sq_abs]
    apply sum_subset (range_subset_range.mpr (by omega))
    intro i _ hi
    rw [at0_of_le _ _ (by simpa using hi)]
    simp
  simp only [hone, div_one, hd] at h2
  rw [h2, power_finite, he, mul_div_cancel_left₀ _ hN0]

/-! ### IirFilter -/

theorem power_limit (h : ℕ → ℂ) (H : ℝ → ℂ) (hs : Summable fun k => ‖h k‖)
    (hH : ∀ u : ℝ, Filter.Tendsto (fun n => ∑ i ∈ range n, h i * Complex.exp (-(Complex.I * Real.pi * u * i))) Filter.atTop (nhds (H u))) (N : ℕ) (hN : 0 < N) :
    |(∑ k ∈ range N, ‖H (2 * k / N)‖ ^ 2) / N - ∑ i ∈ range N, ‖h i‖ ^ 2| ≤ 2 * (∑' k, ‖h k‖) * ∑' k, ‖h (k + N)‖ := by
  have hN0 : (0 : ℝ) < N := by exact_mod_cast hN
  have hz : ∀ (u : ℝ) (i : ℕ), ‖h i * Complex.exp (-(Complex.I * Real.pi * u * i))‖ = ‖h i‖ := by
    intro u i
    rw [norm_mul, show -(Complex.I * Real.pi * u * i) = ((-(Real.pi * u * i) : ℝ) : ℂ) * Complex.I by push_cast; ring, Complex.norm_exp_ofReal_mul_I, mul_one]
  have hsu : ∀ u : ℝ, Summable fun i : ℕ => h i * Complex.exp (-(Complex.I * Real.pi * u * i)) := fun u => Summable.of_norm (by simpa only [hz] using hs)
  have ht : ∀ u : ℝ, ∑' i : ℕ, h i * Complex.exp (-(Complex.I * Real.pi * u * i)) = H u := fun u => tendsto_nhds_unique (hsu u).hasSum.tendsto_sum_nat (hH u)
  set P : ℝ → ℂ := fun u => ∑ i ∈ range N, h i * Complex.exp (-(Complex.I * Real.pi * u * i)) with hP
  set t := ∑' k, ‖h (k + N)‖ with htd
  set M := ∑' k, ‖h k‖ with hMd
  have t0 : 0 ≤ t := tsum_nonneg fun _ => norm_nonneg _
  have b1 : ∀ u, ‖H u‖ ≤ M := fun u => by
    rw [← ht]
    refine (norm_tsum_le_tsum_norm (by simpa only [hz] using hs)).trans (le_of_eq ?_)
    simp only [hz, hMd]
  have b2 : ∀ u, ‖P u‖ ≤ M := fun u => by
    refine (norm_sum_le _ _).trans ?_
    simp only [hz]
    exact hs.sum_le_tsum _ fun _ _ => norm_nonneg _
  have b3 : ∀ u, ‖H u - P u‖ ≤ t := fun u => by
    have hsplit := (hsu u).sum_add_tsum_nat_add N
    rw [ht] at hsplit
    rw [← hsplit, hP]
    simp only
    rw [add_sub_cancel_left]
    have e : (fun k : ℕ => ‖h (k + N) * Complex.exp (-(Complex.I * Real.pi * u * ((k + N : ℕ) : ℂ)))‖) = fun k => ‖h (k + N)‖ := funext fun k => hz u (k + N)
    refine (norm_tsum_le_tsum_norm (by rw [e]; exact (summable_nat_add_iff N).mpr hs)).trans (le_of_eq ?_)
    exact tsum_congr fun k => hz u (k + N)
  have b4 : ∀ u, |‖H u‖ ^ 2 - ‖P u‖ ^ 2| ≤ 2 * M * t := by
    intro u
    rw [sq_sub_sq, abs_mul]
    refine mul_le_mul ?_ ((abs_norm_sub_norm_le _ _).trans (b3 u)) (abs_nonneg _) ?_
    · rw [abs_of_nonneg (by positivity)]; linarith [b1 u, b2 u]
    · linarith [(norm_nonneg (H u)).trans (b1 u)]
  have e := power_finite h N
  have e2 : ∑ i ∈ range N, ‖h i‖ ^ 2 = (∑ k ∈ range N, ‖P (2 * k / N)‖ ^ 2) / N := by
    rw [eq_div_iff hN0.ne', mul_comm, ← e]
  rw [e2, ← sub_div, ← sum_sub_distrib, abs_div, abs_of_pos hN0, div_le_iff₀ hN0]
  refine (abs_sum_le_sum_abs _ _).trans ((sum_le_sum fun k _ => b4 _).trans (le_of_eq ?_))
  rw [sum_const, card_range, nsmul_eq_mul, mul_comm]

variable {Ω : Type*} [MeasurableSpace Ω] {μ : Measure Ω} [IsProbabilityMeasure μ]

/-- C175.  The mean power of the response of a stable IirFilter tends to a limit as the response gets longer.  The power of white noise of power `σ²` which has
passed through the filter, in whatever state it was, never exceeds `σ²` times this limit, and comes as close to it as one likes after some samples. -/
theorem C175_iir (g : Iir ℝ) (hc : g.cast = id) (hwf : g.WF) (h0 : at0 g.a 0 = 0) (hst : Stable g.a) : ∃ G : ℝ,
    (∀ ε > 0, ∃ N0 : ℕ, ∀ length : ℤ, N0 ≤ length → ∃ y f, g.response length 1 = .ok (y, f) ∧ |meanPower y - G| ≤ ε) ∧
    ∀ ε > 0, ∃ n0 : ℕ, ∀ (N : ℕ) (σ : ℝ) (d : ℕ → ℝ) (x : ℕ → Ω → ℝ), 0 < N → White μ x N σ → ∃ (y : Ω → List ℝ) (m : List ℝ) (g' : Iir ℝ),
      (∀ ω, ∃ f', g.filter (noisy d x N ω) = (.ok (y ω), f')) ∧ g.filter ((List.range N).map d) = (.ok m, g') ∧
      ∀ n < N, ∫ ω, (at0 (y ω) n - at0 m n) ^ 2 ∂μ ≤ σ ^ 2 * G ∧ (n0 ≤ n → σ ^ 2 * (G - ε) ≤ ∫ ω, (at0 (y ω) n - at0 m n) ^ 2 ∂μ) := by
  obtain ⟨h, G, hi, hG, hn⟩ := C114_iir_stable (μ := μ) g hc hwf h0 hst
  have hga := wf_ne hwf
  have hh : ∀ k, h k = PowerSeries.coeff k (ser g.b * recip g.a) := by
    intro k
    obtain ⟨ys, g1, k1, k2, k3⟩ := filter_conv ({ g with s := List.replicate g.s.length 0 } : Iir ℝ)
      ⟨by simpa using hwf.1, by simpa using hwf.2.1, hwf.2.2⟩ hc h0 (fun v hv => List.eq_of_mem_replicate hv) (1 :: List.replicate k 0) (by simp)
    obtain ⟨g', hg⟩ := hi k
    rw [k1] at hg
    cases hg
    have := k3 k (by simp)
    rw [at0_sampled _ _ _ (by omega), sum_range_succ, sum_eq_zero, zero_add, Nat.sub_self] at this
    · rw [this]; simp [at0]
    · intro i hi
      have := mem_range.mp hi
      obtain ⟨m, hm⟩ : ∃ m, k - i = m + 1 := ⟨k - i - 1, by omega⟩
      rw [hm]
      by_cases hmn : m < k <;> simp [at0, hmn]
  obtain ⟨K, hK⟩ := stable_impulse g.a g.b h0 hga hst
  have hsum : Summable fun k => ‖((h k : ℝ) : ℂ)‖ := by
    have := hK.summable
    simp only [PowerSeries.coeff_map, ← hh] at this
    exact this
  have hlim := fun u => (impulse_sum g.a g.b h0 hga hst u).2
  have hcoef : ∀ i, PowerSeries.coeff i (ser (np.complexOf g.b) * recip (np.complexOf g.a)) = ((h i : ℝ) : ℂ) := by
    intro i
    rw [← ser_map_ofReal, ← recip_map _ h0, ← map_mul, PowerSeries.coeff_map, hh]; rfl
  simp only [hcoef] at hlim
  have hpart := hG.tendsto_sum_nat
  refine ⟨G, fun ε hε => ?_, fun ε hε => ?_⟩
  · have t1 : Filter.Tendsto (fun N => 2 * (∑' k, ‖((h k : ℝ) : ℂ)‖) * ∑' k, ‖((h (k + N) : ℝ) : ℂ)‖) Filter.atTop (nhds (2 * (∑' k, ‖((h k : ℝ) : ℂ)‖) * 0)) :=
      (tendsto_sum_nat_add fun k => ‖((h k : ℝ) : ℂ)‖).const_mul _
    rw [mul_zero] at t1
    obtain ⟨N1, hN1⟩ := Filter.eventually_atTop.mp (t1.eventually (gt_mem_nhds (half_pos hε)))
    obtain ⟨N2, hN2⟩ := Metric.tendsto_atTop.mp hpart (ε / 2) (half_pos hε)
    refine ⟨max 1 (max N1 N2), fun length hl => ?_⟩
    obtain ⟨N, rfl⟩ : ∃ N : ℕ, length = N := ⟨length.toNat, by omega⟩
    have hl' : max 1 (max N1 N2) ≤ N := by exact_mod_cast hl
    obtain ⟨y, f, h1, h2⟩ := response_power g.b (1 :: g.a.tail.map (- ·)) N (by omega) fun u => by
      rw [dtft_one_sub _ hga h0]; exact (impulse_sum g.a g.b h0 hga hst u).1
    refine ⟨y, f, h1, ?_⟩
    simp only [dtft_one_sub _ hga h0] at h2
    have h3 := power_limit (fun k => ((h k : ℝ) : ℂ)) (freqResp g.a g.b) hsum hlim N (by omega)
    have h4 := hN2 N (by omega)
    have h5 := hN1 N (by omega)
    rw [Real.dist_eq] at h4
    simp only [Complex.norm_real, Real.norm_eq_abs, sq_abs] at h3 h5
    unfold freqResp at h3
    rw [h2, ← sub_add_sub_cancel _ (∑ i ∈ range N, h i ^ 2) G]
    exact (abs_add_le _ _).trans (by linarith)
  · obtain ⟨n0, hn0⟩ := Metric.tendsto_atTop.mp hpart ε hε
    refine ⟨n0, fun N σ d x hN hx => ?_⟩
    obtain ⟨y, m, g', y1, y2, y3⟩ := hn N σ d x hN hx
    refine ⟨y, m, g', y1, y2, fun n hnN => ⟨(y3 n hnN).2.2, fun hle => ?_⟩⟩
    rw [(y3 n hnN).2.1]
    refine mul_le_mul_of_nonneg_left ?_ (sq_nonneg _)
    have := hn0 (n + 1) (by omega)
    rw [Real.dist_eq] at this
    linarith [(abs_lt.mp this).1]

/-- C175.  White noise through a FirFilter, once it is full: the power is multiplied by the mean power of the response reported. -/
theorem C175_fir_noise (b : List ℝ) (s : Option (List ℝ)) (hb : b ≠ []) (length : ℤ) (N : ℕ) (σ : ℝ) (d : ℕ → ℝ) (x : ℕ → Ω → ℝ) (hN : 0 < N) (hx : White μ x N σ)
    (hs : ((s.getD []).length : ℤ) ≤ length) (hl : (b.length : ℤ) ≤ length) :
    ∃ (g : Fir ℝ) (y : Ω → List ℝ) (m : List ℝ) (g' : Fir ℝ) (z : List (Option ℂ)) (f : List ℝ), Fir.new id b s = .ok g ∧
      (∀ ω, ∃ f', g.filter (noisy d x N ω) = (.ok (y ω), f')) ∧ g.filter ((List.range N).map d) = (.ok m, g') ∧ g.response length 1 = .ok (z, f) ∧
      ∀ n < N, b.length ≤ n + 1 → ∫ ω, (at0 (y ω) n - at0 m n) ^ 2 ∂μ = σ ^ 2 * meanPower z := by
  obtain ⟨g, y, m, g', h1, h2, h3, -, h5⟩ := C114_fir b s hb d x hN hx
  have hgb : (g.b = b ∨ g.b = padTo (s.getD []).length b) ∧ (g.b.length : ℤ) ≤ length := by
    unfold Fir.new at h1
    rw [if_neg (List.length_pos_of_ne_nil hb).ne', Except.ok.injEq] at h1
    rw [← h1]
    simp only
    split
    · next h => exact ⟨.inr rfl, by simp [padTo]; omega⟩
    · exact ⟨.inl rfl, hl⟩
  have hsq : (g.b.map fun v => v ^ 2).sum = (b.map fun v => v ^ 2).sum := by
    rcases hgb.1 with h | h <;> rw [h]
    simp [padTo]
  have hne : g.b ≠ [] := by
    rcases hgb.1 with h | h <;> rw [h]
    · exact hb
    · simp [padTo, hb]
  obtain ⟨z, f, k1, k2⟩ := C175_fir g hne length hgb.2
  refine ⟨g, y, m, g', z, f, h1, h2, h3, k1, fun n hn hbn => ?_⟩
  have := h5 n hn hbn
  simp only [Real.norm_eq_abs, sq_abs] at this
  rw [this, k2, hsq]

/-! ### Concrete cases -/

/-- The mean power of the response of `y_n = x_n + 2 x_{n-1}`, of two samples or more, is 5. -/
example (length : ℤ) (hl : 2 ≤ length) : ∃ y f, (⟨id, [1, 2], [0, 0]⟩ : Fir ℝ).response length 1 = .ok (y, f) ∧ meanPower y = 5 := by
  obtain ⟨y, f, h1, h2⟩ := C175_fir ⟨id, [1, 2], [0, 0]⟩ (by simp) length (by simpa using hl)
  exact ⟨y, f, h1, by rw [h2]; norm_num⟩

/-- Two tosses of a coin through it. -/
example := C175_fir_noise (μ := coins) [1, 2] (some [7]) (by simp) 2 2 1 (fun _ => 3) (toss ℝ) (by norm_num) (toss_white ℝ) (by simp) (by simp)

/-- `y_n = y_{n-1} / 2 + x_n`, not at rest. -/
example := C175_iir (μ := coins) ⟨id, [0, 1 / 2], [1, 0], [3, -1]⟩ rfl ⟨rfl, rfl, by norm_num⟩ rfl fun z hz => by
  simp [Pole, at0] at hz
  rw [hz]
  norm_num

end Verif.Props
