import Verif.Lemmas.Energy

/- The energies of two convolutions of one signal together are bounded by the largest sum of the powers of the two spectra. -/

namespace Verif

open Finset Complex Spec

/-- The energy of the first samples of a convolution is at most the mean over the bins of a long enough transform of the products of the powers. -/
theorem energy_bins (h x : ℕ → ℂ) (K T : ℕ) (hKT : T ≤ K) (hT : 0 < T) :
    (K + T : ℕ) * ∑ n ∈ range T, ‖∑ i ∈ range (n + 1), h i * x (n - i)‖ ^ 2 ≤
      ∑ k ∈ range (K + T), ‖∑ i ∈ range K, h i * cexp (-(I * Real.pi * ((2 * k / (K + T : ℕ) : ℝ) : ℂ) * i))‖ ^ 2 *
        ‖∑ m ∈ range (K + T), (if m < T then x m else 0) * turn (-((k : ℂ) * (m : ℂ) / ((K + T : ℕ) : ℂ)))‖ ^ 2 := by
  set X : ℕ → ℂ := fun n => if n < T then x n else 0 with hX
  set N := K + T with hN
  set Y : ℕ → ℂ := fun n => ∑ i ∈ range K, if i ≤ n then h i * X (n - i) else 0 with hY
  have hXT : ∀ n, T ≤ n → X n = 0 := fun n hn => if_neg (by omega)
  have hN0 : (0 : ℝ) < N := by exact_mod_cast (show 0 < N by omega)
  have hw : ∀ k m : ℕ, turn (-((k : ℂ) * (m : ℂ) / (N : ℂ))) = turn (-((k : ℂ) / (N : ℂ))) ^ m := by
    intro k m
    rw [← turn_nat_mul]; congr 1; ring
  have e1 := dft_parseval N Y
  have h6 : ∑ n ∈ range T, ‖∑ i ∈ range (n + 1), h i * x (n - i)‖ ^ 2 = ∑ n ∈ range T, ‖Y n‖ ^ 2 := by
    refine sum_congr rfl fun n hn => ?_
    have hn := mem_range.mp hn
    congr 2
    rw [hY]
    simp only
    rw [← sum_subset (range_subset_range.mpr (show n + 1 ≤ K by omega))]
    · refine sum_congr rfl fun i hi => ?_
      have := mem_range.mp hi
      rw [if_pos (by omega), hX]; simp only; rw [if_pos (by omega)]
    · intro i _ hi
      rw [mem_range, not_lt] at hi
      exact if_neg (by omega)
  rw [h6]
  have h7 : ∑ n ∈ range T, ‖Y n‖ ^ 2 ≤ ∑ n ∈ range N, ‖Y n‖ ^ 2 :=
    sum_le_sum_of_subset_of_nonneg (range_subset_range.mpr (by omega)) fun _ _ _ => by positivity
  refine (mul_le_mul_of_nonneg_left h7 hN0.le).trans (le_of_eq ?_)
  rw [← e1]
  refine sum_congr rfl fun k _ => ?_
  simp only [hw]
  rw [hY]
  simp only
  rw [conv_bin h X K T N le_rfl _ hXT, norm_mul, mul_pow]
  have e : cexp (-(I * Real.pi * ((2 * k / N : ℝ) : ℂ))) = turn (-((k : ℂ) / (N : ℂ))) := by
    unfold turn
    congr 1
    push_cast
    ring
  simp only [circle_pow, e, hX]

/-- Two kernels of finite length. -/
theorem energy_two_finite (h g x : ℕ → ℂ) (K T : ℕ) (M : ℝ) (hKT : T ≤ K)
    (hH : ∀ u : ℝ, 0 ≤ u → u < 2 → ‖∑ i ∈ range K, h i * cexp (-(I * Real.pi * u * i))‖ ^ 2 + ‖∑ i ∈ range K, g i * cexp (-(I * Real.pi * u * i))‖ ^ 2 ≤ M) :
    ∑ n ∈ range T, ‖∑ i ∈ range (n + 1), h i * x (n - i)‖ ^ 2 + ∑ n ∈ range T, ‖∑ i ∈ range (n + 1), g i * x (n - i)‖ ^ 2 ≤ M * ∑ n ∈ range T, ‖x n‖ ^ 2 := by
  rcases Nat.eq_zero_or_pos T with h0 | h0
  · rw [h0]; simp
  have h1 := energy_bins h x K T hKT h0
  have h2 := energy_bins g x K T hKT h0
  have h3 := dft_parseval (K + T) fun m => if m < T then x m else 0
  set N := K + T with hN
  have hN0 : (0 : ℝ) < N := by exact_mod_cast (show 0 < N by omega)
  have h5 : ∑ m ∈ range N, ‖(if m < T then x m else 0 : ℂ)‖ ^ 2 = ∑ n ∈ range T, ‖x n‖ ^ 2 := by
    rw [← sum_subset (range_subset_range.mpr (show T ≤ N by omega))]
    · refine sum_congr rfl fun n hn => ?_
      rw [if_pos (mem_range.mp hn)]
    · intro n _ hn
      rw [mem_range, not_lt] at hn
      rw [if_neg (by omega)]; simp
  rw [h5] at h3
  refine le_of_mul_le_mul_left ?_ hN0
  rw [mul_add]
  refine (add_le_add h1 h2).trans ?_
  rw [mul_left_comm, ← h3, mul_sum, ← sum_add_distrib]
  refine sum_le_sum fun k hk => ?_
  rw [← add_mul]
  refine mul_le_mul_of_nonneg_right ?_ (by positivity)
  have hk' : ((k : ℕ) : ℝ) < N := by exact_mod_cast mem_range.mp hk
  exact hH (2 * k / N) (by positivity) (by rw [div_lt_iff₀ hN0]; linarith)

/-- Two summable kernels. -/
theorem energy_two (h g x : ℕ → ℂ) (H G : ℝ → ℂ) (hs : Summable fun k => ‖h k‖) (gs : Summable fun k => ‖g k‖)
    (hH : ∀ u : ℝ, Filter.Tendsto (fun n => ∑ i ∈ range n, h i * cexp (-(I * Real.pi * u * i))) Filter.atTop (nhds (H u)))
    (hG : ∀ u : ℝ, Filter.Tendsto (fun n => ∑ i ∈ range n, g i * cexp (-(I * Real.pi * u * i))) Filter.atTop (nhds (G u)))
    (M : ℝ) (hM0 : 0 ≤ M) (hM : ∀ u : ℝ, 0 ≤ u → u < 2 → ‖H u‖ ^ 2 + ‖G u‖ ^ 2 ≤ M ^ 2) (T : ℕ) :
    ∑ n ∈ range T, ‖∑ i ∈ range (n + 1), h i * x (n - i)‖ ^ 2 + ∑ n ∈ range T, ‖∑ i ∈ range (n + 1), g i * x (n - i)‖ ^ 2 ≤
      M ^ 2 * ∑ n ∈ range T, ‖x n‖ ^ 2 := by
  have hz : ∀ (h : ℕ → ℂ) (u : ℝ) (i : ℕ), ‖h i * cexp (-(I * Real.pi * u * i))‖ = ‖h i‖ := by
    intro h u i
    rw [norm_mul, show -(I * Real.pi * u * i) = ((-(Real.pi * u * i) : ℝ) : ℂ) * I by push_cast; ring, Complex.norm_exp_ofReal_mul_I, mul_one]
  have tail : ∀ (h : ℕ → ℂ) (H : ℝ → ℂ), (Summable fun k => ‖h k‖) →
      (∀ u : ℝ, Filter.Tendsto (fun n => ∑ i ∈ range n, h i * cexp (-(I * Real.pi * u * i))) Filter.atTop (nhds (H u))) → ∀ (u : ℝ) (K : ℕ),
      ‖∑ i ∈ range K, h i * cexp (-(I * Real.pi * u * i))‖ ≤ ‖H u‖ + ∑' k, ‖h (k + K)‖ := by
    intro h H hs hH u K
    have hsu : Summable fun i : ℕ => h i * cexp (-(I * Real.pi * u * i)) := Summable.of_norm (by simpa only [hz] using hs)
    have ht : ∑' i : ℕ, h i * cexp (-(I * Real.pi * u * i)) = H u := tendsto_nhds_unique hsu.hasSum.tendsto_sum_nat (hH u)
    have hsplit := hsu.sum_add_tsum_nat_add K
    rw [ht] at hsplit
    rw [← eq_sub_iff_add_eq] at hsplit
    rw [hsplit]
    refine (norm_sub_le _ _).trans (add_le_add le_rfl ?_)
    have hs' : Summable fun k : ℕ => ‖h (k + K) * cexp (-(I * Real.pi * u * ((k + K : ℕ) : ℂ)))‖ := by
      have : (fun k : ℕ => ‖h (k + K) * cexp (-(I * Real.pi * u * ((k + K : ℕ) : ℂ)))‖) = fun k => ‖h (k + K)‖ := funext fun k => hz h u (k + K)
      rw [this]
      exact (summable_nat_add_iff K).mpr hs
    refine (norm_tsum_le_tsum_norm hs').trans (le_of_eq ?_)
    exact tsum_congr fun k => hz h u (k + K)
  have ta := tendsto_sum_nat_add fun k => ‖h k‖
  have tb := tendsto_sum_nat_add fun k => ‖g k‖
  have hlim : Filter.Tendsto (fun K => (M ^ 2 + 2 * M * (∑' k, ‖h (k + K)‖ + ∑' k, ‖g (k + K)‖) + ((∑' k, ‖h (k + K)‖) ^ 2 + (∑' k, ‖g (k + K)‖) ^ 2)) * ∑ n ∈ range T, ‖x n‖ ^ 2)
      Filter.atTop (nhds ((M ^ 2 + 2 * M * (0 + 0) + (0 ^ 2 + 0 ^ 2)) * ∑ n ∈ range T, ‖x n‖ ^ 2)) :=
    ((tendsto_const_nhds.add ((ta.add tb).const_mul (2 * M))).add ((ta.pow 2).add (tb.pow 2))).mul_const _
  rw [show M ^ 2 + 2 * M * (0 + 0) + (0 ^ 2 + 0 ^ 2) = M ^ 2 by ring] at hlim
  refine ge_of_tendsto hlim (Filter.eventually_atTop.mpr ⟨T, fun K hK => ?_⟩)
  refine energy_two_finite h g x K T _ hK fun u h0 h2 => ?_
  have h3 := hM u h0 h2
  have hu : ‖H u‖ ≤ M := (pow_le_pow_iff_left₀ (norm_nonneg _) hM0 two_ne_zero).mp (by nlinarith [sq_nonneg ‖G u‖])
  have gu : ‖G u‖ ≤ M := (pow_le_pow_iff_left₀ (norm_nonneg _) hM0 two_ne_zero).mp (by nlinarith [sq_nonneg ‖H u‖])
  have a0 : 0 ≤ ∑' k, ‖h (k + K)‖ := tsum_nonneg fun _ => norm_nonneg _
  have b0 : 0 ≤ ∑' k, ‖g (k + K)‖ := tsum_nonneg fun _ => norm_nonneg _
  have h4 := pow_le_pow_left₀ (norm_nonneg _) (tail h H hs hH u K) 2
  have h5 := pow_le_pow_left₀ (norm_nonneg _) (tail g G gs hG u K) 2
  refine (add_le_add h4 h5).trans ?_
  nlinarith [mul_le_mul_of_nonneg_right hu a0, mul_le_mul_of_nonneg_right gu b0]

end Verif
