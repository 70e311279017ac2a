import Verif.Spec.Energy
import Verif.Spec.Signal
import Verif.Lemmas.Dft
import Mathlib.Analysis.Asymptotics.SpecificAsymptotics

/- The energy of a convolution is bounded by the largest magnitude of the spectrum of the kernel; no smaller bound holds. -/

namespace Verif

open Finset Complex Spec

theorem energy_eq {R : Type*} [SeminormedAddGroup R] (x : List R) : energy x = ∑ n ∈ range x.length, ‖at0 x n‖ ^ 2 := by
  induction x with
  | nil => simp [energy]
  | cons v x ih =>
    rw [List.length_cons, sum_range_succ', energy, List.map_cons, List.sum_cons]
    rw [energy] at ih
    rw [ih, add_comm]
    simp [at0]

/-- One bin of the transform of a convolution, long enough not to wrap around. -/
theorem conv_bin (h x : ℕ → ℂ) (K T N : ℕ) (hN : K + T ≤ N) (w : ℂ) (hx : ∀ n, T ≤ n → x n = 0) :
    ∑ n ∈ range N, (∑ i ∈ range K, if i ≤ n then h i * x (n - i) else 0) * w ^ n = (∑ i ∈ range K, h i * w ^ i) * ∑ m ∈ range N, x m * w ^ m := by
  have htrim : ∀ r, T ≤ r → ∑ m ∈ range r, x m * w ^ m = ∑ m ∈ range T, x m * w ^ m := by
    intro r hr
    symm
    apply sum_subset (range_subset_range.mpr hr)
    intro m _ hm
    rw [mem_range, not_lt] at hm
    rw [hx m hm, zero_mul]
  simp only [sum_mul]
  rw [sum_comm]
  refine sum_congr rfl fun i hi => ?_
  have hi := mem_range.mp hi
  obtain ⟨r, rfl⟩ : ∃ r, N = i + r := ⟨N - i, by omega⟩
  rw [sum_range_add, sum_eq_zero (s := range i), zero_add, htrim _ (by omega), ← htrim r (by omega), mul_sum]
  · refine sum_congr rfl fun m _ => ?_
    rw [if_pos (by omega), Nat.add_sub_cancel_left, pow_add]
    ring
  · intro n hn
    have := mem_range.mp hn
    rw [if_neg (by omega), zero_mul]

theorem circle_pow (u : ℝ) (n : ℕ) : cexp (-(I * Real.pi * u * n)) = cexp (-(I * Real.pi * u)) ^ n := by
  rw [← Complex.exp_nat_mul]; congr 1; ring

/-- A kernel of finite length. -/
theorem energy_finite (h x : ℕ → ℂ) (K T : ℕ) (M : ℝ) (hH : ∀ u : ℝ, 0 ≤ u → u < 2 → ‖∑ i ∈ range K, h i * cexp (-(I * Real.pi * u * i))‖ ≤ M) (hKT : T ≤ K) :
    ∑ n ∈ range T, ‖∑ i ∈ range (n + 1), h i * x (n - i)‖ ^ 2 ≤ M ^ 2 * ∑ n ∈ range T, ‖x n‖ ^ 2 := by
  set X : ℕ → ℂ := fun n => if n < T then x n else 0 with hX
  set N := K + T with hN
  set Y : ℕ → ℂ := fun n => ∑ i ∈ range K, if i ≤ n then h i * X (n - i) else 0 with hY
  have hM : 0 ≤ M := (norm_nonneg _).trans (hH 0 le_rfl two_pos)
  have hXT : ∀ n, T ≤ n → X n = 0 := fun n hn => if_neg (by omega)
  rcases Nat.eq_zero_or_pos T with h0 | h0
  · rw [h0]; simp
  have hN0 : (0 : ℝ) < N := by exact_mod_cast (show 0 < N by omega)
  have hw : ∀ k m : ℕ, turn (-((k : ℂ) * (m : ℂ) / (N : ℂ))) = turn (-((k : ℂ) / (N : ℂ))) ^ m := by
    intro k m
    rw [← turn_nat_mul]; congr 1; ring
  have hbin : ∀ k < N, ‖∑ m ∈ range N, Y m * turn (-((k : ℂ) * (m : ℂ) / (N : ℂ)))‖ ≤ M * ‖∑ m ∈ range N, X m * turn (-((k : ℂ) * (m : ℂ) / (N : ℂ)))‖ := by
    intro k hk
    simp only [hw]
    rw [hY]
    simp only
    rw [conv_bin h X K T N le_rfl _ hXT, norm_mul]
    refine mul_le_mul_of_nonneg_right ?_ (norm_nonneg _)
    have hk' : ((k : ℕ) : ℝ) < N := by exact_mod_cast hk
    have := hH (2 * k / N) (by positivity) (by rw [div_lt_iff₀ hN0]; linarith)
    have e : cexp (-(I * Real.pi * ((2 * k / N : ℝ) : ℂ))) = turn (-((k : ℂ) / (N : ℂ))) := by
      unfold turn
      congr 1
      push_cast
      ring
    simp only [circle_pow, e] at this
    exact this
  have e1 := dft_parseval N Y
  have e2 := dft_parseval N X
  have h3 : (N : ℝ) * ∑ m ∈ range N, ‖Y m‖ ^ 2 ≤ M ^ 2 * (N * ∑ m ∈ range N, ‖X m‖ ^ 2) := by
    rw [← e1, ← e2, mul_sum]
    refine sum_le_sum fun k hk => ?_
    rw [← mul_pow]
    exact pow_le_pow_left₀ (norm_nonneg _) (hbin k (mem_range.mp hk)) 2
  have h4 : ∑ m ∈ range N, ‖Y m‖ ^ 2 ≤ M ^ 2 * ∑ m ∈ range N, ‖X m‖ ^ 2 := by
    rw [← mul_assoc, mul_comm (M ^ 2), mul_assoc] at h3
    exact le_of_mul_le_mul_left h3 hN0
  have h5 : ∑ m ∈ range N, ‖X m‖ ^ 2 = ∑ n ∈ range T, ‖x n‖ ^ 2 := by
    rw [← sum_subset (range_subset_range.mpr (show T ≤ N by omega))]
    · refine sum_congr rfl fun n hn => ?_
      rw [hX]; simp only; rw [if_pos (mem_range.mp hn)]
    · intro n _ hn
      rw [mem_range, not_lt] at hn
      rw [hXT n hn]; simp
  have h6 : ∑ n ∈ range T, ‖∑ i ∈ range (n + 1), h i * x (n - i)‖ ^ 2 = ∑ n ∈ range T, ‖Y n‖ ^ 2 := by
    refine sum_congr rfl fun n hn => ?_
    have hn := mem_range.mp hn
    congr 2
    rw [hY]
    simp only
    rw [← sum_subset (range_subset_range.mpr (show n + 1 ≤ K by omega))]
    · refine sum_congr rfl fun i hi => ?_
      have := mem_range.mp hi
      rw [if_pos (by omega), hX]; simp only; rw [if_pos (by omega)]
    · intro i _ hi
      rw [mem_range, not_lt] at hi
      exact if_neg (by omega)
  rw [h6, ← h5]
  refine le_trans ?_ h4
  exact sum_le_sum_of_subset_of_nonneg (range_subset_range.mpr (by omega)) fun _ _ _ => by positivity

/-- A summable kernel. -/
theorem energy_bound (h x : ℕ → ℂ) (H : ℝ → ℂ) (hs : Summable fun k => ‖h k‖)
    (hH : ∀ u : ℝ, Filter.Tendsto (fun n => ∑ i ∈ range n, h i * cexp (-(I * Real.pi * u * i))) Filter.atTop (nhds (H u)))
    (M : ℝ) (hM : ∀ u : ℝ, 0 ≤ u → u < 2 → ‖H u‖ ≤ M) (T : ℕ) :
    ∑ n ∈ range T, ‖∑ i ∈ range (n + 1), h i * x (n - i)‖ ^ 2 ≤ M ^ 2 * ∑ n ∈ range T, ‖x n‖ ^ 2 := by
  have hz : ∀ (u : ℝ) (i : ℕ), ‖h i * cexp (-(I * Real.pi * u * i))‖ = ‖h i‖ := by
    intro u i
    rw [norm_mul, show -(I * Real.pi * u * i) = ((-(Real.pi * u * i) : ℝ) : ℂ) * I by push_cast; ring, Complex.norm_exp_ofReal_mul_I, mul_one]
  have hlim : Filter.Tendsto (fun K => (M + ∑' k, ‖h (k + K)‖) ^ 2 * ∑ n ∈ range T, ‖x n‖ ^ 2) Filter.atTop (nhds ((M + 0) ^ 2 * ∑ n ∈ range T, ‖x n‖ ^ 2)) :=
    ((tendsto_const_nhds.add (tendsto_sum_nat_add fun k => ‖h k‖)).pow 2).mul_const _
  rw [add_zero] at hlim
  refine ge_of_tendsto hlim (Filter.eventually_atTop.mpr ⟨T, fun K hK => ?_⟩)
  refine energy_finite h x K T _ (fun u h0 h2 => ?_) hK
  have hsu : Summable fun i : ℕ => h i * cexp (-(I * Real.pi * u * i)) := Summable.of_norm (by simpa only [hz] using hs)
  have ht : ∑' i : ℕ, h i * cexp (-(I * Real.pi * u * i)) = H u := tendsto_nhds_unique hsu.hasSum.tendsto_sum_nat (hH u)
  have hsplit := hsu.sum_add_tsum_nat_add K
  rw [ht] at hsplit
  rw [← eq_sub_iff_add_eq] at hsplit
  rw [hsplit]
  refine (norm_sub_le _ _).trans (add_le_add (hM u h0 h2) ?_)
  have hs' : Summable fun k : ℕ => ‖h (k + K) * cexp (-(I * Real.pi * u * ((k + K : ℕ) : ℂ)))‖ := by
    simp only [hz]
    exact (summable_nat_add_iff K).mpr hs
  refine (norm_tsum_le_tsum_norm hs').trans (le_of_eq ?_)
  simp only [hz]

/-- No smaller bound: a long tone. -/
theorem energy_sharp (h : ℕ → ℂ) (u M : ℝ) (Hu : ℂ) (hH : Filter.Tendsto (fun n => ∑ i ∈ range n, h i * cexp (-(I * Real.pi * u * i))) Filter.atTop (nhds Hu))
    (hM : ∀ L : ℕ, ∑ n ∈ range L, ‖∑ i ∈ range (n + 1), h i * cexp (-(I * Real.pi * u * i))‖ ^ 2 ≤ M ^ 2 * L) (hM0 : 0 ≤ M) : ‖Hu‖ ≤ M := by
  have h1 : Filter.Tendsto (fun n => ‖∑ i ∈ range (n + 1), h i * cexp (-(I * Real.pi * u * i))‖ ^ 2) Filter.atTop (nhds (‖Hu‖ ^ 2)) :=
    ((hH.comp (Filter.tendsto_add_atTop_nat 1)).norm).pow 2
  have h2 := h1.cesaro
  have h3 : ‖Hu‖ ^ 2 ≤ M ^ 2 := by
    refine le_of_tendsto h2 (Filter.eventually_atTop.mpr ⟨1, fun L hL => ?_⟩)
    have hL0 : (0 : ℝ) < L := by exact_mod_cast hL
    rw [inv_mul_le_iff₀ hL0, mul_comm (L : ℝ)]
    exact hM L
  exact (pow_le_pow_iff_left₀ (norm_nonneg _) hM0 two_ne_zero).mp h3

/-- The response to a tone up to the present sample. -/
theorem conv_tone (h : ℕ → ℂ) (u : ℝ) (n : ℕ) : ∑ i ∈ range (n + 1), h i * cexp (I * Real.pi * u * ((n - i : ℕ) : ℂ)) =
    (∑ i ∈ range (n + 1), h i * cexp (-(I * Real.pi * u * i))) * cexp (I * Real.pi * u * n) := by
  rw [sum_mul]
  refine sum_congr rfl fun i hi => ?_
  have := mem_range.mp hi
  rw [mul_assoc (h i), ← Complex.exp_add, Nat.cast_sub (by omega)]
  congr 2
  ring

theorem tone_norm (u : ℝ) (n : ℕ) : ‖cexp (I * Real.pi * u * n)‖ = 1 := by
  rw [show I * Real.pi * u * n = ((Real.pi * u * n : ℝ) : ℂ) * I by push_cast; ring, Complex.norm_exp_ofReal_mul_I]

end Verif
