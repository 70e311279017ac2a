import Verif.Model.Hilbert
import Verif.Lemmas.Dft
import Verif.Lemmas.Adaptive

/-
Facts about the discrete analytic signal.
-/

namespace Verif

open Complex Finset Spec

theorem hilbertRef_length (x : List ℂ) : (hilbertRef x).length = x.length := by
  simp [hilbertRef, ifft_length, fft_length]

theorem at0_hilbertRef (x : List ℂ) (n : ℕ) (hn : n < x.length) :
    at0 (hilbertRef x) n = (∑ k ∈ range x.length,
      (∑ m ∈ range x.length, at0 x m * turn (-((k : ℂ) * (m : ℂ) / (x.length : ℂ)))) * hilbertWeight x.length k *
        turn ((k : ℂ) * (n : ℂ) / (x.length : ℂ))) / (x.length : ℂ) := by
  have hl : (List.zipWith (· * ·) (fft x) ((List.range x.length).map (hilbertWeight x.length))).length = x.length := by
    simp [fft_length]
  unfold hilbertRef
  rw [at0_ifft _ _ (by rw [hl]; exact hn), hl]
  congr 1
  apply sum_congr rfl
  intro k hk
  have hk := mem_range.mp hk
  have : at0 (List.zipWith (· * ·) (fft x) ((List.range x.length).map (hilbertWeight x.length))) k = at0 (fft x) k * hilbertWeight x.length k := by
    rw [at0_of_lt _ _ (by rw [hl]; exact hk), at0_of_lt _ _ (by rw [fft_length]; exact hk)]
    simp
  rw [this, at0_fft x k hk]

/-- The weights of a bin and of its mirror image sum to two. -/
theorem hilbertWeight_mirror (N k : ℕ) (h0 : 0 < k) (hk : k < N) : hilbertWeight N k + hilbertWeight N (N - k) = 2 := by
  unfold hilbertWeight
  split
  · rename_i he
    rcases lt_trichotomy k (N / 2) with h | h | h
    · rw [if_neg (by omega), if_pos (by omega), if_neg (by omega), if_neg (by omega), add_zero]
    · rw [if_pos (by omega), if_pos (by omega)]; norm_num
    · rw [if_neg (by omega), if_neg (by omega), if_neg (by omega), if_pos (by omega), zero_add]
  · rename_i he
    rw [if_neg (by omega), if_neg (by omega : ¬ N - k = 0)]
    by_cases h : k < (N + 1) / 2
    · rw [if_pos (by omega), if_neg (by omega), add_zero]
    · rw [if_neg (by omega), if_pos (by omega), zero_add]

theorem hilbertWeight_conj (N k : ℕ) : (starRingEnd ℂ) (hilbertWeight N k) = hilbertWeight N k := by
  unfold hilbertWeight
  split_ifs <;> first | exact map_one _ | exact map_zero _ | exact map_ofNat _ 2

theorem hilbertWeight_zero (N : ℕ) : hilbertWeight N 0 = 1 := by
  unfold hilbertWeight; simp

theorem sum_range_mirror (N : ℕ) (hN : 0 < N) (g : ℕ → ℂ) :
    ∑ k ∈ range N, g k = g 0 + ∑ k ∈ (range N).filter (0 < ·), g k := by
  rw [← sum_filter_add_sum_filter_not (range N) (fun k => 0 < k) g, add_comm]
  congr 1
  rw [show (range N).filter (fun k => ¬ 0 < k) = {0} by ext k; simp only [mem_filter, mem_range, mem_singleton]; omega, sum_singleton]

/-- Reindexing by the mirror image of a bin. -/
theorem sum_mirror (N : ℕ) (hN : 0 < N) (g : ℕ → ℂ) : ∑ k ∈ range N, g k = g 0 + ∑ k ∈ (range N).filter (0 < ·), g (N - k) := by
  rw [sum_range_mirror N hN g]
  congr 1
  refine sum_nbij' (fun k => N - k) (fun k => N - k) ?_ ?_ ?_ ?_ ?_ <;> intro k hk <;> simp only [mem_filter, mem_range] at hk ⊢
  · omega
  · omega
  · omega
  · omega
  · rw [show N - (N - k) = k by omega]

theorem turn_mirror (N k n : ℕ) (hk : k < N) : turn (((N - k : ℕ) : ℂ) * (n : ℂ) / (N : ℂ)) = turn (-((k : ℂ) * (n : ℂ) / (N : ℂ))) := by
  have hN : (N : ℂ) ≠ 0 := by exact_mod_cast (by omega : N ≠ 0)
  rw [Nat.cast_sub hk.le, show ((N : ℂ) - k) * n / N = -((k : ℂ) * n / N) + ((n : ℤ) : ℂ) by push_cast; field_simp; ring, turn_add_int]

theorem turn_mirror_neg (N k n : ℕ) (hk : k < N) : turn (-(((N - k : ℕ) : ℂ) * (n : ℂ) / (N : ℂ))) = turn ((k : ℂ) * (n : ℂ) / (N : ℂ)) := by
  have hN : (N : ℂ) ≠ 0 := by exact_mod_cast (by omega : N ≠ 0)
  rw [Nat.cast_sub hk.le, show -(((N : ℂ) - k) * n / N) = ((k : ℂ) * n / N) + ((-(n : ℤ) : ℤ) : ℂ) by push_cast; field_simp; ring, turn_add_int]

theorem turn_conj_ratio (N k n : ℕ) : (starRingEnd ℂ) (turn ((k : ℂ) * (n : ℂ) / (N : ℂ))) = turn (-((k : ℂ) * (n : ℂ) / (N : ℂ))) := by
  have := turn_conj ((k : ℝ) * n / N)
  push_cast at this
  exact this

theorem turn_conj_ratio_neg (N k n : ℕ) : (starRingEnd ℂ) (turn (-((k : ℂ) * (n : ℂ) / (N : ℂ)))) = turn ((k : ℂ) * (n : ℂ) / (N : ℂ)) := by
  rw [← turn_conj_ratio, Complex.conj_conj]

/-- The real part of the analytic signal of a real signal is the signal. -/
theorem hilbertRef_re (x : List ℂ) (hx : ∀ v ∈ x, v.im = 0) (n : ℕ) (hn : n < x.length) :
    at0 (hilbertRef x) n + (starRingEnd ℂ) (at0 (hilbertRef x) n) = 2 * at0 x n := by
  obtain ⟨N, hN⟩ : ∃ N, N = x.length := ⟨_, rfl⟩
  have hN0 : (N : ℂ) ≠ 0 := by exact_mod_cast (by omega : N ≠ 0)
  have hxc : ∀ m, (starRingEnd ℂ) (at0 x m) = at0 x m := by
    intro m
    by_cases hm : m < x.length
    · rw [at0_of_lt _ _ hm, Complex.conj_eq_iff_im]; exact hx _ (List.getElem_mem hm)
    · rw [at0_of_le _ _ (by omega), map_zero]
  rw [at0_hilbertRef x n hn, ← hN]
  have hinv := dft_inversion N (at0 x) n (by omega)
  set X : ℕ → ℂ := fun k => ∑ m ∈ range N, at0 x m * turn (-((k : ℂ) * (m : ℂ) / (N : ℂ))) with hX
  have hXc : ∀ k, 0 < k → k < N → (starRingEnd ℂ) (X (N - k)) = X k := by
    intro k _ hk
    simp only [hX, map_sum, map_mul, hxc]
    apply sum_congr rfl
    intro m _
    rw [turn_conj_ratio_neg, turn_mirror N k m hk]
  have hX0 : (starRingEnd ℂ) (X 0) = X 0 := by
    simp only [hX, map_sum, map_mul, hxc]
    apply sum_congr rfl
    intro m _
    simp [turn_zero]
  have h1 : (starRingEnd ℂ) ((∑ k ∈ range N, X k * hilbertWeight N k * turn ((k : ℂ) * (n : ℂ) / (N : ℂ))) / (N : ℂ)) =
      (X 0 * hilbertWeight N 0 + ∑ k ∈ (range N).filter (0 < ·), X k * hilbertWeight N (N - k) * turn ((k : ℂ) * (n : ℂ) / (N : ℂ))) / (N : ℂ) := by
    rw [map_div₀, map_natCast, map_sum, sum_mirror N (by omega)]
    congr 2
    · simp only [map_mul, hX0, hilbertWeight_conj]
      simp [turn_zero]
    · apply sum_congr rfl
      intro k hk
      simp only [mem_filter, mem_range] at hk
      simp only [map_mul, hXc k hk.2 hk.1, hilbertWeight_conj]
      rw [turn_conj_ratio, turn_mirror_neg N k n hk.1]
  have h2 : (∑ k ∈ range N, X k * hilbertWeight N k * turn ((k : ℂ) * (n : ℂ) / (N : ℂ))) / (N : ℂ) =
      (X 0 * hilbertWeight N 0 + ∑ k ∈ (range N).filter (0 < ·), X k * hilbertWeight N k * turn ((k : ℂ) * (n : ℂ) / (N : ℂ))) / (N : ℂ) := by
    rw [sum_range_mirror N (by omega)]
    simp [turn_zero]
  have h3 : X 0 + ∑ k ∈ (range N).filter (0 < ·), X k * turn ((k : ℂ) * (n : ℂ) / (N : ℂ)) = N * at0 x n := by
    rw [← hinv, sum_range_mirror N (by omega)]
    simp [turn_zero, hX]
  rw [h1, h2, ← add_div, div_eq_iff hN0]
  rw [show (2 * at0 x n * (N : ℂ)) = 2 * (N * at0 x n) by ring, ← h3, hilbertWeight_zero]
  rw [show ∀ a b c : ℂ, (a * 1 + b) + (a * 1 + c) = 2 * a + (b + c) by intros; ring, ← sum_add_distrib, mul_add]
  congr 1
  rw [mul_sum]
  apply sum_congr rfl
  intro k hk
  simp only [mem_filter, mem_range] at hk
  have := hilbertWeight_mirror N k hk.2 hk.1
  linear_combination (X k * turn ((k : ℂ) * (n : ℂ) / (N : ℂ))) * this

/-- The analytic signal of a sum of two bins. -/
theorem hilbertRef_bins (x : List ℂ) (P Q : ℂ) (m : ℕ) (hm0 : 0 < m) (hm : 2 * m < x.length)
    (hx : ∀ n < x.length, at0 x n = P * turn ((m : ℂ) * (n : ℂ) / (x.length : ℂ)) + Q * turn (-((m : ℂ) * (n : ℂ) / (x.length : ℂ))))
    (n : ℕ) (hn : n < x.length) : at0 (hilbertRef x) n = 2 * P * turn ((m : ℂ) * (n : ℂ) / (x.length : ℂ)) := by
  obtain ⟨N, hN⟩ : ∃ N, N = x.length := ⟨_, rfl⟩
  rw [at0_hilbertRef x n hn]
  rw [← hN] at hx hm hn ⊢
  have hN0 : (N : ℂ) ≠ 0 := by exact_mod_cast (by omega : N ≠ 0)
  have hX : ∀ k ∈ range N, ∑ l ∈ range N, at0 x l * turn (-((k : ℂ) * (l : ℂ) / (N : ℂ))) =
      P * (if m = k then (N : ℂ) else 0) + Q * (if N - m = k then (N : ℂ) else 0) := by
    intro k hk
    have hk := mem_range.mp hk
    rw [← turn_orthogonal N m k (by omega) hk, ← turn_orthogonal N (N - m) k (by omega) hk, mul_sum, mul_sum, ← sum_add_distrib]
    apply sum_congr rfl
    intro l hl
    rw [hx l (mem_range.mp hl), add_mul, mul_assoc, mul_assoc, ← turn_mirror N m l (by omega), ← turn_add, ← turn_add]
    congr 3 <;> ring
  have hw1 : hilbertWeight N m = 2 := by
    unfold hilbertWeight
    split
    · rw [if_neg (by omega), if_pos (by omega)]
    · rw [if_neg (by omega), if_pos (by omega)]
  have hw2 : hilbertWeight N (N - m) = 0 := by
    have := hilbertWeight_mirror N m hm0 (by omega)
    rw [hw1] at this
    linear_combination this
  have : ∑ k ∈ range N, (∑ l ∈ range N, at0 x l * turn (-((k : ℂ) * (l : ℂ) / (N : ℂ)))) * hilbertWeight N k * turn ((k : ℂ) * (n : ℂ) / (N : ℂ)) =
      ∑ k ∈ range N, ((if m = k then P * N * hilbertWeight N k * turn ((k : ℂ) * (n : ℂ) / (N : ℂ)) else 0) +
        (if N - m = k then Q * N * hilbertWeight N k * turn ((k : ℂ) * (n : ℂ) / (N : ℂ)) else 0)) := by
    apply sum_congr rfl
    intro k hk
    rw [hX k hk]
    split_ifs <;> ring
  rw [this, sum_add_distrib, sum_ite_eq, sum_ite_eq, if_pos (mem_range.mpr (by omega)), if_pos (mem_range.mpr (by omega)), hw1, hw2]
  field_simp
  ring

end Verif
