import Verif.Spec.Rounding
import Verif.Lemmas.IirState

/-
Error bounds for perturbed recursions.
-/

namespace Verif

open Finset Spec

theorem SumTree.leaves_pos (t : SumTree) : 0 < t.leaves.length := by
  induction t with
  | leaf i => simp [SumTree.leaves]
  | node l r hl hr => simp [SumTree.leaves]; omega

/-- The error of a sum in any order. -/
theorem SumTree.error (fl : ℝ → ℝ) (ε : ℝ) (hε : 0 ≤ ε) (hfl : ∀ x, |fl x - x| ≤ ε * |x|) (p : ℕ → ℝ) (t : SumTree) :
    |t.eval fl p - (t.leaves.map p).sum| ≤ ((1 + ε) ^ (t.leaves.length - 1) - 1) * (t.leaves.map fun i => |p i|).sum := by
  induction t with
  | leaf i => simp [SumTree.eval, SumTree.leaves]
  | node l r hl hr =>
    have lp := SumTree.leaves_pos l
    have rp := SumTree.leaves_pos r
    simp only [SumTree.eval, SumTree.leaves, List.map_append, List.sum_append, List.length_append]
    set A := l.eval fl p
    set B := r.eval fl p
    set SA := (l.leaves.map p).sum
    set SB := (r.leaves.map p).sum
    set TA := (l.leaves.map fun i => |p i|).sum with hTA
    set TB := (r.leaves.map fun i => |p i|).sum with hTB
    have hTA0 : 0 ≤ TA := List.sum_nonneg (by intro v hv; simp only [List.mem_map] at hv; obtain ⟨i, -, rfl⟩ := hv; exact abs_nonneg _)
    have hTB0 : 0 ≤ TB := List.sum_nonneg (by intro v hv; simp only [List.mem_map] at hv; obtain ⟨i, -, rfl⟩ := hv; exact abs_nonneg _)
    have habs : ∀ L : List ℕ, |(L.map p).sum| ≤ (L.map fun i => |p i|).sum := by
      intro L
      induction L with
      | nil => simp
      | cons i L ih => simp only [List.map_cons, List.sum_cons]; exact (abs_add_le _ _).trans (by linarith)
    have hSA : |SA| ≤ TA := habs _
    have hSB : |SB| ≤ TB := habs _
    set m := l.leaves.length with hm
    set k := r.leaves.length with hk
    have h1 : (1 : ℝ) ≤ 1 + ε := by linarith
    have hAm : |A| ≤ (1 + ε) ^ (m - 1) * TA := by
      have := abs_sub_abs_le_abs_sub A SA
      have : |A| ≤ |A - SA| + |SA| := by linarith
      nlinarith
    have hBm : |B| ≤ (1 + ε) ^ (k - 1) * TB := by
      have := abs_sub_abs_le_abs_sub B SB
      have : |B| ≤ |B - SB| + |SB| := by linarith
      nlinarith
    have hpm : (1 + ε) ^ (m - 1) * (1 + ε) ≤ (1 + ε) ^ (m + k - 1) := by
      rw [← pow_succ]; exact pow_le_pow_right₀ h1 (by omega)
    have hpk : (1 + ε) ^ (k - 1) * (1 + ε) ≤ (1 + ε) ^ (m + k - 1) := by
      rw [← pow_succ]; exact pow_le_pow_right₀ h1 (by omega)
    have e1 := hfl (A + B)
    have e2 : |A + B| ≤ |A| + |B| := abs_add_le _ _
    have e3 : |fl (A + B) - (SA + SB)| ≤ |fl (A + B) - (A + B)| + (|A - SA| + |B - SB|) := by
      have := abs_add_le (fl (A + B) - (A + B)) ((A - SA) + (B - SB))
      have h := abs_add_le (A - SA) (B - SB)
      rw [show fl (A + B) - (A + B) + ((A - SA) + (B - SB)) = fl (A + B) - (SA + SB) by ring] at this
      linarith
    have e4 : ε * |A + B| ≤ ε * ((1 + ε) ^ (m - 1) * TA) + ε * ((1 + ε) ^ (k - 1) * TB) := by
      have := mul_le_mul_of_nonneg_left (e2.trans (add_le_add hAm hBm)) hε
      linarith
    have f1 := mul_le_mul_of_nonneg_right hpm hTA0
    have f2 := mul_le_mul_of_nonneg_right hpk hTB0
    nlinarith

/-- A recursion with a stable characteristic and bounded perturbation is bounded. -/
theorem recursion_bound (a : List ℝ) (h0 : at0 a 0 = 0) (G : ℝ) (N : ℕ) (hG : ∀ n ≤ N, ∑ k ∈ range n, |PowerSeries.coeff k (recip a)| ≤ G) (w d : ℕ → ℝ)
    (hw : ∀ n < N, w n = d n + ∑ i ∈ range (n + 1), at0 a i * w (n - i)) (D : ℝ) (hD : ∀ n < N, |d n| ≤ D) :
    ∀ n < N, |w n| ≤ G * D := by
  have key : ∀ n < N, w n = ∑ i ∈ range (n + 1), PowerSeries.coeff i (recip a) * d (n - i) := by
    have hrec : ∀ n, (∑ i ∈ range (n + 1), PowerSeries.coeff i (recip a) * d (n - i)) =
        d n + ∑ i ∈ range (n + 1), at0 a i * (∑ j ∈ range (n - i + 1), PowerSeries.coeff j (recip a) * d (n - i - j)) := by
      intro n
      have hc : ∀ m, PowerSeries.coeff m (recip a * PowerSeries.mk d) = ∑ i ∈ range (m + 1), PowerSeries.coeff i (recip a) * d (m - i) := by
        intro m
        rw [PowerSeries.coeff_mul, Finset.Nat.sum_antidiagonal_eq_sum_range_succ_mk]
        simp
      have hW : recip a * PowerSeries.mk d = PowerSeries.mk d + ser a * (recip a * PowerSeries.mk d) := by
        have := mul_recip a h0
        linear_combination (PowerSeries.mk d) * this
      rw [← hc]
      conv_lhs => rw [hW]
      rw [map_add, PowerSeries.coeff_mk, PowerSeries.coeff_mul, Finset.Nat.sum_antidiagonal_eq_sum_range_succ_mk]
      simp only [coeff_ser, hc]
    intro n
    induction n using Nat.strong_induction_on with
    | _ n ih =>
      intro hn
      rw [hw n hn, hrec n]
      congr 1
      apply sum_congr rfl
      intro i hi
      rcases i with _ | i
      · rw [h0, zero_mul, zero_mul]
      · rw [ih (n - (i + 1)) (by have := mem_range.mp hi; omega) (by omega)]
  intro n hn
  have hD0 : 0 ≤ D := (abs_nonneg _).trans (hD n hn)
  rw [key n hn]
  have hG' := hG (n + 1) (by omega)
  calc |∑ i ∈ range (n + 1), PowerSeries.coeff i (recip a) * d (n - i)|
      ≤ ∑ i ∈ range (n + 1), |PowerSeries.coeff i (recip a)| * D := by
        refine (abs_sum_le_sum_abs _ _).trans (sum_le_sum fun i hi => ?_)
        rw [abs_mul]
        exact mul_le_mul_of_nonneg_left (hD _ (by omega)) (abs_nonneg _)
    _ = (∑ i ∈ range (n + 1), |PowerSeries.coeff i (recip a)|) * D := by rw [sum_mul]
    _ ≤ G * D := by
        exact mul_le_mul_of_nonneg_right hG' hD0

/-- The contents of a delay line. -/
theorem delay_line (L N : ℕ) (p : ℕ → ℕ → ℝ) (w : ℕ → ℝ) (h1 : ∀ k < N, 1 < L → p (k + 1) 1 = w k)
    (h2 : ∀ k < N, ∀ i, i + 2 < L → p (k + 1) (i + 2) = p k (i + 1)) :
    ∀ k ≤ N, ∀ i, 1 ≤ i → i < L → p k i = if i ≤ k then w (k - i) else p 0 (i - k) := by
  intro k
  induction k with
  | zero => intro _ i h _; rw [if_neg (by omega)]; rfl
  | succ k ih =>
    intro hk i hi hL
    rcases i with _ | _ | i
    · omega
    · rw [if_pos (by omega), h1 k (by omega) hL]; rfl
    · rw [h2 k (by omega) i hL, ih (by omega) (i + 1) (by omega) (by omega)]
      by_cases h : i + 1 ≤ k
      · rw [if_pos h, if_pos (by omega)]; congr 1; omega
      · rw [if_neg h, if_neg (by omega)]; congr 1; omega

end Verif
