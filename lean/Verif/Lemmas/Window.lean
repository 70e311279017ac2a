import Verif.Model.Window
import Mathlib.Analysis.SpecialFunctions.Exponential
import Mathlib.Tactic.Linarith
import Mathlib.Tactic.NormNum
import Mathlib.Tactic.FieldSimp
import Mathlib.Tactic.Positivity

namespace Verif

theorem window.i0_summable (x : ℝ) : Summable fun k : ℕ => ((x / 2) ^ k / (k.factorial : ℝ)) ^ 2 := by
  have h := Real.summable_pow_div_factorial ((x / 2) ^ 2)
  apply Summable.of_nonneg_of_le (fun k => by positivity) _ h
  intro k
  rw [div_pow, ← pow_mul, ← pow_mul, mul_comm k 2]
  apply div_le_div_of_nonneg_left
  · rw [mul_comm, pow_mul']; positivity
  · exact_mod_cast k.factorial_pos
  · have : (1 : ℝ) ≤ k.factorial := by exact_mod_cast k.factorial_pos
    nlinarith

theorem window.i0_ge_one (x : ℝ) : 1 ≤ window.i0 x := by
  unfold window.i0
  have := (window.i0_summable x).le_tsum 0 (fun j _ => by positivity)
  simpa using this

theorem window.i0_mono (x y : ℝ) (hx : 0 ≤ x) (h : x ≤ y) : window.i0 x ≤ window.i0 y := by
  unfold window.i0
  apply (window.i0_summable x).tsum_le_tsum _ (window.i0_summable y)
  intro k
  gcongr

/-- Symmetry about the middle. -/
theorem window.value_symm (style : WStyle) (order n : ℕ) (hn : n ≤ order) :
    window.value style (order + 1) (order - n) = window.value style (order + 1) n := by
  unfold window.value
  by_cases h0 : order = 0
  · subst h0; simp
  have ho : (order : ℝ) ≠ 0 := by exact_mod_cast h0
  have hfac : -Real.pi + 2 * Real.pi * ((order - n : ℕ) : ℝ) / (((order + 1 : ℕ) : ℝ) - 1) =
      -(-Real.pi + 2 * Real.pi * (n : ℝ) / (((order + 1 : ℕ) : ℝ) - 1)) := by
    rw [Nat.cast_sub hn]
    push_cast
    rw [add_sub_cancel_right]
    field_simp
    ring
  have hcos : ∀ a b c, window.cosine a b c (order + 1) (order - n) = window.cosine a b c (order + 1) n := by
    intro a b c
    unfold window.cosine
    simp only [hfac, mul_neg, Real.cos_neg]
  have hk : window.kaiser (order + 1) (order - n) = window.kaiser (order + 1) n := by
    unfold window.kaiser
    simp only
    congr 3
    congr 2
    rw [Nat.cast_sub hn]
    push_cast
    field_simp
    ring
  rw [if_neg (by omega), if_neg (by omega)]
  cases style <;> simp only [hcos, hk]

theorem window.cosine_eq (a b c : ℝ) (m n : ℕ) : window.cosine a b c m n =
    a - c + b * Real.cos (-Real.pi + 2 * Real.pi * n / (m - 1)) + 2 * c * Real.cos (-Real.pi + 2 * Real.pi * n / (m - 1)) ^ 2 := by
  unfold window.cosine
  simp only [Real.cos_two_mul]; ring

theorem window.value_nonneg (style : WStyle) (m n : ℕ) : 0 ≤ window.value style m n := by
  unfold window.value
  split
  · norm_num
  · have h1 := Real.neg_one_le_cos (-Real.pi + 2 * Real.pi * n / (m - 1))
    have h2 := Real.cos_le_one (-Real.pi + 2 * Real.pi * n / (m - 1))
    cases style
    · simp only [window.cosine_eq]; nlinarith
    · simp only [window.cosine_eq]; nlinarith
    · simp only [window.cosine_eq]; nlinarith
    · simp only [window.kaiser]
      apply div_nonneg <;> linarith [window.i0_ge_one (7 * Real.sqrt (1 - ((n - ((m : ℝ) - 1) / 2) / (((m : ℝ) - 1) / 2)) ^ 2)), window.i0_ge_one 7]

theorem window.value_le_one (style : WStyle) (m n : ℕ) : window.value style m n ≤ 1 := by
  unfold window.value
  split
  · norm_num
  · have h1 := Real.neg_one_le_cos (-Real.pi + 2 * Real.pi * n / (m - 1))
    have h2 := Real.cos_le_one (-Real.pi + 2 * Real.pi * n / (m - 1))
    cases style
    · simp only [window.cosine_eq]; nlinarith
    · simp only [window.cosine_eq]; nlinarith
    · simp only [window.cosine_eq]; nlinarith
    · simp only [window.kaiser]
      rw [div_le_one (by linarith [window.i0_ge_one 7])]
      apply window.i0_mono
      · positivity
      · have : Real.sqrt (1 - ((n - ((m : ℝ) - 1) / 2) / (((m : ℝ) - 1) / 2)) ^ 2) ≤ 1 := by
          apply Real.sqrt_le_iff.mpr
          refine ⟨zero_le_one, ?_⟩
          nlinarith [sq_nonneg ((n - ((m : ℝ) - 1) / 2) / (((m : ℝ) - 1) / 2))]
        linarith

/-- Some coefficient is positive, except for Blackman and Hann of order one. -/
theorem window.value_pos (style : WStyle) (order : ℕ) (h : ¬ ((style = .blackman ∨ style = .hann) ∧ order = 1)) :
    ∃ n < order + 1, 0 < window.value style (order + 1) n := by
  by_cases h0 : order = 0
  · subst h0; exact ⟨0, by omega, by simp [window.value]⟩
  by_cases h1 : order = 1
  · subst h1
    refine ⟨0, by omega, ?_⟩
    unfold window.value
    rw [if_neg (by omega)]
    cases style
    · simp at h
    · simp [window.cosine]; norm_num
    · simp at h
    · simp only [window.kaiser]
      apply div_pos <;> linarith [window.i0_ge_one (7 * Real.sqrt (1 - ((((0 : ℕ) : ℝ) - ((((1 + 1 : ℕ)) : ℝ) - 1) / 2) / (((((1 + 1 : ℕ)) : ℝ) - 1) / 2)) ^ 2)), window.i0_ge_one 7]
  · refine ⟨1, by omega, ?_⟩
    have ho : (2 : ℝ) ≤ order := by exact_mod_cast (by omega : 2 ≤ order)
    have hc : -1 < Real.cos (-Real.pi + 2 * Real.pi * ((1 : ℕ) : ℝ) / (((order + 1 : ℕ) : ℝ) - 1)) := by
      have e : -Real.pi + 2 * Real.pi * ((1 : ℕ) : ℝ) / (((order + 1 : ℕ) : ℝ) - 1) = -(Real.pi - 2 * Real.pi / order) := by
        push_cast; ring
      rw [e, Real.cos_neg, ← Real.cos_pi]
      apply Real.cos_lt_cos_of_nonneg_of_le_pi
      · have : 2 * Real.pi / order ≤ Real.pi := by
          rw [div_le_iff₀ (by linarith)]
          nlinarith [Real.pi_pos]
        linarith
      · exact le_rfl
      · have : 0 < 2 * Real.pi / order := by positivity
        linarith
    have h2 := Real.cos_le_one (-Real.pi + 2 * Real.pi * ((1 : ℕ) : ℝ) / (((order + 1 : ℕ) : ℝ) - 1))
    unfold window.value
    rw [if_neg (by omega)]
    cases style
    · simp only [window.cosine_eq]; nlinarith
    · simp only [window.cosine_eq]; nlinarith
    · simp only [window.cosine_eq]; nlinarith
    · simp only [window.kaiser]
      apply div_pos
      · linarith [window.i0_ge_one (7 * Real.sqrt (1 - ((((1 : ℕ) : ℝ) - ((((order + 1 : ℕ)) : ℝ) - 1) / 2) / (((((order + 1 : ℕ)) : ℝ) - 1) / 2)) ^ 2))]
      · linarith [window.i0_ge_one 7]

theorem window.value_zero (style : WStyle) (n : ℕ) (hn : n < 2) (h : style = .blackman ∨ style = .hann) : window.value style 2 n = 0 := by
  have hfac : Real.cos (-Real.pi + 2 * Real.pi * n / (((2 : ℕ) : ℝ) - 1)) = -1 := by
    rcases (by omega : n = 0 ∨ n = 1) with rfl | rfl
    · simp
    · rw [show -Real.pi + 2 * Real.pi * ((1 : ℕ) : ℝ) / (((2 : ℕ) : ℝ) - 1) = Real.pi by push_cast; ring, Real.cos_pi]
  unfold window.value
  rw [if_neg (by omega)]
  rcases h with rfl | rfl
  · simp only [window.cosine_eq, hfac]; norm_num
  · simp only [window.cosine_eq, hfac]; norm_num

theorem list_range_sum (m : ℕ) (g : ℕ → ℝ) : ((List.range m).map g).sum = ∑ n ∈ Finset.range m, g n := by
  induction m with
  | zero => simp
  | succ m ih => rw [List.range_succ, List.map_append, List.sum_append, ih, Finset.sum_range_succ]; simp

end Verif
