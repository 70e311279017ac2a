import Verif.Lemmas.Window
import Verif.Spec.Signal

/-
Property C39 of WindowFilter (diamondback/filters/window_filter.py).
-/

namespace Verif.Props

open Spec

/-- C39.  A signal of the length of the window is multiplied sample by sample. -/
theorem C39_window_product (w : Window) (x : List ℝ) (hx : x.length = w.b.length) :
    ∃ y, w.filter (some x) = .ok y ∧ y.length = x.length ∧ ∀ n, at0 y n = at0 w.b n * at0 x n := by
  refine ⟨List.zipWith (· * ·) w.b x, by simp [Window.filter, hx], by simp [hx], ?_⟩
  intro n
  simp only [at0, List.getD_eq_getElem?_getD, List.getElem?_zipWith]
  cases h1 : w.b[n]? <;> cases h2 : x[n]? <;> simp

/-- Three samples. -/
example := C39_window_product ⟨[0, 1, 0]⟩ [5, 6, 7] rfl

/-- C39.  Any other length, and any other dimension, is rejected. -/
theorem C39_window_rejects (w : Window) (x : Option (List ℝ)) (hx : ∀ v, x = some v → v.length ≠ w.b.length) :
    w.filter x = .error .valueError := by
  cases x with
  | none => rfl
  | some v => simp [Window.filter, hx v rfl]

/-- Two samples for a window of three. -/
example := C39_window_rejects ⟨[0, 1, 0]⟩ (some [5, 6]) (by simp)

theorem at0_map_range (m : ℕ) (g : ℕ → ℝ) (n : ℕ) (hn : n < m) : at0 ((List.range m).map g) n = g n := by
  simp [at0, List.getD_eq_getElem?_getD, hn]

/-- C39.  Every accepted window has `order + 1` coefficients, is symmetric and nonnegative. -/
theorem C39_window_symmetric (style : WStyle) (order : ℕ) (normal : Bool) (w : Window)
    (h : Window.new (some style) order normal = .ok (some w)) :
    w.b.length = order + 1 ∧ (∀ n ≤ order, at0 w.b (order - n) = at0 w.b n) ∧ ∀ n, 0 ≤ at0 w.b n := by
  unfold Window.new at h
  simp only [show ¬ ((order : ℤ) < 0) by omega, if_false, show ((order : ℤ) + 1).toNat = order + 1 by omega] at h
  have hraw : ∀ k : ℝ, 0 ≤ k → ∀ b : List ℝ, b = ((List.range (order + 1)).map (window.value style (order + 1))).map (· * k) →
      b.length = order + 1 ∧ (∀ n ≤ order, at0 b (order - n) = at0 b n) ∧ ∀ n, 0 ≤ at0 b n := by
    rintro k hk b rfl
    rw [List.map_map]
    refine ⟨by simp, ?_, ?_⟩
    · intro n hn
      rw [at0_map_range _ _ _ (by omega), at0_map_range _ _ _ (by omega)]
      simp only [Function.comp_apply, window.value_symm style order n hn]
    · intro n
      by_cases hn : n < order + 1
      · rw [at0_map_range _ _ _ hn]
        exact mul_nonneg (window.value_nonneg _ _ _) hk
      · simp [at0, List.getD_eq_getElem?_getD, hn]
  split at h
  · split at h
    · cases h
    · cases h
      apply hraw _ _ _ rfl
      apply div_nonneg (by positivity)
      apply List.sum_nonneg
      intro x hx
      obtain ⟨y, -, rfl⟩ := List.mem_map.mp hx
      exact abs_nonneg y
  · cases h
    apply hraw 1 zero_le_one
    simp

theorem raw_abs_sum (style : WStyle) (order : ℕ) :
    (((List.range (order + 1)).map (window.value style (order + 1))).map abs).sum =
      ∑ n ∈ Finset.range (order + 1), window.value style (order + 1) n := by
  rw [List.map_map, list_range_sum]
  apply Finset.sum_congr rfl
  intro n _
  exact abs_of_nonneg (window.value_nonneg _ _ _)

/-- C39.  With normalisation the mean absolute coefficient is one, for every style and order except the two windows whose
coefficients all vanish (Blackman and Hann of order one). -/
theorem C39_window_normal (style : WStyle) (order : ℕ) (h : ¬ ((style = .blackman ∨ style = .hann) ∧ order = 1)) :
    ∃ w, Window.new (some style) order true = .ok (some w) ∧ (∑ n ∈ Finset.range (order + 1), |at0 w.b n|) / (order + 1) = 1 := by
  obtain ⟨k, hk, hpos⟩ := window.value_pos style order h
  have hsum : 0 < ∑ n ∈ Finset.range (order + 1), window.value style (order + 1) n :=
    Finset.sum_pos' (fun n _ => window.value_nonneg _ _ _) ⟨k, Finset.mem_range.mpr hk, hpos⟩
  unfold Window.new
  simp only [show ¬ ((order : ℤ) < 0) by omega, if_false, show ((order : ℤ) + 1).toNat = order + 1 by omega, if_true, raw_abs_sum,
    hsum.ne']
  refine ⟨_, rfl, ?_⟩
  rw [List.map_map]
  have : ∀ n ∈ Finset.range (order + 1), |at0 ((List.range (order + 1)).map ((fun x => x * (((order + 1 : ℕ) : ℝ) /
      ∑ n ∈ Finset.range (order + 1), window.value style (order + 1) n)) ∘ window.value style (order + 1))) n| =
      window.value style (order + 1) n * ((order + 1 : ℝ) / ∑ n ∈ Finset.range (order + 1), window.value style (order + 1) n) := by
    intro n hn
    rw [at0_map_range _ _ _ (Finset.mem_range.mp hn)]
    simp only [Function.comp_apply]
    push_cast
    rw [abs_of_nonneg]
    exact mul_nonneg (window.value_nonneg _ _ _) (div_nonneg (by positivity) hsum.le)
  rw [Finset.sum_congr rfl this, ← Finset.sum_mul]
  have := hsum.ne'
  field_simp

/-- Eight intervals: the hypotheses of `C39_window_normal` and `C39_window_symmetric` hold. -/
example : ∃ w, Window.new (some .blackman) (8 : ℕ) true = .ok (some w) ∧ w.b.length = 9 := by
  obtain ⟨w, hw, -⟩ := C39_window_normal .blackman 8 (by simp)
  exact ⟨w, hw, (C39_window_symmetric .blackman 8 true w hw).1⟩

/-- C39.  The two exceptions divide zero by zero. -/
theorem C39_window_degenerate (style : WStyle) (h : style = .blackman ∨ style = .hann) :
    Window.new (some style) 1 true = .ok none := by
  unfold Window.new
  have h0 : window.value style 2 0 = 0 := window.value_zero style 0 (by omega) h
  have h1 : window.value style 2 1 = 0 := window.value_zero style 1 (by omega) h
  simp [List.range_succ, h0, h1]

/-- Hann. -/
example := C39_window_degenerate .hann (.inr rfl)

/-- C39.  Without normalisation the coefficients are the window itself, between zero and one. -/
theorem C39_window_raw (style : WStyle) (order : ℕ) :
    ∃ w, Window.new (some style) order false = .ok (some w) ∧ ∀ n, 0 ≤ at0 w.b n ∧ at0 w.b n ≤ 1 := by
  unfold Window.new
  simp only [show ¬ ((order : ℤ) < 0) by omega, if_false, show ((order : ℤ) + 1).toNat = order + 1 by omega, Bool.false_eq_true]
  refine ⟨_, rfl, ?_⟩
  intro n
  by_cases hn : n < order + 1
  · rw [at0_map_range _ _ _ hn]
    exact ⟨window.value_nonneg _ _ _, window.value_le_one _ _ _⟩
  · simp [at0, List.getD_eq_getElem?_getD, hn]

/-- C39.  An unknown style or a negative order is rejected. -/
theorem C39_window_new_rejects (style : Option WStyle) (order : ℤ) (normal : Bool) (h : style = none ∨ order < 0) :
    Window.new style order normal = .error .valueError := by
  rcases h with rfl | h
  · rfl
  · cases style <;> simp [Window.new, h]

example : ∃ w, Window.new (some .hann) 2 false = .ok (some w) ∧ w.b = [0, 1, 0] := by
  unfold Window.new
  simp only [show ¬ ((2 : ℤ) < 0) by omega, if_false, show ((2 : ℤ) + 1).toNat = 3 by omega, Bool.false_eq_true]
  refine ⟨_, rfl, ?_⟩
  have e : -Real.pi + 2 * Real.pi * 2 / (3 - 1) = Real.pi := by ring
  have e1 : -Real.pi + 2 * Real.pi / (3 - 1) = 0 := by ring
  simp [List.range_succ, window.value, window.cosine, e, e1]
  norm_num

end Verif.Props
