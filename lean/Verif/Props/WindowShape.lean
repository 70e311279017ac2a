import Verif.Props.Window
import Mathlib.Analysis.SpecialFunctions.Complex.Circle
import Mathlib.RingTheory.RootsOfUnity.Complex

/- Property C96: the shape of the windows. -/

namespace Verif.Props

open Finset Spec

/-- The argument of the cosines. -/
theorem window_cos (order n : ℕ) : Real.cos (-Real.pi + 2 * Real.pi * n / (((order + 1 : ℕ) : ℝ) - 1)) = -Real.cos (2 * Real.pi * n / order) := by
  push_cast
  rw [add_sub_cancel_right, show -Real.pi + 2 * Real.pi * (n : ℝ) / order = 2 * Real.pi * n / order - Real.pi by ring, Real.cos_sub_pi]

theorem window_cos_mono (order n m : ℕ) (h : n ≤ m) (hm : 2 * m ≤ order) : -Real.cos (2 * Real.pi * n / order) ≤ -Real.cos (2 * Real.pi * m / order) := by
  rcases Nat.eq_zero_or_pos order with rfl | ho
  · simp
  have ho' : (0 : ℝ) < order := by exact_mod_cast ho
  have h1 : (n : ℝ) ≤ m := by exact_mod_cast h
  have h2 : 2 * (m : ℝ) ≤ order := by exact_mod_cast hm
  apply neg_le_neg
  apply Real.cos_le_cos_of_nonneg_of_le_pi (by positivity)
  · rw [div_le_iff₀ ho']; nlinarith [Real.pi_pos]
  · gcongr

theorem window_value_mono (style : WStyle) (order n m : ℕ) (h : n ≤ m) (hm : 2 * m ≤ order) : window.value style (order + 1) n ≤ window.value style (order + 1) m := by
  unfold window.value
  by_cases h0 : order + 1 = 1
  · simp only [if_pos h0]; exact le_rfl
  simp only [if_neg h0]
  have hc := window_cos_mono order n m h hm
  rw [← window_cos, ← window_cos] at hc
  have l1 := Real.neg_one_le_cos (-Real.pi + 2 * Real.pi * n / (((order + 1 : ℕ) : ℝ) - 1))
  have u1 := Real.cos_le_one (-Real.pi + 2 * Real.pi * m / (((order + 1 : ℕ) : ℝ) - 1))
  cases style
  · simp only [window.cosine_eq]; nlinarith
  · simp only [window.cosine_eq]; nlinarith
  · simp only [window.cosine_eq]; nlinarith
  · simp only [window.kaiser]
    have hp : 0 < window.i0 7 := lt_of_lt_of_le one_pos (window.i0_ge_one 7)
    refine div_le_div_of_nonneg_right (window.i0_mono _ _ (by positivity) ?_) hp.le
    refine mul_le_mul_of_nonneg_left (Real.sqrt_le_sqrt ?_) (by norm_num)
    have ho : (0 : ℝ) < (((order + 1 : ℕ) : ℝ) - 1) / 2 := by
      have : (0 : ℝ) < order := by exact_mod_cast (by omega : 0 < order)
      push_cast; linarith
    have h1 : (n : ℝ) ≤ m := by exact_mod_cast h
    have h2 : (m : ℝ) ≤ (((order + 1 : ℕ) : ℝ) - 1) / 2 := by
      have : 2 * (m : ℝ) ≤ order := by exact_mod_cast hm
      push_cast; linarith
    generalize (((order + 1 : ℕ) : ℝ) - 1) / 2 = a at ho h2
    rw [div_pow, div_pow]
    have : (m - a) ^ 2 ≤ (n - a) ^ 2 := by nlinarith
    have := div_le_div_of_nonneg_right this (sq_nonneg a)
    linarith

/-- The coefficients are the raw ones times a factor. -/
theorem window_coeffs (style : WStyle) (order : ℕ) (normal : Bool) (w : Window) (h : Window.new (some style) order normal = .ok (some w)) :
    ∃ K : ℝ, 0 ≤ K ∧ (normal = false → K = 1) ∧ (normal = true → K * ∑ n ∈ range (order + 1), window.value style (order + 1) n = order + 1) ∧
      ∀ n ≤ order, at0 w.b n = window.value style (order + 1) n * K := by
  unfold Window.new at h
  simp only [show ¬ ((order : ℤ) < 0) by omega, if_false, show ((order : ℤ) + 1).toNat = order + 1 by omega] at h
  cases normal with
  | false =>
    simp only [Bool.false_eq_true, if_false] at h
    cases h
    exact ⟨1, zero_le_one, fun _ => rfl, fun h => by simp at h, fun n hn => by rw [at0_map_range _ _ _ (by omega), mul_one]⟩
  | true =>
    simp only [if_true] at h
    split at h
    · cases h
    · rename_i ht
      cases h
      rw [raw_abs_sum] at ht ⊢
      refine ⟨((order + 1 : ℕ) : ℝ) / ∑ n ∈ range (order + 1), window.value style (order + 1) n, ?_, fun h => by simp at h, fun _ => ?_, fun n hn => ?_⟩
      · exact div_nonneg (by positivity) (sum_nonneg fun n _ => window.value_nonneg _ _ _)
      · rw [div_mul_cancel₀ _ ht]; push_cast; rfl
      · rw [List.map_map, at0_map_range _ _ _ (by omega)]; rfl

/-- C96: the coefficients rise from the edge to the centre. -/
theorem C96_rises (style : WStyle) (order : ℕ) (normal : Bool) (w : Window) (h : Window.new (some style) order normal = .ok (some w)) (n m : ℕ) (hnm : n ≤ m) (hm : 2 * m ≤ order) :
    at0 w.b n ≤ at0 w.b m := by
  obtain ⟨K, h0, -, -, hv⟩ := window_coeffs style order normal w h
  rw [hv n (by omega), hv m (by omega)]
  exact mul_le_mul_of_nonneg_right (window_value_mono style order n m hnm hm) h0

/-- C96: the raw coefficients: Hann is the squared sine, Hamming the squared sine on a pedestal of 0.08, Blackman the sum of three cosines, Kaiser the Bessel function of order zero of the half ellipse. -/
theorem C96_shape (style : WStyle) (order : ℕ) (ho : 0 < order) (w : Window) (h : Window.new (some style) order false = .ok (some w)) (n : ℕ) (hn : n ≤ order) :
    (style = .hann → at0 w.b n = Real.sin (Real.pi * n / order) ^ 2) ∧ (style = .hamming → at0 w.b n = 0.08 + 0.92 * Real.sin (Real.pi * n / order) ^ 2) ∧
      (style = .blackman → at0 w.b n = 0.42 - 0.5 * Real.cos (2 * Real.pi * n / order) + 0.08 * Real.cos (4 * Real.pi * n / order)) ∧
      (style = .kaiser → ∀ s I J : ℝ, 0 ≤ s → s ^ 2 + (2 * n / order - 1) ^ 2 = 1 → HasSum (fun k : ℕ => ((7 * s / 2) ^ k / (k.factorial : ℝ)) ^ 2) I → HasSum (fun k : ℕ => ((7 / 2 : ℝ) ^ k / (k.factorial : ℝ)) ^ 2) J →
        at0 w.b n = I / J) := by
  obtain ⟨K, -, hK, -, hv⟩ := window_coeffs style order false w h
  have ho' : (0 : ℝ) < order := by exact_mod_cast ho
  rw [hv n hn, hK rfl, mul_one]
  unfold window.value
  rw [if_neg (by omega)]
  have hs : Real.cos (2 * Real.pi * n / order) = 1 - 2 * Real.sin (Real.pi * n / order) ^ 2 := by
    rw [show 2 * Real.pi * (n : ℝ) / order = 2 * (Real.pi * n / order) by ring, Real.cos_two_mul, Real.cos_sq']; ring
  refine ⟨?_, ?_, ?_, ?_⟩
  · rintro rfl
    simp only [window.cosine_eq, window_cos, hs]; ring
  · rintro rfl
    simp only [window.cosine_eq, window_cos, hs]; ring
  · rintro rfl
    simp only [window.cosine_eq, window_cos]
    rw [show 4 * Real.pi * (n : ℝ) / order = 2 * (2 * Real.pi * n / order) by ring, Real.cos_two_mul]; ring
  · rintro rfl s I J hs0 hs1 hI hJ
    simp only [window.kaiser]
    have e : Real.sqrt (1 - (((n : ℝ) - (((order + 1 : ℕ) : ℝ) - 1) / 2) / ((((order + 1 : ℕ) : ℝ) - 1) / 2)) ^ 2) = s := by
      have : 1 - (((n : ℝ) - (((order + 1 : ℕ) : ℝ) - 1) / 2) / ((((order + 1 : ℕ) : ℝ) - 1) / 2)) ^ 2 = s ^ 2 := by
        have e2 : ((n : ℝ) - (((order + 1 : ℕ) : ℝ) - 1) / 2) / ((((order + 1 : ℕ) : ℝ) - 1) / 2) = 2 * n / order - 1 := by
          push_cast
          rw [add_sub_cancel_right, div_eq_iff (by positivity)]
          field_simp
        rw [e2]
        linarith
      rw [this, Real.sqrt_sq hs0]
    rw [e, window.i0, window.i0, hI.tsum_eq, hJ.tsum_eq]

/-- The cosines of a full turn cancel. -/
theorem turn_sum (N j : ℕ) (hN : 0 < N) (hj : ¬ N ∣ j) : ∑ n ∈ range N, Real.cos (2 * Real.pi * j * n / N) = 0 := by
  have hN' : (N : ℂ) ≠ 0 := by exact_mod_cast hN.ne'
  have hp := Complex.isPrimitiveRoot_exp N hN.ne'
  have h1 : Complex.exp (2 * Real.pi * Complex.I / N) ^ j ≠ 1 := fun h => hj ((hp.pow_eq_one_iff_dvd j).mp h)
  have h2 := geom_sum_mul (Complex.exp (2 * Real.pi * Complex.I / N) ^ j) N
  rw [← pow_mul, mul_comm j N, pow_mul, hp.pow_eq_one, one_pow, sub_self] at h2
  have h3 := (mul_eq_zero.mp h2).resolve_right (sub_ne_zero.mpr h1)
  have h4 := congrArg Complex.re h3
  rw [Complex.re_sum, Complex.zero_re] at h4
  rw [← h4]
  refine sum_congr rfl fun n _ => ?_
  rw [← pow_mul, ← Complex.exp_nat_mul, show ((j * n : ℕ) : ℂ) * (2 * Real.pi * Complex.I / N) = ((2 * Real.pi * j * n / N : ℝ) : ℂ) * Complex.I by push_cast; ring, Complex.exp_ofReal_mul_I_re]

theorem cosine_sum (a b c : ℝ) (order : ℕ) (h : 2 ≤ order) (hc : 3 ≤ order ∨ c = 0) : ∑ n ∈ range (order + 1), window.cosine a b c (order + 1) n = a * (order + 1) - b + c := by
  have ho' : (order : ℝ) ≠ 0 := by exact_mod_cast (by omega : order ≠ 0)
  have e : ∀ n, window.cosine a b c (order + 1) n = a - b * Real.cos (2 * Real.pi * (1 : ℕ) * n / order) + c * Real.cos (2 * Real.pi * (2 : ℕ) * n / order) := by
    intro n
    simp only [window.cosine_eq, window_cos]
    rw [show 2 * Real.pi * ((2 : ℕ) : ℝ) * (n : ℝ) / order = 2 * (2 * Real.pi * (1 : ℕ) * n / order) by push_cast; ring, Real.cos_two_mul, Nat.cast_one, mul_one]
    ring
  have h1 := turn_sum order 1 (by omega) (by rw [Nat.dvd_one]; omega)
  have h2 : c * ∑ n ∈ range order, Real.cos (2 * Real.pi * (2 : ℕ) * n / order) = 0 := by
    rcases hc with hc | rfl
    · rw [turn_sum order 2 (by omega) (fun hd => by have := Nat.le_of_dvd (by norm_num) hd; omega), mul_zero]
    · simp
  have l1 : Real.cos (2 * Real.pi * (1 : ℕ) * order / order) = 1 := by
    rw [mul_div_assoc, div_self ho', Nat.cast_one, mul_one, mul_one, Real.cos_two_pi]
  have l2 : Real.cos (2 * Real.pi * (2 : ℕ) * order / order) = 1 := by
    rw [mul_div_assoc, div_self ho', mul_one, mul_comm]
    exact Real.cos_nat_mul_two_pi 2
  simp only [e]
  rw [sum_add_distrib, sum_sub_distrib, sum_const, card_range, nsmul_eq_mul, ← mul_sum, ← mul_sum, sum_range_succ, sum_range_succ (fun n : ℕ => Real.cos (2 * Real.pi * (2 : ℕ) * n / order)), h1, l1, l2]
  push_cast at h2 ⊢
  linear_combination h2

theorem window_sum (style : WStyle) (order : ℕ) : (style = .hann → 2 ≤ order → ∑ n ∈ range (order + 1), window.value style (order + 1) n = order / 2) ∧
    (style = .hamming → 2 ≤ order → ∑ n ∈ range (order + 1), window.value style (order + 1) n = 0.54 * order + 0.08) ∧
      (style = .blackman → 3 ≤ order → ∑ n ∈ range (order + 1), window.value style (order + 1) n = 0.42 * order) := by
  refine ⟨?_, ?_, ?_⟩
  · rintro rfl ho
    simp only [window.value, if_neg (by omega : ¬ order + 1 = 1)]
    rw [cosine_sum _ _ _ _ ho (.inr rfl)]; ring
  · rintro rfl ho
    simp only [window.value, if_neg (by omega : ¬ order + 1 = 1)]
    rw [cosine_sum _ _ _ _ ho (.inr rfl)]; ring
  · rintro rfl ho
    simp only [window.value, if_neg (by omega : ¬ order + 1 = 1)]
    rw [cosine_sum _ _ _ _ (by omega) (.inl ho)]; ring

/-- C96: the sum of the raw coefficients. -/
theorem C96_sum (style : WStyle) (order : ℕ) (w : Window) (h : Window.new (some style) order false = .ok (some w)) :
    (style = .hann → 2 ≤ order → ∑ n ∈ range (order + 1), at0 w.b n = order / 2) ∧ (style = .hamming → 2 ≤ order → ∑ n ∈ range (order + 1), at0 w.b n = 0.54 * order + 0.08) ∧
      (style = .blackman → 3 ≤ order → ∑ n ∈ range (order + 1), at0 w.b n = 0.42 * order) := by
  obtain ⟨K, -, hK, -, hv⟩ := window_coeffs style order false w h
  rw [sum_congr rfl fun n hn => by rw [hv n (by have := mem_range.mp hn; omega), hK rfl, mul_one]]
  exact window_sum style order

/-- Every window of nine samples exists. -/
example (style : WStyle) : ∃ w, Window.new (some style) (8 : ℕ) false = .ok (some w) := ⟨_, rfl⟩

/-- C96: the coefficients with normalisation: the raw ones times `2 (order + 1) / order` for Hann, and so on. -/
theorem C96_normal (style : WStyle) (order : ℕ) (u w : Window) (hu : Window.new (some style) order false = .ok (some u)) (hw : Window.new (some style) order true = .ok (some w)) (n : ℕ) (hn : n ≤ order) :
    (style = .hann → 2 ≤ order → at0 w.b n = at0 u.b n * (2 * (order + 1) / order)) ∧ (style = .hamming → 2 ≤ order → at0 w.b n = at0 u.b n * ((order + 1) / (0.54 * order + 0.08))) ∧
      (style = .blackman → 3 ≤ order → at0 w.b n = at0 u.b n * ((order + 1) / (0.42 * order))) := by
  obtain ⟨K, -, hK, -, hv⟩ := window_coeffs style order false u hu
  obtain ⟨L, -, -, hL, hv'⟩ := window_coeffs style order true w hw
  have hL := hL rfl
  obtain ⟨s1, s2, s3⟩ := window_sum style order
  rw [hv n hn, hv' n hn, hK rfl, mul_one]
  refine ⟨fun h ho => ?_, fun h ho => ?_, fun h ho => ?_⟩
  · have ho' : (0 : ℝ) < order := by exact_mod_cast (by omega : 0 < order)
    rw [s1 h ho] at hL
    congr 1
    field_simp
    linarith
  · have ho' : (0 : ℝ) < order := by exact_mod_cast (by omega : 0 < order)
    rw [s2 h ho] at hL
    congr 1
    rw [eq_div_iff (by positivity)]
    exact hL
  · have ho' : (0 : ℝ) < order := by exact_mod_cast (by omega : 0 < order)
    rw [s3 h ho] at hL
    congr 1
    rw [eq_div_iff (by positivity)]
    exact hL

/-- Hann of order 4, raw and normalised. -/
example : ∃ u w, Window.new (some .hann) (4 : ℕ) false = .ok (some u) ∧ Window.new (some .hann) (4 : ℕ) true = .ok (some w) ∧ at0 u.b 2 = 1 ∧ at0 w.b 2 = 5 / 2 ∧ at0 w.b 0 ≤ at0 w.b 1 := by
  obtain ⟨w, hw, -⟩ := C39_window_normal .hann 4 (by simp)
  obtain ⟨u, hu, -⟩ := C39_window_raw .hann 4
  have e := (C96_shape .hann 4 (by norm_num) u hu 2 (by norm_num)).1 rfl
  rw [show Real.pi * ((2 : ℕ) : ℝ) / ((4 : ℕ) : ℝ) = Real.pi / 2 by push_cast; ring, Real.sin_pi_div_two, one_pow] at e
  refine ⟨u, w, hu, hw, e, ?_, C96_rises .hann 4 true w hw 0 1 (by norm_num) (by norm_num)⟩
  rw [(C96_normal .hann 4 u w hu hw 2 (by norm_num)).1 rfl (by norm_num), e]
  norm_num

end Verif.Props
