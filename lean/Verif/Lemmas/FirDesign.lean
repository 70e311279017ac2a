import Verif.Model.FirDesign
import Verif.Lemmas.Window
import Verif.Lemmas.Search
import Mathlib.Analysis.Calculus.LocalExtr.Basic
import Mathlib.Analysis.SpecialFunctions.Trigonometric.Deriv
import Mathlib.Algebra.BigOperators.Intervals
import Mathlib.Algebra.Order.BigOperators.Group.Finset

namespace Verif

open Finset

/-- Summation by parts against a decreasing weight. -/
theorem abel_nonneg (u a : ℕ → ℝ) (n : ℕ) (hu : ∀ k < n, u (k + 1) ≤ u k) (hpart : ∀ k ≤ n, 0 ≤ ∑ i ∈ range (k + 1), a i) :
    u n * ∑ i ∈ range (n + 1), a i ≤ ∑ k ∈ range (n + 1), u k * a k := by
  induction n with
  | zero => simp
  | succ n ih =>
    have h1 := ih (fun k hk => hu k (by omega)) (fun k hk => hpart k (by omega))
    rw [sum_range_succ _ (n + 1), sum_range_succ (fun k => u k * a k) (n + 1)]
    have h2 := mul_le_mul_of_nonneg_right (hu n (by omega)) (hpart n (by omega))
    linarith [mul_add (u (n + 1)) (∑ i ∈ range (n + 1), a i) (a (n + 1))]

/-- `2 sin(x/2) ∑_{k=1}^n cos kx = sin((n+1/2)x) - sin(x/2)`. -/
theorem dirichlet (n : ℕ) (x : ℝ) :
    2 * Real.sin (x / 2) * ∑ k ∈ range n, Real.cos ((k + 1 : ℝ) * x) = Real.sin ((n : ℝ) * x + x / 2) - Real.sin (x / 2) := by
  induction n with
  | zero => simp
  | succ n ih =>
    rw [sum_range_succ, mul_add, ih]
    push_cast
    have h1 : Real.sin (((n : ℝ) + 1) * x + x / 2) = Real.sin (((n : ℝ) + 1) * x) * Real.cos (x / 2) + Real.cos (((n : ℝ) + 1) * x) * Real.sin (x / 2) :=
      Real.sin_add _ _
    have h2 : Real.sin ((n : ℝ) * x + x / 2) = Real.sin (((n : ℝ) + 1) * x) * Real.cos (x / 2) - Real.cos (((n : ℝ) + 1) * x) * Real.sin (x / 2) := by
      rw [← Real.sin_sub]; congr 1; ring
    rw [h1, h2]; ring

/-- Fejér and Jackson: the partial sums of `∑ sin(kx)/k` are not negative on `[0, π]`. -/
theorem fejer_jackson (n : ℕ) : ∀ x : ℝ, 0 ≤ x → x ≤ Real.pi → 0 ≤ ∑ k ∈ range n, Real.sin ((k + 1 : ℝ) * x) / (k + 1) := by
  induction n with
  | zero => intro x _ _; simp
  | succ n ih =>
    set S : ℝ → ℝ := fun x => ∑ k ∈ range (n + 1), Real.sin ((k + 1 : ℝ) * x) / (k + 1) with hS
    have hderiv : ∀ x, HasDerivAt S (∑ k ∈ range (n + 1), Real.cos ((k + 1 : ℝ) * x)) x := by
      intro x
      apply HasDerivAt.fun_sum
      intro k _
      have hk : (k + 1 : ℝ) ≠ 0 := by positivity
      have h1 : HasDerivAt (fun y : ℝ => (k + 1 : ℝ) * y) (k + 1 : ℝ) x := by
        simpa using (hasDerivAt_id x).const_mul (k + 1 : ℝ)
      have h2 := (h1.sin).div_const (k + 1 : ℝ)
      rwa [mul_div_assoc, div_self hk, mul_one] at h2
    have hcont : ContinuousOn S (Set.Icc 0 Real.pi) := fun x _ => (hderiv x).continuousAt.continuousWithinAt
    obtain ⟨m, hm, hmin⟩ := isCompact_Icc.exists_isMinOn (Set.nonempty_Icc.mpr Real.pi_pos.le) hcont
    have key : 0 ≤ S m := by
      rcases eq_or_lt_of_le hm.1 with h0 | h0
      · rw [← h0]; simp [S]
      rcases eq_or_lt_of_le hm.2 with h1 | h1
      · rw [h1]
        have : ∀ k : ℕ, Real.sin ((k + 1 : ℝ) * Real.pi) = 0 := fun k => by
          have := Real.sin_nat_mul_pi (k + 1); push_cast at this; exact this
        simp [S, this]
      have hloc : IsLocalMin S m := by
        filter_upwards [Icc_mem_nhds h0 h1] with y hy using hmin hy
      have hz := hloc.hasDerivAt_eq_zero (hderiv m)
      have hd := dirichlet (n + 1) m
      rw [hz, mul_zero] at hd
      push_cast at hd
      have hsin : Real.sin (((n : ℝ) + 1) * m + m / 2) = Real.sin (m / 2) := by linarith
      have hs0 : 0 < Real.sin (m / 2) := Real.sin_pos_of_pos_of_lt_pi (by linarith) (by linarith)
      have hc0 : 0 < Real.cos (m / 2) := Real.cos_pos_of_mem_Ioo ⟨by linarith, by linarith⟩
      have hsq : Real.cos (((n : ℝ) + 1) * m + m / 2) ^ 2 = Real.cos (m / 2) ^ 2 := by
        rw [Real.cos_sq', Real.cos_sq', hsin]
      have hn : 0 ≤ Real.sin (((n : ℝ) + 1) * m) := by
        have e : Real.sin (((n : ℝ) + 1) * m) = Real.sin (((n : ℝ) + 1) * m + m / 2) * Real.cos (m / 2) - Real.cos (((n : ℝ) + 1) * m + m / 2) * Real.sin (m / 2) := by
          rw [← Real.sin_sub]; congr 1; ring
        rw [e, hsin]
        rcases sq_eq_sq_iff_eq_or_eq_neg.mp hsq with h | h
        · rw [h]; nlinarith
        · rw [h]; nlinarith
      simp only [S]
      rw [sum_range_succ]
      have := ih m hm.1 hm.2
      have : 0 ≤ Real.sin (((n : ℝ) + 1) * m) / (n + 1) := by positivity
      linarith
    intro x h0 h1
    exact key.trans (hmin ⟨h0, h1⟩)

/-- The partial sums of `∑ sin((2k+1)x)` are not negative where `sin x` is positive. -/
theorem odd_sines (n : ℕ) (x : ℝ) (hx : 0 < Real.sin x) : 0 ≤ ∑ k ∈ range n, Real.sin ((2 * k + 1 : ℝ) * x) := by
  have h : Real.sin x * ∑ k ∈ range n, Real.sin ((2 * k + 1 : ℝ) * x) = Real.sin (n * x) ^ 2 := by
    induction n with
    | zero => simp
    | succ n ih =>
      rw [sum_range_succ, mul_add, ih]
      push_cast
      have e1 : Real.sin ((2 * (n : ℝ) + 1) * x) = Real.sin ((n : ℝ) * x) * Real.cos (((n : ℝ) + 1) * x) + Real.cos ((n : ℝ) * x) * Real.sin (((n : ℝ) + 1) * x) := by
        rw [← Real.sin_add]; congr 1; ring
      have e2 : Real.sin x = Real.sin (((n : ℝ) + 1) * x) * Real.cos ((n : ℝ) * x) - Real.cos (((n : ℝ) + 1) * x) * Real.sin ((n : ℝ) * x) := by
        rw [← Real.sin_sub]; congr 1; ring
      rw [e1]
      rw [e2]
      have a := Real.sin_sq_add_cos_sq ((n : ℝ) * x)
      have b := Real.sin_sq_add_cos_sq (((n : ℝ) + 1) * x)
      generalize Real.sin ((n : ℝ) * x) = s at *
      generalize Real.cos ((n : ℝ) * x) = c at *
      generalize Real.sin (((n : ℝ) + 1) * x) = s' at *
      generalize Real.cos (((n : ℝ) + 1) * x) = c' at *
      have hc : c ^ 2 = 1 - s ^ 2 := by linarith
      have hc' : c' ^ 2 = 1 - s' ^ 2 := by linarith
      have : (s' * c - c' * s) * (s * c' + c * s') = s' ^ 2 * c ^ 2 - c' ^ 2 * s ^ 2 := by ring
      rw [this, hc, hc']; ring
  by_contra hn
  push Not at hn
  nlinarith [sq_nonneg (Real.sin (n * x)), mul_neg_of_pos_of_neg hx hn]

/-- From its centre on, a window decreases. -/
theorem window.value_antitone (style : WStyle) (order n : ℕ) (ho : 0 < order) (h1 : order ≤ 2 * n) (h2 : n + 1 ≤ order) :
    window.value style (order + 1) (n + 1) ≤ window.value style (order + 1) n := by
  have hor : (0 : ℝ) < order := by exact_mod_cast ho
  have h1r : (order : ℝ) ≤ 2 * n := by exact_mod_cast h1
  have h2r : (n : ℝ) + 1 ≤ order := by exact_mod_cast h2
  have hpi := Real.pi_pos
  have hc : Real.cos (-Real.pi + 2 * Real.pi * ((n + 1 : ℕ) : ℝ) / (((order + 1 : ℕ) : ℝ) - 1)) ≤
      Real.cos (-Real.pi + 2 * Real.pi * (n : ℝ) / (((order + 1 : ℕ) : ℝ) - 1)) := by
    push_cast
    rw [add_sub_cancel_right]
    apply Real.cos_le_cos_of_nonneg_of_le_pi
    · have : Real.pi ≤ 2 * Real.pi * n / order := by rw [le_div_iff₀ hor]; nlinarith
      linarith
    · have : 2 * Real.pi * (n + 1) / order ≤ 2 * Real.pi := by rw [div_le_iff₀ hor]; nlinarith
      linarith
    · have : 2 * Real.pi * n / order ≤ 2 * Real.pi * (n + 1) / order := by
        apply div_le_div_of_nonneg_right _ hor.le
        nlinarith
      linarith
  have b1 := Real.neg_one_le_cos (-Real.pi + 2 * Real.pi * ((n + 1 : ℕ) : ℝ) / (((order + 1 : ℕ) : ℝ) - 1))
  have b2 := Real.neg_one_le_cos (-Real.pi + 2 * Real.pi * (n : ℝ) / (((order + 1 : ℕ) : ℝ) - 1))
  unfold window.value
  rw [if_neg (by omega), if_neg (by omega)]
  cases style
  · simp only [window.cosine_eq]
    generalize Real.cos (-Real.pi + 2 * Real.pi * ((n + 1 : ℕ) : ℝ) / (((order + 1 : ℕ) : ℝ) - 1)) = x at *
    generalize Real.cos (-Real.pi + 2 * Real.pi * (n : ℝ) / (((order + 1 : ℕ) : ℝ) - 1)) = y at *
    nlinarith [mul_nonneg (sub_nonneg.mpr hc) (by linarith : 0 ≤ 2 + x + y)]
  · simp only [window.cosine_eq]; linarith
  · simp only [window.cosine_eq]; linarith
  · simp only [window.kaiser]
    apply div_le_div_of_nonneg_right _ (by linarith [window.i0_ge_one 7])
    apply window.i0_mono
    · positivity
    · apply mul_le_mul_of_nonneg_left _ (by norm_num)
      apply Real.sqrt_le_sqrt
      push_cast
      have e : ((order : ℝ) + 1 - 1) / 2 = order / 2 := by ring
      rw [e]
      have : (((n : ℝ) - order / 2) / (order / 2)) ^ 2 ≤ (((n : ℝ) + 1 - order / 2) / (order / 2)) ^ 2 := by
        apply pow_le_pow_left₀
        · apply div_nonneg <;> linarith
        · apply div_le_div_of_nonneg_right _ (by linarith)
          linarith
      linarith

/-- The ideal response times the window at `n`. -/
noncomputable def fir.tap (style : WStyle) (order : ℕ) (c : ℝ) (n : ℕ) : ℝ :=
  c * np.sinc (c * ((n : ℝ) - (order : ℝ) / 2)) * window.value style (order + 1) n

theorem np.sinc_neg (x : ℝ) : np.sinc (-x) = np.sinc x := by
  unfold np.sinc
  by_cases h : x = 0
  · simp [h]
  · rw [if_neg (by simpa using h), if_neg h, mul_neg, Real.sin_neg, neg_div_neg_eq]

theorem fir.tap_symm (style : WStyle) (order : ℕ) (c : ℝ) (n : ℕ) (hn : n ≤ order) : fir.tap style order c (order - n) = fir.tap style order c n := by
  unfold fir.tap
  rw [window.value_symm style order n hn, Nat.cast_sub hn, show c * ((order : ℝ) - n - order / 2) = -(c * ((n : ℝ) - order / 2)) by ring, np.sinc_neg]

theorem fir.tap_eq (style : WStyle) (order : ℕ) (c : ℝ) (hc : c ≠ 0) (n : ℕ) (h : (n : ℝ) - order / 2 ≠ 0) :
    fir.tap style order c n = Real.sin (((n : ℝ) - order / 2) * (Real.pi * c)) / (Real.pi * ((n : ℝ) - order / 2)) * window.value style (order + 1) n := by
  unfold fir.tap np.sinc
  rw [if_neg (mul_ne_zero hc h), show Real.pi * (c * ((n : ℝ) - order / 2)) = ((n : ℝ) - order / 2) * (Real.pi * c) by ring]
  have := Real.pi_ne_zero
  congr 1
  field_simp

theorem fir.ideal_sum (style : WStyle) (order : ℕ) (c : ℝ) : (fir.ideal style order c).sum = ∑ n ∈ range (order + 1), fir.tap style order c n := by
  unfold fir.ideal fir.tap
  rw [list_range_sum]

/-- The coefficients of a window design sum to a positive number, unless the window is zero everywhere. -/
theorem fir.ideal_sum_pos (style : WStyle) (order : ℕ) (ho : 0 < order) (h : ¬ ((style = .blackman ∨ style = .hann) ∧ order = 1))
    (c : ℝ) (hc : 0 < c) (hc1 : c < 1) : 0 < (fir.ideal style order c).sum := by
  have hpi := Real.pi_pos
  have hθ : 0 < Real.pi * c := mul_pos hpi hc
  have hθ1 : Real.pi * c < Real.pi := by nlinarith
  rw [fir.ideal_sum]
  -- the centre coefficient is positive
  have hmono : ∀ n k, order ≤ 2 * n → n + k ≤ order → window.value style (order + 1) (n + k) ≤ window.value style (order + 1) n := by
    intro n k hn
    induction k with
    | zero => intro _; exact le_rfl
    | succ k ih =>
      intro hk
      exact (window.value_antitone style order (n + k) ho (by omega) (by omega)).trans (ih (by omega))
  have hmid : ∀ n, order ≤ 2 * n → 2 * n ≤ order + 1 → 0 < window.value style (order + 1) n := by
    intro n hn hn'
    obtain ⟨m, hm, hp⟩ := window.value_pos style order h
    by_cases hm' : n ≤ m
    · have := hmono n (m - n) hn (by omega)
      rw [show n + (m - n) = m by omega] at this
      linarith
    · have hs := window.value_symm style order m (by omega)
      have := hmono n (order - m - n) hn (by omega)
      rw [show n + (order - m - n) = order - m by omega, hs] at this
      linarith
  obtain ⟨K, hK | hK⟩ := order.even_or_odd'
  · -- even order
    have hKr : (order : ℝ) / 2 = K := by rw [hK]; push_cast; ring
    rw [show order + 1 = K + (K + 1) by omega, sum_range_add, ← sum_range_reflect, sum_range_succ' _ K]
    have hsym : ∑ j ∈ range K, fir.tap style order c (K - 1 - j) = ∑ j ∈ range K, fir.tap style order c (K + (j + 1)) := by
      apply sum_congr rfl
      intro j hj
      have hj := mem_range.mp hj
      rw [← fir.tap_symm style order c (K - 1 - j) (by omega)]
      congr 1
      omega
    rw [hsym]
    have hcentre : 0 < fir.tap style order c (K + 0) := by
      unfold fir.tap
      rw [hKr, add_zero, sub_self, mul_zero]
      have : np.sinc 0 = 1 := by simp [np.sinc]
      rw [this, mul_one]
      exact mul_pos hc (hmid K (by omega) (by omega))
    have hrest : 0 ≤ ∑ j ∈ range K, fir.tap style order c (K + (j + 1)) := by
      obtain ⟨L, rfl⟩ : ∃ L, K = L + 1 := ⟨K - 1, by omega⟩
      have e : ∀ j ∈ range (L + 1), fir.tap style order c (L + 1 + (j + 1)) =
          (window.value style (order + 1) (L + 1 + (j + 1)) / Real.pi) * (Real.sin ((j + 1 : ℝ) * (Real.pi * c)) / (j + 1)) := by
        intro j _
        have hne : (((L + 1 + (j + 1) : ℕ)) : ℝ) - order / 2 = (j : ℝ) + 1 := by rw [hKr]; push_cast; ring
        rw [fir.tap_eq _ _ _ hc.ne' _ (by rw [hne]; positivity), hne]
        have : (j : ℝ) + 1 ≠ 0 := by positivity
        field_simp
      rw [sum_congr rfl e]
      refine le_trans ?_ (abel_nonneg (fun j => window.value style (order + 1) (L + 1 + (j + 1)) / Real.pi) _ L ?_ ?_)
      · apply mul_nonneg
        · exact div_nonneg (window.value_nonneg _ _ _) hpi.le
        · exact fejer_jackson (L + 1) _ hθ.le hθ1.le
      · intro k hk
        apply div_le_div_of_nonneg_right _ hpi.le
        exact window.value_antitone style order (L + 1 + (k + 1)) ho (by omega) (by omega)
      · intro k hk
        exact fejer_jackson (k + 1) _ hθ.le hθ1.le
    linarith
  · -- odd order
    have hKr : (order : ℝ) / 2 = K + 1 / 2 := by rw [hK]; push_cast; ring
    rw [show order + 1 = (K + 1) + (K + 1) by omega, sum_range_add, ← sum_range_reflect]
    have hsym : ∑ j ∈ range (K + 1), fir.tap style order c (K + 1 - 1 - j) = ∑ j ∈ range (K + 1), fir.tap style order c (K + 1 + j) := by
      apply sum_congr rfl
      intro j hj
      have hj := mem_range.mp hj
      rw [← fir.tap_symm style order c (K + 1 - 1 - j) (by omega)]
      congr 1
      omega
    rw [hsym]
    have hs0 : 0 < Real.sin (Real.pi * c / 2) := Real.sin_pos_of_pos_of_lt_pi (by linarith) (by linarith)
    have hrest : 0 < ∑ j ∈ range (K + 1), fir.tap style order c (K + 1 + j) := by
      let v : ℕ → ℝ := fun j => window.value style (order + 1) (K + 1 + j)
      let u : ℕ → ℝ := fun j => if j = 0 then v 0 / (Real.pi * (3 / 2)) else v j / (Real.pi * (j + 1 / 2))
      have e : ∀ j ∈ range (K + 1), fir.tap style order c (K + 1 + j) =
          u j * Real.sin ((2 * j + 1 : ℝ) * (Real.pi * c / 2)) +
            (if j = 0 then v 0 * (4 / (3 * Real.pi)) * Real.sin (Real.pi * c / 2) else 0) := by
        intro j _
        have hne : (((K + 1 + j : ℕ)) : ℝ) - order / 2 = (j : ℝ) + 1 / 2 := by rw [hKr]; push_cast; ring
        rw [fir.tap_eq _ _ _ hc.ne' _ (by rw [hne]; positivity), hne,
          show ((j : ℝ) + 1 / 2) * (Real.pi * c) = (2 * j + 1 : ℝ) * (Real.pi * c / 2) by ring]
        have : (j : ℝ) + 1 / 2 ≠ 0 := by positivity
        by_cases hj : j = 0
        · subst hj
          simp only [u, v, if_true]
          simp only [Nat.cast_zero, mul_zero, zero_add, one_mul]
          field_simp
          ring
        · simp only [u, v, hj, if_false]
          rw [add_zero]
          field_simp
      rw [sum_congr rfl e, sum_add_distrib, sum_ite_eq' (range (K + 1)) 0]
      rw [if_pos (by simp)]
      have hv0 : 0 < v 0 := hmid (K + 1 + 0) (by omega) (by omega)
      have hvm : ∀ k < K, v (k + 1) ≤ v k := fun k hk => window.value_antitone style order (K + 1 + k) ho (by omega) (by omega)
      have hvn : ∀ k, 0 ≤ v k := fun k => window.value_nonneg _ _ _
      have hun : ∀ k, 0 ≤ u k := by
        intro k
        simp only [u]
        split
        · exact div_nonneg (hvn 0) (by positivity)
        · exact div_nonneg (hvn k) (by positivity)
      have habel := abel_nonneg u (fun j : ℕ => Real.sin ((2 * j + 1 : ℝ) * (Real.pi * c / 2))) K (by
          intro k hk
          simp only [u, Nat.succ_ne_zero, if_false]
          by_cases hk0 : k = 0
          · subst hk0
            simp only [if_true, Nat.cast_zero, zero_add, Nat.cast_one]
            rw [show (1 : ℝ) + 1 / 2 = 3 / 2 by norm_num]
            exact div_le_div_of_nonneg_right (hvm 0 hk) (by positivity)
          · simp only [hk0, if_false]
            push_cast
            apply div_le_div₀ (hvn k) (hvm k hk) (by positivity)
            nlinarith)
        (fun k _ => odd_sines (k + 1) _ hs0)
      have h0 : 0 ≤ u K * ∑ i ∈ range (K + 1), Real.sin ((2 * (i : ℕ) + 1 : ℝ) * (Real.pi * c / 2)) := mul_nonneg (hun K) (odd_sines (K + 1) _ hs0)
      have : 0 < v 0 * (4 / (3 * Real.pi)) * Real.sin (Real.pi * c / 2) := by positivity
      linarith
    linarith

end Verif
