import Verif.Lemmas.FirDesign
import Mathlib.Analysis.Convex.Deriv
import Mathlib.Analysis.Real.Pi.Leibniz
import Mathlib.Analysis.Real.Pi.Bounds
import Mathlib.Analysis.SpecialFunctions.Trigonometric.Bounds
import Mathlib.Analysis.SpecificLimits.Normed

/- Trigonometric sums behind the bank of the polyphase filter (C37). -/

namespace Verif

open Finset

/-- Summation by parts, twice. -/
theorem abel_twice (a c : ℕ → ℝ) (h0 : c 0 = 0) (h1 : c 1 = 0) (n : ℕ) :
    ∑ k ∈ range n, a (k + 1) * (c (k + 2) - 2 * c (k + 1) + c k) =
      ∑ k ∈ range n, (a (k + 1) - 2 * a (k + 2) + a (k + 3)) * c (k + 2) + (2 * a (n + 1) - a (n + 2)) * c (n + 1) - a (n + 1) * c n := by
  induction n with
  | zero => simp [h0, h1]
  | succ n ih =>
    rw [sum_range_succ, sum_range_succ, ih]
    ring

theorem sin_mul_le (φ : ℝ) (h : 0 ≤ Real.sin φ) (k : ℕ) : |Real.sin (k * φ)| ≤ k * Real.sin φ := by
  induction k with
  | zero => simp
  | succ k ih =>
    push_cast
    rw [add_mul, one_mul, Real.sin_add]
    calc _ ≤ |Real.sin (k * φ) * Real.cos φ| + |Real.cos (k * φ) * Real.sin φ| := abs_add_le _ _
      _ ≤ |Real.sin (k * φ)| * 1 + 1 * Real.sin φ := by
          rw [abs_mul, abs_mul, abs_of_nonneg h]
          gcongr
          · exact Real.abs_cos_le_one _
          · exact Real.abs_cos_le_one _
      _ ≤ _ := by linarith

/-- The sine sums of convex sequences that end in zeros are not negative. -/
theorem convex_sines (a : ℕ → ℝ) (n : ℕ) (hz : ∀ k, n < k → a k = 0) (hc : ∀ k, 0 ≤ a (k + 1) - 2 * a (k + 2) + a (k + 3)) (φ : ℝ)
    (hφ : 0 ≤ φ) (hφ' : φ ≤ Real.pi) : 0 ≤ ∑ k ∈ range n, a (k + 1) * Real.sin ((k + 1 : ℕ) * φ) := by
  rcases eq_or_lt_of_le hφ with h0 | h0
  · simp [← h0]
  have hs : 0 ≤ Real.sin φ := Real.sin_nonneg_of_nonneg_of_le_pi hφ hφ'
  have hcos : Real.cos φ < 1 := by
    have := Real.cos_lt_cos_of_nonneg_of_le_pi le_rfl hφ' h0
    rwa [Real.cos_zero] at this
  let c : ℕ → ℝ := fun k => k * Real.sin φ - Real.sin (k * φ)
  have hcc : ∀ k, 0 ≤ c k := fun k => by
    have := (abs_le.mp (sin_mul_le φ hs k)).2
    simp only [c]; linarith
  have key := abel_twice a c (by simp [c]) (by simp [c]) n
  rw [hz (n + 1) (by omega), hz (n + 2) (by omega)] at key
  have hstep : ∀ k, c (k + 2) - 2 * c (k + 1) + c k = 2 * (1 - Real.cos φ) * Real.sin ((k + 1 : ℕ) * φ) := by
    intro k
    simp only [c]
    have e1 : ((k + 2 : ℕ) : ℝ) * φ = ((k + 1 : ℕ) : ℝ) * φ + φ := by push_cast; ring
    have e2 : (k : ℝ) * φ = ((k + 1 : ℕ) : ℝ) * φ - φ := by push_cast; ring
    rw [e1, e2, Real.sin_add, Real.sin_sub]
    push_cast; ring
  have hpos : 0 ≤ ∑ k ∈ range n, a (k + 1) * (c (k + 2) - 2 * c (k + 1) + c k) := by
    rw [key]
    have : 0 ≤ ∑ k ∈ range n, (a (k + 1) - 2 * a (k + 2) + a (k + 3)) * c (k + 2) := sum_nonneg fun k _ => mul_nonneg (hc k) (hcc _)
    linarith
  have e : ∑ k ∈ range n, a (k + 1) * (c (k + 2) - 2 * c (k + 1) + c k) = 2 * (1 - Real.cos φ) * ∑ k ∈ range n, a (k + 1) * Real.sin ((k + 1 : ℕ) * φ) := by
    rw [mul_sum]
    apply sum_congr rfl
    intro k _
    rw [hstep]; ring
  rw [e] at hpos
  exact nonneg_of_mul_nonneg_right hpos (by linarith)

/-- A raised cosine divided by its argument. -/
noncomputable def bell (y : ℝ) : ℝ := (1 + Real.cos y) / y

theorem bell_convex : ConvexOn ℝ (Set.Ioc 0 Real.pi) bell := by
  have hint : interior (Set.Ioc 0 Real.pi) = Set.Ioo 0 Real.pi := interior_Ioc
  refine convexOn_of_hasDerivWithinAt2_nonneg (f' := fun y => -Real.sin y / y - (1 + Real.cos y) / y ^ 2)
    (f'' := fun y => (2 * (1 + Real.cos y) + 2 * y * Real.sin y - y ^ 2 * Real.cos y) / y ^ 3) (convex_Ioc _ _) ?_ ?_ ?_ ?_
  · apply ContinuousOn.div (by fun_prop) continuousOn_id
    intro x hx
    exact hx.1.ne'
  · intro x hx
    rw [hint] at hx
    have hx0 := hx.1.ne'
    apply HasDerivAt.hasDerivWithinAt
    have := ((Real.hasDerivAt_cos x).const_add 1).div (hasDerivAt_id x) hx0
    refine this.congr_deriv ?_
    simp only [id]
    field_simp
  · intro x hx
    rw [hint] at hx
    have hx0 := hx.1.ne'
    apply HasDerivAt.hasDerivWithinAt
    have h1 := ((Real.hasDerivAt_sin x).neg).div (hasDerivAt_id x) hx0
    have h2 := ((Real.hasDerivAt_cos x).const_add 1).div ((hasDerivAt_id x).pow 2) (pow_ne_zero 2 hx0)
    refine (h1.sub h2).congr_deriv ?_
    simp only [id, Pi.neg_apply]
    field_simp
    simp
    ring
  · intro x hx
    rw [hint] at hx
    have hs := Real.sin_pos_of_pos_of_lt_pi hx.1 hx.2
    apply div_nonneg _ (pow_nonneg hx.1.le 3)
    have hc1 := Real.neg_one_le_cos x
    have hsx := hx.1
    rcases le_or_gt (Real.cos x) 0 with h | h
    · have : 0 ≤ -(x ^ 2 * Real.cos x) := by nlinarith [sq_nonneg x]
      have : 0 ≤ 2 * x * Real.sin x := by positivity
      linarith
    · -- x < π/2, where x cos x ≤ sin x
      have hlt : x < Real.pi / 2 := by
        by_contra hh
        have := Real.cos_nonpos_of_pi_div_two_le_of_le (not_lt.mp hh) (by linarith [Real.pi_pos, hx.2])
        linarith
      have ht : x * Real.cos x ≤ Real.sin x := by
        have := Real.lt_tan hsx hlt
        rw [Real.tan_eq_sin_div_cos, lt_div_iff₀ h] at this
        exact this.le
      have : x ^ 2 * Real.cos x ≤ x * Real.sin x := by nlinarith
      have : 0 ≤ x * Real.sin x := by positivity
      nlinarith

/-- The same, zero beyond π. -/
noncomputable def bell0 (y : ℝ) : ℝ := open scoped Classical in if y ≤ Real.pi then bell y else 0

theorem bell0_nonneg (y : ℝ) (hy : 0 < y) : 0 ≤ bell0 y := by
  unfold bell0 bell
  split
  · exact div_nonneg (by linarith [Real.neg_one_le_cos y]) hy.le
  · exact le_rfl

theorem bell_pi : bell Real.pi = 0 := by simp [bell]

theorem bell0_antitone (y z : ℝ) (hy : 0 < y) (h : y ≤ z) : bell0 z ≤ bell0 y := by
  by_cases hz : z ≤ Real.pi
  · unfold bell0 bell
    rw [if_pos hz, if_pos (h.trans hz)]
    apply div_le_div₀ (by linarith [Real.neg_one_le_cos y]) _ hy h
    have := Real.cos_le_cos_of_nonneg_of_le_pi hy.le hz h
    linarith
  · rw [show bell0 z = 0 by unfold bell0; rw [if_neg hz]]
    exact bell0_nonneg y hy

theorem bell0_strict (y z : ℝ) (hy : 0 < y) (h : y < z) (hyp : y < Real.pi) : bell0 z < bell0 y := by
  have hp : 0 < bell y := by
    have := Real.cos_lt_cos_of_nonneg_of_le_pi hy.le le_rfl hyp
    rw [Real.cos_pi] at this
    exact div_pos (by linarith) hy
  by_cases hz : z ≤ Real.pi
  · unfold bell0 bell
    rw [if_pos hz, if_pos hyp.le]
    apply div_lt_div₀' _ h _ hy
    · have := Real.cos_le_cos_of_nonneg_of_le_pi hy.le hz h.le
      linarith
    · have := Real.cos_lt_cos_of_nonneg_of_le_pi hy.le le_rfl hyp
      rw [Real.cos_pi] at this
      linarith
  · rw [show bell0 z = 0 by unfold bell0; rw [if_neg hz], show bell0 y = bell y by unfold bell0; rw [if_pos hyp.le]]
    exact hp

theorem bell0_convex (y t : ℝ) (hy : 0 < y) (ht : 0 < t) : 0 ≤ bell0 y - 2 * bell0 (y + t) + bell0 (y + 2 * t) := by
  by_cases h2 : y + 2 * t ≤ Real.pi
  · have hcv := bell_convex.2
    have := @hcv y ⟨hy, by linarith⟩ (y + 2 * t) ⟨by linarith, h2⟩ (1 / 2) (1 / 2) (by norm_num) (by norm_num) (by norm_num)
    simp only [smul_eq_mul] at this
    rw [show 1 / 2 * y + 1 / 2 * (y + 2 * t) = y + t by ring] at this
    unfold bell0
    rw [if_pos h2, if_pos (by linarith), if_pos (by linarith)]
    linarith
  · rw [show bell0 (y + 2 * t) = 0 by unfold bell0; rw [if_neg h2]]
    by_cases h1 : y + t ≤ Real.pi
    · have hd : 0 < Real.pi - y := by linarith
      have hcv := bell_convex.2
      have := @hcv y ⟨hy, by linarith⟩ Real.pi ⟨Real.pi_pos, le_rfl⟩ ((Real.pi - y - t) / (Real.pi - y)) (t / (Real.pi - y))
        (div_nonneg (by linarith) hd.le) (div_nonneg ht.le hd.le) (by field_simp; ring)
      simp only [smul_eq_mul, bell_pi, mul_zero, add_zero] at this
      rw [show (Real.pi - y - t) / (Real.pi - y) * y + t / (Real.pi - y) * Real.pi = y + t by field_simp; ring] at this
      have hb := bell0_nonneg y hy
      unfold bell0 at hb ⊢
      rw [if_pos (by linarith)] at hb
      rw [if_pos h1, if_pos (by linarith)]
      have hq : (Real.pi - y - t) / (Real.pi - y) ≤ 1 / 2 := by rw [div_le_div_iff₀ hd (by norm_num)]; linarith
      have := mul_le_mul_of_nonneg_right hq hb
      linarith
    · rw [show bell0 (y + t) = 0 by unfold bell0; rw [if_neg h1]]
      have := bell0_nonneg y hy
      linarith

/-- The row sums: `u` is the offset of the row from the centre, `t` the distance of the coefficients. -/
theorem row_positive (u t θ φ : ℝ) (n : ℕ) (hu : 0 < u) (hut : 2 * u < t) (hup : u < Real.pi) (hn : Real.pi < (n + 1) * t - u) (hθ : 0 < θ) (hθ' : θ ≤ Real.pi / 2)
    (hφ : 0 ≤ φ) (hφ' : φ ≤ Real.pi) :
    0 < ∑ k ∈ range (n + 1), bell0 (k * t + u) * Real.sin (k * φ + θ) + ∑ k ∈ range n, bell0 ((k + 1 : ℕ) * t - u) * Real.sin ((k + 1 : ℕ) * φ - θ) := by
  have ht : 0 < t := by linarith
  have hg := convex_sines (fun k => bell0 (k * t + u)) n
    (fun k hk => by
      have : ((n : ℝ) + 1) ≤ k := by exact_mod_cast hk
      have : ((n : ℝ) + 1) * t ≤ k * t := by gcongr
      show bell0 _ = 0; unfold bell0; rw [if_neg (by linarith)])
    (fun k => by
      have := bell0_convex ((k + 1 : ℕ) * t + u) t (by positivity) ht
      convert this using 3
      · congr 2; push_cast; ring
      · push_cast; ring) φ hφ hφ'
  have hh := convex_sines (fun k => bell0 (k * t - u)) n
    (fun k hk => by
      have : ((n : ℝ) + 1) ≤ k := by exact_mod_cast hk
      have : ((n : ℝ) + 1) * t ≤ k * t := by gcongr
      show bell0 _ = 0; unfold bell0; rw [if_neg (by linarith)])
    (fun k => by
      have hk : 0 ≤ (k : ℝ) * t := by positivity
      have := bell0_convex ((k + 1 : ℕ) * t - u) t (by push_cast; linarith) ht
      convert this using 3
      · congr 2; push_cast; ring
      · push_cast; ring) φ hφ hφ'
  have hcos : 0 ≤ Real.cos θ := Real.cos_nonneg_of_mem_Icc ⟨by linarith, hθ'⟩
  have hsin : 0 < Real.sin θ := Real.sin_pos_of_pos_of_lt_pi hθ (by linarith [Real.pi_pos])
  rw [sum_range_succ']
  have e : ∑ k ∈ range n, bell0 ((k + 1 : ℕ) * t + u) * Real.sin ((k + 1 : ℕ) * φ + θ) + ∑ k ∈ range n, bell0 ((k + 1 : ℕ) * t - u) * Real.sin ((k + 1 : ℕ) * φ - θ) =
      Real.cos θ * (∑ k ∈ range n, bell0 ((k + 1 : ℕ) * t + u) * Real.sin ((k + 1 : ℕ) * φ) + ∑ k ∈ range n, bell0 ((k + 1 : ℕ) * t - u) * Real.sin ((k + 1 : ℕ) * φ)) -
      Real.sin θ * ∑ k ∈ range n, (bell0 ((k + 1 : ℕ) * t - u) - bell0 ((k + 1 : ℕ) * t + u)) * Real.cos ((k + 1 : ℕ) * φ) := by
    simp only [mul_add, mul_sum, ← sum_add_distrib, ← sum_sub_distrib]
    apply sum_congr rfl
    intro k _
    rw [Real.sin_add, Real.sin_sub]
    ring
  have hd : ∑ k ∈ range n, (bell0 ((k + 1 : ℕ) * t - u) - bell0 ((k + 1 : ℕ) * t + u)) * Real.cos ((k + 1 : ℕ) * φ) ≤
      ∑ k ∈ range n, (bell0 ((k + 1 : ℕ) * t - u) - bell0 ((k + 2 : ℕ) * t - u)) := by
    apply sum_le_sum
    intro k _
    have hk : 0 ≤ (k : ℝ) * t := by positivity
    have h1 : bell0 ((k + 1 : ℕ) * t + u) ≤ bell0 ((k + 1 : ℕ) * t - u) := bell0_antitone _ _ (by push_cast; linarith) (by linarith)
    have h2 : bell0 ((k + 2 : ℕ) * t - u) ≤ bell0 ((k + 1 : ℕ) * t + u) := bell0_antitone _ _ (by push_cast; linarith) (by push_cast; linarith)
    have h3 := Real.cos_le_one ((k + 1 : ℕ) * φ)
    nlinarith
  have htel : ∑ k ∈ range n, (bell0 ((k + 1 : ℕ) * t - u) - bell0 ((k + 2 : ℕ) * t - u)) ≤ bell0 (t - u) := by
    have := sum_range_sub' (fun k : ℕ => bell0 ((k + 1 : ℕ) * t - u)) n
    rw [show (∑ k ∈ range n, (bell0 ((k + 1 : ℕ) * t - u) - bell0 ((k + 2 : ℕ) * t - u))) = _ from this]
    have hk : 0 ≤ (n : ℝ) * t := by positivity
    have := bell0_nonneg ((n + 1 : ℕ) * t - u) (by push_cast; linarith)
    simp only [zero_add, Nat.cast_one, one_mul]
    linarith
  have hst := bell0_strict u (t - u) hu (by linarith) hup
  have hpos := mul_nonneg hcos (add_nonneg hg hh)
  have hlast : 0 < Real.sin θ * (bell0 u - ∑ k ∈ range n, (bell0 ((k + 1 : ℕ) * t - u) - bell0 ((k + 1 : ℕ) * t + u)) * Real.cos ((k + 1 : ℕ) * φ)) :=
    mul_pos hsin (by linarith)
  rw [add_right_comm, e, Nat.cast_zero, zero_mul, zero_mul, zero_add, zero_add]
  rw [mul_sub] at hlast
  rw [mul_comm (bell0 u)]
  linarith

/-- Partial sums of the square wave. -/
noncomputable def squareSum (n : ℕ) (x : ℝ) : ℝ := ∑ k ∈ range n, Real.sin ((k + 1 / 2) * x) / (k + 1 / 2)

theorem squareSum_neg (n : ℕ) (x : ℝ) : squareSum n (-x) = -squareSum n x := by
  unfold squareSum
  rw [← sum_neg_distrib]
  apply sum_congr rfl
  intro k _
  rw [mul_neg, Real.sin_neg, neg_div]

theorem cosines_half (n : ℕ) (x : ℝ) : 2 * Real.sin (x / 2) * ∑ k ∈ range n, Real.cos ((k + 1 / 2) * x) = Real.sin (n * x) := by
  induction n with
  | zero => simp
  | succ n ih =>
    rw [sum_range_succ, mul_add, ih]
    have e1 : ((n : ℕ) + 1 : ℝ) * x = (n + 1 / 2) * x + x / 2 := by ring
    have e2 : (n : ℝ) * x = (n + 1 / 2) * x - x / 2 := by ring
    push_cast
    rw [e1, e2, Real.sin_add, Real.sin_sub]
    ring

theorem squareSum_deriv (n : ℕ) (x : ℝ) (h : Real.sin (x / 2) ≠ 0) : HasDerivAt (squareSum n) (Real.sin (n * x) / (2 * Real.sin (x / 2))) x := by
  have : HasDerivAt (squareSum n) (∑ k ∈ range n, Real.cos ((k + 1 / 2) * x)) x := by
    unfold squareSum
    apply HasDerivAt.fun_sum
    intro k _
    have hk : ((k : ℝ) + 1 / 2) ≠ 0 := by positivity
    have h1 : HasDerivAt (fun x : ℝ => ((k : ℝ) + 1 / 2) * x) ((k : ℝ) + 1 / 2) x := by
      simpa using (hasDerivAt_id x).const_mul ((k : ℝ) + 1 / 2)
    refine (h1.sin.div_const _).congr_deriv ?_
    field_simp
  refine this.congr_deriv ?_
  rw [← cosines_half n x, mul_div_cancel_left₀ _ (mul_ne_zero two_ne_zero h)]

/-- The distance of the partial sums from their value at π. -/
theorem squareSum_near (n : ℕ) (hn : 0 < n) (x : ℝ) (hx : 0 < x) (hx' : x ≤ Real.pi) :
    |squareSum n x - squareSum n Real.pi| ≤ 1 / (n * Real.sin (x / 2)) := by
  have hpi := Real.pi_pos
  have hn' : (0 : ℝ) < n := by exact_mod_cast hn
  have hsin : ∀ y, x ≤ y → y ≤ Real.pi → 0 < Real.sin (y / 2) := fun y h1 h2 => Real.sin_pos_of_pos_of_lt_pi (by linarith) (by linarith)
  have hcos : ∀ y, x ≤ y → y ≤ Real.pi → 0 ≤ Real.cos (y / 2) := fun y h1 h2 => Real.cos_nonneg_of_mem_Icc ⟨by linarith, by linarith⟩
  have hder : ∀ e y : ℝ, x ≤ y → y ≤ Real.pi → HasDerivAt (fun y : ℝ => squareSum n y + (Real.cos (n * y) + e) / (2 * n * Real.sin (y / 2)))
      (-(Real.cos (n * y) + e) * Real.cos (y / 2) / (4 * n * Real.sin (y / 2) ^ 2)) y := by
    intro e y h1 h2
    have hs := (hsin y h1 h2).ne'
    have d1 : HasDerivAt (fun y : ℝ => (n : ℝ) * y) (n : ℝ) y := by simpa using (hasDerivAt_id y).const_mul (n : ℝ)
    have d2 : HasDerivAt (fun y : ℝ => y / 2) (1 / 2) y := (hasDerivAt_id y).div_const 2
    have d3 := (d1.cos.add_const e).div (d2.sin.const_mul (2 * (n : ℝ))) (by positivity)
    refine ((squareSum_deriv n y hs).add d3).congr_deriv ?_
    field_simp
    ring
  have hcont : ∀ e : ℝ, ContinuousOn (fun y : ℝ => squareSum n y + (Real.cos (n * y) + e) / (2 * n * Real.sin (y / 2))) (Set.Icc x Real.pi) :=
    fun e y hy => (hder e y hy.1 hy.2).continuousAt.continuousWithinAt
  have hint : interior (Set.Icc x Real.pi) = Set.Ioo x Real.pi := interior_Icc
  have hmono : MonotoneOn (fun y : ℝ => squareSum n y + (Real.cos (n * y) + -1) / (2 * n * Real.sin (y / 2))) (Set.Icc x Real.pi) := by
    apply monotoneOn_of_deriv_nonneg (convex_Icc _ _) (hcont (-1))
    · intro y hy
      rw [hint] at hy
      exact (hder (-1) y hy.1.le hy.2.le).differentiableAt.differentiableWithinAt
    · intro y hy
      rw [hint] at hy
      rw [(hder (-1) y hy.1.le hy.2.le).deriv]
      apply div_nonneg _ (by positivity)
      exact mul_nonneg (by linarith [Real.cos_le_one (n * y)]) (hcos y hy.1.le hy.2.le)
  have hanti : AntitoneOn (fun y : ℝ => squareSum n y + (Real.cos (n * y) + 1) / (2 * n * Real.sin (y / 2))) (Set.Icc x Real.pi) := by
    apply antitoneOn_of_deriv_nonpos (convex_Icc _ _) (hcont 1)
    · intro y hy
      rw [hint] at hy
      exact (hder 1 y hy.1.le hy.2.le).differentiableAt.differentiableWithinAt
    · intro y hy
      rw [hint] at hy
      rw [(hder 1 y hy.1.le hy.2.le).deriv]
      apply div_nonpos_of_nonpos_of_nonneg _ (by positivity)
      exact mul_nonpos_of_nonpos_of_nonneg (by linarith [Real.neg_one_le_cos (n * y)]) (hcos y hy.1.le hy.2.le)
  have m1 := hmono (Set.left_mem_Icc.mpr hx') (Set.right_mem_Icc.mpr hx') hx'
  have m2 := hanti (Set.left_mem_Icc.mpr hx') (Set.right_mem_Icc.mpr hx') hx'
  have hsx := hsin x le_rfl hx'
  have hD : 0 < 2 * n * Real.sin (x / 2) := by positivity
  have hDp : 0 < 2 * n * Real.sin (Real.pi / 2) := by rw [Real.sin_pi_div_two]; positivity
  have b1 : (Real.cos (n * Real.pi) + -1) / (2 * n * Real.sin (Real.pi / 2)) ≤ 0 :=
    div_nonpos_of_nonpos_of_nonneg (by linarith [Real.cos_le_one (n * Real.pi)]) hDp.le
  have b2 : 0 ≤ (Real.cos (n * Real.pi) + 1) / (2 * n * Real.sin (Real.pi / 2)) :=
    div_nonneg (by linarith [Real.neg_one_le_cos (n * Real.pi)]) hDp.le
  have e2 : 1 / (n * Real.sin (x / 2)) = 2 / (2 * n * Real.sin (x / 2)) := by field_simp
  have b3 : (-2 : ℝ) / (2 * n * Real.sin (x / 2)) ≤ (Real.cos (n * x) + -1) / (2 * n * Real.sin (x / 2)) :=
    div_le_div_of_nonneg_right (by linarith [Real.neg_one_le_cos (n * x)]) hD.le
  have b4 : (Real.cos (n * x) + 1) / (2 * n * Real.sin (x / 2)) ≤ 2 / (2 * n * Real.sin (x / 2)) :=
    div_le_div_of_nonneg_right (by linarith [Real.cos_le_one (n * x)]) hD.le
  rw [neg_div] at b3
  rw [e2, abs_le]
  constructor <;> linarith

/-- The value at π is close to π/2, for an even count. -/
theorem squareSum_pi (n : ℕ) : Real.pi / 2 - 2 / (4 * n + 1) ≤ squareSum (2 * n) Real.pi ∧ squareSum (2 * n) Real.pi ≤ Real.pi / 2 := by
  have hl := Real.tendsto_sum_pi_div_four
  have hl' : Filter.Tendsto (fun k => ∑ i ∈ range k, (-1 : ℝ) ^ i * (1 / (2 * i + 1))) Filter.atTop (nhds (Real.pi / 4)) := by
    refine hl.congr fun k => ?_
    apply sum_congr rfl
    intro i _
    ring
  have hanti : Antitone (fun i : ℕ => (1 : ℝ) / (2 * i + 1)) := by
    intro a b hab
    have : (a : ℝ) ≤ b := by exact_mod_cast hab
    show (1 : ℝ) / (2 * b + 1) ≤ 1 / (2 * a + 1)
    apply one_div_le_one_div_of_le (by positivity)
    linarith
  have h1 := hanti.alternating_series_le_tendsto hl' n
  have h2 := hanti.tendsto_le_alternating_series hl' n
  have e : squareSum (2 * n) Real.pi = 2 * ∑ i ∈ range (2 * n), (-1 : ℝ) ^ i * (1 / (2 * i + 1)) := by
    unfold squareSum
    rw [mul_sum]
    apply sum_congr rfl
    intro k _
    have : Real.sin ((k + 1 / 2) * Real.pi) = (-1) ^ k := by
      rw [show ((k : ℝ) + 1 / 2) * Real.pi = Real.pi / 2 + k * Real.pi by ring, Real.sin_add_nat_mul_pi]
      simp
    rw [this]
    field_simp
  rw [sum_range_succ, pow_mul] at h2
  rw [e]
  have e2 : (2 : ℝ) / (4 * n + 1) = 2 * (1 / (2 * ((2 * n : ℕ) : ℝ) + 1)) := by push_cast; field_simp; ring
  rw [e2]
  rw [show ((-1 : ℝ) ^ 2) ^ n = 1 by norm_num, one_mul] at h2
  constructor <;> linarith

theorem half_squares (n : ℕ) : ∑ k ∈ range n, ((k : ℝ) + 1 / 2) ^ 2 = n * (4 * (n : ℝ) ^ 2 - 1) / 12 := by
  induction n with
  | zero => simp
  | succ n ih => rw [sum_range_succ, ih]; push_cast; ring

theorem half_fourths (n : ℕ) : ∑ k ∈ range n, ((k : ℝ) + 1 / 2) ^ 4 = n * (48 * (n : ℝ) ^ 4 - 40 * (n : ℝ) ^ 2 + 7) / 240 := by
  induction n with
  | zero => simp
  | succ n ih => rw [sum_range_succ, ih]; push_cast; ring

/-- Sums over the coefficients of a design of odd order, as functions of the distance from the centre. -/
theorem fold_even (F : ℝ → ℝ) (hF : ∀ x, F (-x) = F x) (K : ℕ) :
    ∑ n ∈ range (2 * K), F ((n : ℝ) - (2 * K - 1) / 2) = 2 * ∑ k ∈ range K, F (k + 1 / 2) := by
  rw [two_mul K, sum_range_add, two_mul (∑ k ∈ range K, F (k + 1 / 2)), ← sum_range_reflect]
  congr 1
  · apply sum_congr rfl
    intro k hk
    have hk := mem_range.mp hk
    rw [← hF]
    congr 1
    rw [Nat.cast_sub (by omega), Nat.cast_sub (by omega)]
    push_cast; ring
  · apply sum_congr rfl
    intro k _
    congr 1
    push_cast; ring

/-- The window at the distance `m` from the centre. -/
noncomputable def hannAt (m : ℝ) : ℝ := 1 / 2 + 1 / 2 * Real.cos (2 * Real.pi * m / 3839)

theorem hannAt_value (n : ℕ) : window.value .hann 3840 n = hannAt ((n : ℝ) - 3839 / 2) := by
  unfold window.value window.cosine hannAt
  rw [if_neg (by norm_num)]
  simp only
  rw [show -Real.pi + 2 * Real.pi * (n : ℝ) / (((3840 : ℕ) : ℝ) - 1) = 2 * Real.pi * ((n : ℝ) - 3839 / 2) / 3839 by push_cast; field_simp; ring]
  norm_num

theorem hannAt_sum : ∑ k ∈ range 1920, hannAt (k + 1 / 2) = 959.75 := by
  unfold hannAt
  rw [sum_add_distrib, ← mul_sum]
  have h := cosines_half 1920 (2 * Real.pi / 3839)
  have hs : Real.sin (((1920 : ℕ) : ℝ) * (2 * Real.pi / 3839)) = -Real.sin (2 * Real.pi / 3839 / 2) := by
    rw [show ((1920 : ℕ) : ℝ) * (2 * Real.pi / 3839) = 2 * Real.pi / 3839 / 2 + Real.pi by push_cast; ring, Real.sin_add_pi]
  rw [hs] at h
  have hp : 0 < Real.sin (2 * Real.pi / 3839 / 2) := Real.sin_pos_of_pos_of_lt_pi (by positivity) (by linarith [Real.pi_pos])
  have e : ∑ k ∈ range 1920, Real.cos (2 * Real.pi * ((k : ℝ) + 1 / 2) / 3839) = ∑ k ∈ range 1920, Real.cos (((k : ℝ) + 1 / 2) * (2 * Real.pi / 3839)) := by
    apply sum_congr rfl
    intro k _
    congr 1; ring
  have : ∑ k ∈ range 1920, Real.cos (((k : ℝ) + 1 / 2) * (2 * Real.pi / 3839)) = -(1 / 2) := by
    have : 2 * Real.sin (2 * Real.pi / 3839 / 2) * (∑ k ∈ range 1920, Real.cos (((k : ℝ) + 1 / 2) * (2 * Real.pi / 3839)) - -(1 / 2)) = 0 := by
      rw [mul_sub, h]; ring
    rcases mul_eq_zero.mp this with q | q
    · linarith
    · linarith
  rw [e, this, sum_const, card_range]
  norm_num

theorem hannAt_nonneg (m : ℝ) : 0 ≤ hannAt m := by
  unfold hannAt
  linarith [Real.neg_one_le_cos (2 * Real.pi * m / 3839)]

theorem hannAt_le (m : ℝ) (h0 : 0 ≤ m) (h1 : m ≤ 3839 / 2) : hannAt m ≤ 1 - 4 * m ^ 2 / 3839 ^ 2 := by
  unfold hannAt
  have hpi := Real.pi_pos
  have hx0 : 0 ≤ Real.pi * m / 3839 := by positivity
  have hx1 : Real.pi * m / 3839 ≤ Real.pi / 2 := by
    rw [div_le_div_iff₀ (by norm_num) (by norm_num)]; nlinarith
  have hj := Real.mul_le_sin hx0 hx1
  have e : 2 / Real.pi * (Real.pi * m / 3839) = 2 * m / 3839 := by field_simp
  rw [e] at hj
  have hsq := Real.sin_sq_add_cos_sq (Real.pi * m / 3839)
  rw [show 2 * Real.pi * m / 3839 = 2 * (Real.pi * m / 3839) by ring, Real.cos_two_mul]
  have : (2 * m / 3839) ^ 2 ≤ Real.sin (Real.pi * m / 3839) ^ 2 := pow_le_pow_left₀ (by positivity) hj 2
  have e2 : (2 * m / 3839) ^ 2 = 4 * m ^ 2 / 3839 ^ 2 := by ring
  rw [e2] at this
  linarith

theorem hannAt_moment : ∑ k ∈ range 1920, hannAt (k + 1 / 2) * ((k : ℝ) + 1 / 2) ^ 2 ≤ 943100000 := by
  have : ∑ k ∈ range 1920, hannAt (k + 1 / 2) * ((k : ℝ) + 1 / 2) ^ 2 ≤ ∑ k ∈ range 1920, (((k : ℝ) + 1 / 2) ^ 2 - 4 / 3839 ^ 2 * ((k : ℝ) + 1 / 2) ^ 4) := by
    apply sum_le_sum
    intro k hk
    have hk : ((k : ℝ)) ≤ 1919 := by exact_mod_cast (by have := mem_range.mp hk; omega : k ≤ 1919)
    have h := hannAt_le ((k : ℝ) + 1 / 2) (by positivity) (by linarith)
    have := mul_le_mul_of_nonneg_right h (sq_nonneg ((k : ℝ) + 1 / 2))
    refine this.trans (le_of_eq ?_)
    ring
  refine this.trans ?_
  rw [sum_sub_distrib, ← mul_sum, half_squares, half_fourths]
  norm_num

/-- Twice the sum of the windowed sines. -/
noncomputable def hannSum (a : ℝ) : ℝ := 2 * ∑ k ∈ range 1920, hannAt (k + 1 / 2) * Real.sin (((k : ℝ) + 1 / 2) * (Real.pi * a)) / (Real.pi * ((k : ℝ) + 1 / 2))

theorem hannSum_eq (a : ℝ) : hannSum a = 2 / Real.pi * (squareSum 1920 (Real.pi * a) / 2 +
    squareSum 1920 (Real.pi * a + 2 * Real.pi / 3839) / 4 + squareSum 1920 (Real.pi * a - 2 * Real.pi / 3839) / 4) := by
  unfold hannSum squareSum
  rw [sum_div, sum_div, sum_div, ← sum_add_distrib, ← sum_add_distrib, mul_sum, mul_sum]
  apply sum_congr rfl
  intro k _
  have hk : ((k : ℝ) + 1 / 2) ≠ 0 := by positivity
  have hpi := Real.pi_ne_zero
  unfold hannAt
  generalize (k : ℝ) + 1 / 2 = m at *
  rw [show m * (Real.pi * a + 2 * Real.pi / 3839) = m * (Real.pi * a) + m * (2 * Real.pi / 3839) by ring,
    show m * (Real.pi * a - 2 * Real.pi / 3839) = m * (Real.pi * a) - m * (2 * Real.pi / 3839) by ring, Real.sin_add, Real.sin_sub,
    show 2 * Real.pi * m / 3839 = m * (2 * Real.pi / 3839) by ring]
  generalize Real.cos (m * (2 * Real.pi / 3839)) = C
  generalize Real.sin (m * (Real.pi * a)) = S
  field_simp
  ring

theorem squareSum_bounds (y0 y : ℝ) (h0 : 0 < y0) (h1 : y0 ≤ y) (h2 : y ≤ 0.03) :
    squareSum 1920 y ≤ Real.pi / 2 + 1 / (959.9 * y0) ∧ Real.pi / 2 - 2 / 3841 - 1 / (959.9 * y0) ≤ squareSum 1920 y := by
  have hy : 0 < y := by linarith
  have hn := squareSum_near 1920 (by norm_num) y hy (by linarith [Real.pi_gt_three])
  obtain ⟨p1, p2⟩ := squareSum_pi 960
  norm_num at p1 p2 hn
  have hs : y / 2 - (y / 2) ^ 3 / 6 ≤ Real.sin (y / 2) := Real.sin_ge_sub_cube (by linarith)
  have hq : y ^ 2 ≤ 0.03 ^ 2 := pow_le_pow_left₀ hy.le h2 2
  have hb : 959.9 * y0 ≤ 1920 * Real.sin (y / 2) := by
    have : 959.9 * y ≤ 1920 * (y / 2 - (y / 2) ^ 3 / 6) := by
      have : y * y ^ 2 ≤ y * 0.03 ^ 2 := mul_le_mul_of_nonneg_left hq hy.le
      nlinarith
    linarith
  have hle : 1 / (1920 * Real.sin (y / 2)) ≤ 1 / (959.9 * y0) := one_div_le_one_div_of_le (by positivity) hb
  have hn' : |squareSum 1920 y - squareSum 1920 Real.pi| ≤ 1 / (1920 * Real.sin (y / 2)) := by
    refine hn.trans (le_of_eq ?_)
    rw [one_div, one_div, mul_inv, mul_comm]
  have := abs_le.mp (hn'.trans hle)
  constructor <;> linarith [this.1, this.2]

theorem hannSum_terms (n : ℕ) (a : ℝ) (h0 : 0 ≤ a) :
    a * ∑ k ∈ range n, hannAt (k + 1 / 2) - Real.pi ^ 2 * a ^ 3 / 6 * ∑ k ∈ range n, hannAt (k + 1 / 2) * ((k : ℝ) + 1 / 2) ^ 2 ≤
      ∑ k ∈ range n, hannAt (k + 1 / 2) * Real.sin (((k : ℝ) + 1 / 2) * (Real.pi * a)) / (Real.pi * ((k : ℝ) + 1 / 2)) := by
  have hpi := Real.pi_pos
  rw [mul_sum, mul_sum, ← sum_sub_distrib]
  apply sum_le_sum
  intro k _
  have hk : 0 < ((k : ℝ) + 1 / 2) := by positivity
  have hw := hannAt_nonneg ((k : ℝ) + 1 / 2)
  generalize (k : ℝ) + 1 / 2 = m at *
  have h := Real.sin_ge_sub_cube (x := m * (Real.pi * a)) (by positivity)
  rw [le_div_iff₀ (by positivity)]
  have := mul_le_mul_of_nonneg_left h hw
  refine le_trans (le_of_eq ?_) this
  ring

theorem hannSum_low (a : ℝ) (h0 : 0 ≤ a) : 2 * a * (959.75 - Real.pi ^ 2 * a ^ 2 / 6 * 943100000) ≤ hannSum a := by
  have key : ∀ X Y W : ℝ, a * W - Real.pi ^ 2 * a ^ 3 / 6 * Y ≤ X → W = 959.75 → Y ≤ 943100000 →
      2 * a * (959.75 - Real.pi ^ 2 * a ^ 2 / 6 * 943100000) ≤ 2 * X := by
    intro X Y W h hW hY
    have hc : 0 ≤ Real.pi ^ 2 * a ^ 3 / 6 := by positivity
    have := mul_le_mul_of_nonneg_left hY hc
    have e : 2 * a * (959.75 - Real.pi ^ 2 * a ^ 2 / 6 * 943100000) = 2 * (a * 959.75 - Real.pi ^ 2 * a ^ 3 / 6 * 943100000) := by ring
    rw [e]
    rw [hW] at h
    linarith
  exact key _ _ _ (hannSum_terms 1920 a h0) hannAt_sum hannAt_moment

/-- The margins of the search for the cut-off, from the scale 1.12 on. -/
theorem hannSum_margin (s : ℝ) (h1 : 1.12 ≤ s) (h2 : s ≤ 1.1413) :
    hannSum (s * (0.85 / 256)) ≤ 1.058 ∧ 0.968 ≤ hannSum (s * (0.85 / 256) + 0.85 / 256) ∧ 0.56 ≤ hannSum (s * (0.85 / 256) - 0.85 / 256) := by
  have hp1 := Real.pi_gt_d4
  have hp2 := Real.pi_lt_d4
  have hpi := Real.pi_pos
  have hps : Real.pi * 1.12 ≤ Real.pi * s := by gcongr
  have hps' : Real.pi * s ≤ Real.pi * 1.1413 := by gcongr
  have hinv : 2 / Real.pi ≤ 0.6367 := by rw [div_le_iff₀ hpi]; linarith
  have hone : 2 / Real.pi * (Real.pi / 2) = 1 := by field_simp
  have hip : 0 < 2 / Real.pi := by positivity
  refine ⟨?_, ?_, ?_⟩
  · rw [hannSum_eq]
    have e : Real.pi * (s * (0.85 / 256)) = Real.pi * s * (0.85 / 256) := by ring
    have b1 := (squareSum_bounds 0.01168 (Real.pi * (s * (0.85 / 256))) (by norm_num) (by rw [e]; linarith) (by rw [e]; linarith)).1
    have b2 := (squareSum_bounds 0.0133 (Real.pi * (s * (0.85 / 256)) + 2 * Real.pi / 3839) (by norm_num) (by rw [e]; linarith) (by rw [e]; linarith)).1
    have b3 := (squareSum_bounds 0.01004 (Real.pi * (s * (0.85 / 256)) - 2 * Real.pi / 3839) (by norm_num) (by rw [e]; linarith) (by rw [e]; linarith)).1
    have hsum : squareSum 1920 (Real.pi * (s * (0.85 / 256))) / 2 + squareSum 1920 (Real.pi * (s * (0.85 / 256)) + 2 * Real.pi / 3839) / 4 +
        squareSum 1920 (Real.pi * (s * (0.85 / 256)) - 2 * Real.pi / 3839) / 4 ≤ Real.pi / 2 + 0.0903 := by
      norm_num at b1 b2 b3 ⊢
      linarith
    have := mul_le_mul_of_nonneg_left hsum hip.le
    rw [mul_add _ (Real.pi / 2), hone] at this
    have := mul_le_mul_of_nonneg_right hinv (by norm_num : (0 : ℝ) ≤ 0.0903)
    linarith
  · rw [hannSum_eq]
    have e : Real.pi * (s * (0.85 / 256) + 0.85 / 256) = Real.pi * s * (0.85 / 256) + Real.pi * (0.85 / 256) := by ring
    have b1 := (squareSum_bounds 0.0221 (Real.pi * (s * (0.85 / 256) + 0.85 / 256)) (by norm_num) (by rw [e]; linarith) (by rw [e]; linarith)).2
    have b2 := (squareSum_bounds 0.0237 (Real.pi * (s * (0.85 / 256) + 0.85 / 256) + 2 * Real.pi / 3839) (by norm_num) (by rw [e]; linarith) (by rw [e]; linarith)).2
    have b3 := (squareSum_bounds 0.0204 (Real.pi * (s * (0.85 / 256) + 0.85 / 256) - 2 * Real.pi / 3839) (by norm_num) (by rw [e]; linarith) (by rw [e]; linarith)).2
    have hsum : Real.pi / 2 - 0.0484 ≤ squareSum 1920 (Real.pi * (s * (0.85 / 256) + 0.85 / 256)) / 2 +
        squareSum 1920 (Real.pi * (s * (0.85 / 256) + 0.85 / 256) + 2 * Real.pi / 3839) / 4 +
        squareSum 1920 (Real.pi * (s * (0.85 / 256) + 0.85 / 256) - 2 * Real.pi / 3839) / 4 := by
      norm_num at b1 b2 b3 ⊢
      linarith
    have := mul_le_mul_of_nonneg_left hsum hip.le
    rw [mul_sub, hone] at this
    have := mul_le_mul_of_nonneg_right hinv (by norm_num : (0 : ℝ) ≤ 0.0484)
    linarith
  · have h := hannSum_low (s * (0.85 / 256) - 0.85 / 256) (by linarith)
    refine le_trans ?_ h
    obtain ⟨a, ha⟩ : ∃ a, a = s * (0.85 / 256) - 0.85 / 256 := ⟨_, rfl⟩
    rw [← ha]
    have ha1 : 0.000398 ≤ a := by rw [ha]; linarith
    have ha2 : a ≤ 0.00046917 := by rw [ha]; linarith
    have hsq : Real.pi ^ 2 ≤ 9.8697 := by
      have := pow_le_pow_left₀ hpi.le hp2.le 2
      linarith
    clear * - ha1 ha2 hsq
    have hk : Real.pi ^ 2 * a ^ 2 / 6 * 943100000 ≤ 1551400000 * a ^ 2 := by
      have := mul_le_mul_of_nonneg_right hsq (sq_nonneg a)
      have := sq_nonneg a
      linarith
    have : 2 * a * (959.75 - 1551400000 * a ^ 2) ≤ 2 * a * (959.75 - Real.pi ^ 2 * a ^ 2 / 6 * 943100000) :=
      mul_le_mul_of_nonneg_left (by linarith) (by linarith)
    refine le_trans ?_ this
    have hq : a ^ 2 + a * 0.000398 + 0.000398 ^ 2 ≤ 0.000000566 := by nlinarith
    have hg := mul_nonneg (sub_nonneg.mpr ha1) (by linarith : 0 ≤ 959.75 - 1551400000 * (a ^ 2 + a * 0.000398 + 0.000398 ^ 2))
    nlinarith

end Verif
