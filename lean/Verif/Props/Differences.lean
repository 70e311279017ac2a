import Verif.Props.Accuracy
import Verif.Props.FirSystem
import Mathlib.Analysis.SpecialFunctions.Trigonometric.Deriv
import Mathlib.Analysis.SpecialFunctions.Trigonometric.Bounds

/-
Property C106: DerivativeFilter (diamondback/filters/derivative_filter.py) and IntegralFilter (diamondback/filters/integral_filter.py) in cascade, and on sampled cosines.
-/

namespace Verif.Props

open Finset Spec

/-- The weighted sum of a function over a window. -/
noncomputable def weigh (b : List ℝ) (F : ℝ → ℝ) (t : ℝ) : ℝ := ∑ i ∈ range b.length, at0 b i * F (t - i)

/-- Twice the sine of half the frequency, the sine, and the sine corrected: the factors of first derivatives of order 1, 2 and 4. -/
noncomputable def firstGain (N : ℤ) (w : ℝ) : ℝ := if N = 1 then 2 * Real.sin (w / 2) else if N = 2 then Real.sin w else Real.sin w * (4 - Real.cos w) / 3

theorem first_tone (N : ℤ) (hN : N = 1 ∨ N = 2 ∨ N = 4) (b : List ℝ) (hb : Derivative.table 1 N = some b) (w θ t : ℝ) :
    weigh b (fun s => Real.cos (w * s + θ)) t = firstGain N w * Real.cos (w * (t - N / 2) + θ + Real.pi / 2) := by
  rw [Real.cos_add_pi_div_two]
  rcases hN with rfl | rfl | rfl <;> cases hb
  · simp only [weigh, firstGain, List.length_cons, List.length_nil, sum_range_succ, sum_range_zero, at0, List.getD_cons_zero, List.getD_cons_succ, if_true]
    push_cast
    rw [show w * (t - 0) + θ = (w * (t - 1 / 2) + θ) + w / 2 by ring, show w * (t - 1) + θ = (w * (t - 1 / 2) + θ) - w / 2 by ring, Real.cos_add, Real.cos_sub]
    ring
  · simp only [weigh, firstGain, scaled, List.map_cons, List.map_nil, List.length_cons, List.length_nil, sum_range_succ, sum_range_zero, at0, List.getD_cons_zero, List.getD_cons_succ]
    push_cast
    rw [show w * (t - 0) + θ = (w * (t - 2 / 2) + θ) + w by ring, show w * (t - 2) + θ = (w * (t - 2 / 2) + θ) - w by ring, Real.cos_add, Real.cos_sub]
    ring
  · simp only [weigh, firstGain, scaled, List.map_cons, List.map_nil, List.length_cons, List.length_nil, sum_range_succ, sum_range_zero, at0, List.getD_cons_zero, List.getD_cons_succ]
    push_cast
    rw [show w * (t - 0) + θ = (w * (t - 4 / 2) + θ) + 2 * w by ring, show w * (t - 1) + θ = (w * (t - 4 / 2) + θ) + w by ring,
      show w * (t - 3) + θ = (w * (t - 4 / 2) + θ) - w by ring, show w * (t - 4) + θ = (w * (t - 4 / 2) + θ) - 2 * w by ring]
    simp only [Real.cos_add _ (2 * w), Real.cos_sub _ (2 * w), Real.cos_add _ w, Real.cos_sub _ w, Real.sin_two_mul]
    ring

theorem firstGain_pos (N : ℤ) (w : ℝ) (h0 : 0 < w) (h1 : w < Real.pi) : 0 < firstGain N w := by
  have hs := Real.sin_pos_of_pos_of_lt_pi h0 h1
  have hc := Real.cos_le_one w
  unfold firstGain
  split
  · have := Real.sin_pos_of_pos_of_lt_pi (half_pos h0) (by linarith)
    linarith
  · split
    · exact hs
    · have : 0 < Real.sin w * (4 - Real.cos w) := mul_pos hs (by linarith)
      linarith

theorem corrected_sine_le (w : ℝ) (h0 : 0 ≤ w) : Real.sin w * (4 - Real.cos w) / 3 ≤ w := by
  have hd : ∀ v : ℝ, HasDerivAt (fun v => v - Real.sin v * (4 - Real.cos v) / 3) (2 / 3 * (1 - Real.cos v) ^ 2) v := by
    intro v
    have h1 := (Real.hasDerivAt_sin v).mul ((hasDerivAt_const v (4 : ℝ)).sub (Real.hasDerivAt_cos v))
    have h2 := (hasDerivAt_id v).sub (h1.div_const 3)
    refine h2.congr_deriv ?_
    simp only [Pi.sub_apply]
    have := Real.sin_sq_add_cos_sq v
    linear_combination (-1 / 3) * this
  have hm : Monotone (fun v => v - Real.sin v * (4 - Real.cos v) / 3) := monotone_of_deriv_nonneg (fun v => (hd v).differentiableAt) (fun v => by rw [(hd v).deriv]; positivity)
  have := hm h0
  simp at this
  linarith

theorem firstGain_le (N : ℤ) (w : ℝ) (h0 : 0 ≤ w) : firstGain N w ≤ w := by
  unfold firstGain
  split
  · have := Real.sin_le (x := w / 2) (by linarith)
    linarith
  · split
    · exact Real.sin_le h0
    · exact corrected_sine_le w h0

/-- The first derivative of order 1, 2 or 4. -/
noncomputable def first (N : ℤ) : List ℝ := (Derivative.table 1 N).getD []

/-- The orders of first derivatives that a derivative is made of. -/
def factors (d N : ℤ) : List ℤ := match d, N with
  | 1, n => [n]
  | 2, 2 => [1, 1]
  | 2, 4 => [2, 2]
  | 2, 6 => [2, 4]
  | 2, 8 => [4, 4]
  | 3, 4 => [2, 1, 1]
  | 3, 6 => [2, 2, 2]
  | 3, 8 => [2, 2, 4]
  | _, _ => []

/-- Every table is a product of first derivatives. -/
theorem table_factors (d N : ℤ) (b : List ℝ) (hb : Derivative.table d N = some b) (F : ℝ → ℝ) :
    ((factors d N).length : ℤ) = d ∧ (factors d N).sum = N ∧ (∀ n ∈ factors d N, n = 1 ∨ n = 2 ∨ n = 4) ∧ weigh b F = (factors d N).foldr (fun n G => weigh (first n) G) F := by
  unfold Derivative.table at hb
  split at hb <;> cases hb <;> refine ⟨rfl, rfl, by simp [factors], ?_⟩ <;> funext t <;>
    simp only [factors, List.foldr_cons, List.foldr_nil, weigh, first, Derivative.table, Option.getD_some, scaled, List.map_cons, List.map_nil, List.length_cons, List.length_nil, sum_range_succ, sum_range_zero, at0,
      List.getD_cons_zero, List.getD_cons_succ] <;> push_cast <;> ring_nf

theorem fold_tone (l : List ℤ) (hl : ∀ n ∈ l, n = 1 ∨ n = 2 ∨ n = 4) (w θ A t : ℝ) :
    l.foldr (fun n G => weigh (first n) G) (fun s => A * Real.cos (w * s + θ)) t = (l.map fun n => firstGain n w).prod * A * Real.cos (w * (t - (l.sum : ℤ) / 2) + θ + l.length * (Real.pi / 2)) := by
  induction l generalizing t with
  | nil => simp
  | cons n l ih =>
    have hn := hl n (by simp)
    have ih' := ih fun m hm => hl m (by simp [hm])
    simp only [List.foldr_cons, List.map_cons, List.prod_cons, List.sum_cons, List.length_cons]
    have e : l.foldr (fun n G => weigh (first n) G) (fun s => A * Real.cos (w * s + θ)) = fun s => ((l.map fun n => firstGain n w).prod * A) * Real.cos (w * s + (θ - w * ((l.sum : ℤ) / 2) + l.length * (Real.pi / 2))) := by
      funext s
      rw [ih' s]
      congr 2
      ring
    rw [e]
    obtain ⟨b, hb⟩ : ∃ b : List ℝ, Derivative.table 1 n = some b := by rcases hn with rfl | rfl | rfl <;> exact ⟨_, rfl⟩
    have hf : first n = b := by rw [first, hb]; rfl
    have hw : ∀ (C : ℝ) (F : ℝ → ℝ), weigh b (fun s => C * F s) t = C * weigh b F t := by
      intro C F
      simp only [weigh, mul_sum]
      exact sum_congr rfl fun i _ => by ring
    rw [hf, hw _ (fun s => Real.cos (w * s + (θ - w * ((l.sum : ℤ) / 2) + l.length * (Real.pi / 2)))), first_tone n hn b hb]
    simp only [Int.cast_add, Nat.cast_add, Nat.cast_one]
    rw [show w * (t - ((n : ℝ) + (l.sum : ℤ)) / 2) + θ + (l.length + 1) * (Real.pi / 2) = w * (t - n / 2) + (θ - w * ((l.sum : ℤ) / 2) + l.length * (Real.pi / 2)) + Real.pi / 2 by ring]
    ring

theorem iteratedDeriv_cosine (A w θ : ℝ) (k : ℕ) : iteratedDeriv k (fun t => A * Real.cos (w * t + θ)) = fun t => w ^ k * (A * Real.cos (w * t + θ + k * (Real.pi / 2))) := by
  induction k with
  | zero => funext t; simp
  | succ k ih =>
    rw [iteratedDeriv_succ, ih]
    funext t
    have h1 : HasDerivAt (fun t => w * t + θ + k * (Real.pi / 2)) w t := by
      simpa using (((hasDerivAt_id t).const_mul w).add_const θ).add_const (k * (Real.pi / 2))
    have h2 := ((h1.cos.const_mul A).const_mul (w ^ k)).deriv
    rw [h2]
    push_cast
    rw [show w * t + θ + (k + 1) * (Real.pi / 2) = w * t + θ + k * (Real.pi / 2) + Real.pi / 2 by ring, Real.cos_add_pi_div_two]
    ring

theorem prod_gain (l : List ℤ) (w : ℝ) (h0 : 0 < w) (h1 : w ≤ Real.pi) : 0 ≤ (l.map fun n => firstGain n w).prod ∧ (l.map fun n => firstGain n w).prod ≤ w ^ l.length ∧ (w < Real.pi → 0 < (l.map fun n => firstGain n w).prod) := by
  have hz : ∀ n, 0 ≤ firstGain n w := by
    intro n
    rcases h1.lt_or_eq with h | h
    · exact (firstGain_pos n w h0 h).le
    · unfold firstGain
      split
      · rw [h]; simp
      · split <;> simp [h]
  induction l with
  | nil => simp
  | cons n l ih =>
    obtain ⟨i1, i2, i3⟩ := ih
    simp only [List.map_cons, List.prod_cons, List.length_cons]
    refine ⟨mul_nonneg (hz n) i1, ?_, fun h => mul_pos (firstGain_pos n w h0 h) (i3 h)⟩
    rw [pow_succ, mul_comm (w ^ l.length)]
    exact mul_le_mul (firstGain_le n w h0.le) i2 i1 h0.le

/-- C106: on samples of a cosine DerivativeFilter gives, after any history, the exact derivative of the cosine in the middle of its window, reduced by a factor from 0 to 1 which depends only on the frequency:
no phase error, and never too large.  At the Nyquist frequency the factor is zero unless order and derivative are equal. -/
theorem C106_tone (d N : ℤ) (f : Fir ℝ) (hf : Derivative.new d N = .ok f) (w : ℝ) (h0 : 0 < w) (h1 : w ≤ 1) :
    ∃ ρ : ℝ, 0 ≤ ρ ∧ ρ ≤ 1 ∧ (w < 1 → 0 < ρ) ∧ (w = 1 → (ρ = 0 ↔ N ≠ d)) ∧
      ∀ (ops : List (FirOp ℝ)) (A θ : ℝ) (x : List ℝ), x ≠ [] → (∀ n < x.length, at0 x n = A * Real.cos (Real.pi * w * n + θ)) →
        ∃ y f', (f.after ops).filter x = (.ok y, f') ∧ y.length = x.length ∧
          ∀ n, N.toNat ≤ n → n < x.length → at0 y n = ρ * iteratedDeriv d.toNat (fun t => A * Real.cos (Real.pi * w * t + θ)) ((n : ℝ) - (N : ℝ) / 2) := by
  have hpi := Real.pi_pos
  have hw0 : 0 < Real.pi * w := by positivity
  have hw1 : Real.pi * w ≤ Real.pi := by nlinarith
  obtain ⟨g1, g2, g3⟩ := prod_gain (factors d N) (Real.pi * w) hw0 hw1
  obtain ⟨b0, -, -, hb0, -⟩ := derivative_window d N f hf [] [0] (by simp)
  have hfac := fun F => table_factors d N b0 hb0 F
  have hlen : (factors d N).length = d.toNat := by have := (hfac id).1; omega
  rw [hlen] at g2
  have hp : 0 < (Real.pi * w) ^ d.toNat := by positivity
  refine ⟨((factors d N).map fun n => firstGain n (Real.pi * w)).prod / (Real.pi * w) ^ d.toNat, by positivity, (div_le_one hp).mpr g2, fun h => div_pos (g3 (by nlinarith)) hp, ?_, ?_⟩
  · rintro rfl
    rw [div_eq_zero_iff, or_iff_left hp.ne', mul_one]
    clear g1 g2 g3 hfac hlen hp hf
    unfold Derivative.table at hb0
    split at hb0 <;> cases hb0 <;> norm_num [factors, firstGain]
  · intro ops A θ x hx hs
    obtain ⟨b, y, f', k1, k2, k3, k4, k5⟩ := derivative_window d N f hf ops x hx
    rw [hb0] at k1
    cases k1
    refine ⟨y, f', k3, k4, fun n hN hn => ?_⟩
    have e : at0 y n = weigh b0 (fun s => A * Real.cos (Real.pi * w * s + θ)) n := by
      rw [k5 n hN hn, weigh]
      refine sum_congr rfl fun i hi => ?_
      have := mem_range.mp hi
      rw [hs _ (by omega), Nat.cast_sub (by omega)]
    rw [e, (hfac _).2.2.2, fold_tone _ (hfac id).2.2.1, (hfac id).2.1, hlen, iteratedDeriv_cosine]
    field_simp

/-- The second derivative of order 4 at the frequency 1/2. -/
example : ∃ f : Fir ℝ, Derivative.new 2 4 = .ok f ∧ ∀ n < 2, at0 [(1 : ℝ), 0] n = 1 * Real.cos (Real.pi * (1 / 2) * n + 0) := by
  refine ⟨_, rfl, ?_⟩
  intro n hn
  obtain rfl | rfl : n = 0 ∨ n = 1 := by omega
  · simp [at0]
  · rw [show Real.pi * (1 / 2) * ((1 : ℕ) : ℝ) + 0 = Real.pi / 2 by push_cast; ring, Real.cos_pi_div_two]; simp [at0]

/-- Pairs of derivatives in cascade which are again a derivative of the table. -/
def cascades : List ((ℤ × ℤ) × (ℤ × ℤ)) :=
  [((1, 1), (1, 1)), ((1, 2), (1, 2)), ((1, 2), (1, 4)), ((1, 4), (1, 4)), ((1, 2), (2, 2)), ((1, 2), (2, 4)), ((1, 2), (2, 6)), ((1, 4), (2, 4))]

set_option maxHeartbeats 1000000 in
theorem cascade_tables {K : Type*} [Field K] [CharZero K] (p q : ℤ × ℤ) (h : (p, q) ∈ cascades) :
    ∃ b c u : List K, Derivative.table p.1 p.2 = some b ∧ Derivative.table q.1 q.2 = some c ∧ Derivative.table (p.1 + q.1) (p.2 + q.2) = some u ∧ b ≠ [] ∧ c ≠ [] ∧ u ≠ [] ∧
      u.length + 1 = b.length + c.length ∧ ∀ n < u.length, at0 u n = conv b c n := by
  simp only [cascades, List.mem_cons, List.not_mem_nil, or_false, Prod.mk.injEq] at h
  rcases h with ⟨rfl, rfl⟩ | ⟨rfl, rfl⟩ | ⟨rfl, rfl⟩ | ⟨rfl, rfl⟩ | ⟨rfl, rfl⟩ | ⟨rfl, rfl⟩ | ⟨rfl, rfl⟩ | ⟨rfl, rfl⟩ <;>
    refine ⟨_, _, _, rfl, rfl, rfl, by simp [scaled], by simp [scaled], by simp [scaled], rfl, ?_⟩ <;> intro n hn <;> simp only [scaled, List.length_map, List.length_cons, List.length_nil] at hn <;>
    interval_cases n <;> norm_num [conv, sum_range_succ, at0, scaled]

theorem conv_swap {K : Type*} [Field K] (b c : List K) (n : ℕ) : conv b c n = conv c b n := by
  unfold conv
  rw [← sum_range_reflect]
  refine sum_congr rfl fun i hi => ?_
  have := mem_range.mp hi
  rw [show n + 1 - 1 - i = n - i by omega, show n - (n - i) = i by omega, mul_comm]

/-- C106: two derivatives in cascade are the derivative of the sum of derivatives and orders, for every signal, in either order. -/
theorem C106_cascade {K : Type*} [Field K] [CharZero K] (p q : ℤ × ℤ) (h : (p, q) ∈ cascades ∨ (q, p) ∈ cascades) (x : List K) (hx : x ≠ []) :
    ∃ f g e y z f' g' e', Derivative.new p.1 p.2 = .ok f ∧ Derivative.new q.1 q.2 = .ok g ∧ Derivative.new (p.1 + q.1) (p.2 + q.2) = .ok e ∧
      f.filter x = (.ok y, f') ∧ g.filter y = (.ok z, g') ∧ e.filter x = (.ok z, e') := by
  obtain ⟨b, c, u, h1, h2, h3, n1, n2, n3, hl, hu⟩ : ∃ b c u : List K, Derivative.table p.1 p.2 = some b ∧ Derivative.table q.1 q.2 = some c ∧ Derivative.table (p.1 + q.1) (p.2 + q.2) = some u ∧ b ≠ [] ∧ c ≠ [] ∧ u ≠ [] ∧
      u.length + 1 = b.length + c.length ∧ ∀ n < u.length, at0 u n = conv b c n := by
    rcases h with h | h
    · exact cascade_tables p q h
    · obtain ⟨b, c, u, h1, h2, h3, n1, n2, n3, hl, hu⟩ := cascade_tables (K := K) q p h
      exact ⟨c, b, u, h2, h1, by rw [add_comm p.1, add_comm p.2]; exact h3, n2, n1, n3, by omega, fun n hn => by rw [hu n hn, conv_swap]⟩
  have hu' : ∀ n, at0 u n = conv b c n := by
    intro n
    by_cases hn : n < u.length
    · exact hu n hn
    · rw [at0_of_le u n (by omega), conv]
      symm
      refine sum_eq_zero fun i hi => ?_
      have := mem_range.mp hi
      by_cases hb : i < b.length
      · rw [at0_of_le c (n - i) (by omega), mul_zero]
      · rw [at0_of_le b i (by omega), zero_mul]
  obtain ⟨f, g, e, y, z, f', g', e', k1, k2, k3, k4⟩ := C80_fir_cascade b c u n1 n2 n3 hu' x hx
  refine ⟨f, g, e, y, z, f', g', e', ?_, ?_, ?_, k4⟩
  · simp only [Derivative.new, h1, k1]
  · simp only [Derivative.new, h2, k2]
  · simp only [Derivative.new, h3, k3]

/-- The third derivative of order 8 is that of order 4 after the second of order 4. -/
example : ((1, 4), (2, 4)) ∈ cascades ∧ ((1 : ℤ) + 2, (4 : ℤ) + 4) = (3, 8) := by decide

/-- C106: one pair is not: the first derivative of order 4 after the second of order 2 is not the third of order 6. -/
theorem C106_not_cascade : ∃ (f g e : Fir ℚ) (y z v : List ℚ) (f' g' e' : Fir ℚ), Derivative.new 1 4 = .ok f ∧ Derivative.new 2 2 = .ok g ∧ Derivative.new 3 6 = .ok e ∧
    f.filter [1] = (.ok y, f') ∧ g.filter y = (.ok z, g') ∧ e.filter [1] = (.ok v, e') ∧ z ≠ v := by
  obtain ⟨f, y, f', h1, h2, h3, h4⟩ := C01_fir_convolution (scaled (1 / 12) [-1, 8, 0, -8, 1] : List ℚ) [1] (by simp [scaled]) (by simp)
  have hy : y = [-1 / 12] := by
    have := h4 0 (by simp)
    match y, h3 with
    | [a], _ => simpa [at0, scaled, neg_div] using this
  subst hy
  obtain ⟨g, z, g', k1, k2, k3, k4⟩ := C01_fir_convolution ([1, -2, 1] : List ℚ) [-1 / 12] (by simp) (by simp)
  obtain ⟨e, v, e', l1, l2, l3, l4⟩ := C01_fir_convolution (scaled (1 / 8) [1, 0, -3, 0, 3, 0, -1] : List ℚ) [1] (by simp [scaled]) (by simp)
  refine ⟨f, g, e, _, z, v, f', g', e', h1, k1, l1, h2, k2, l2, ?_⟩
  rintro rfl
  have a := k4 0 (by simp)
  have b := l4 0 (by simp)
  rw [a] at b
  norm_num [at0, scaled] at b

/-- C106: the integral of a first difference, and the first difference of an integral, both are the weighted average of the integral's window: for order 0 the signal itself. -/
theorem C106_inverse {K : Type*} [Field K] [CharZero K] [DecidableEq K] (N : ℤ) (g : Iir K) (hg : Integral.new N = .ok g) (x : List K) (hx : x ≠ []) :
    ∃ b f y z y' z' f1 g1 f2 g2, Integral.table N = some b ∧ Derivative.new 1 1 = .ok f ∧ f.filter x = (.ok y, f1) ∧ g.filter y = (.ok z, g1) ∧ g.filter x = (.ok y', g2) ∧ f.filter y' = (.ok z', f2) ∧
      z = z' ∧ z.length = x.length ∧ (∀ n < x.length, at0 z n = ∑ i ∈ range (n + 1), at0 b i * at0 x (n - i)) ∧ (N = 0 → z = x) := by
  obtain ⟨f, y, f1, h1, h2, h3, h4⟩ := C01_fir_convolution ([1, -1] : List K) x (by simp) hx
  have hy : y ≠ [] := by rintro rfl; simp at h3; exact hx (List.length_eq_zero_iff.mp h3.symm)
  obtain ⟨b, z, g1, k1, k2, k3, k4⟩ := C32_integral_increment N g hg y hy
  obtain ⟨b', y', g2, l1, l2, l3, l4⟩ := C32_integral_increment N g hg x hx
  rw [k1] at l1
  cases l1
  have hy' : y' ≠ [] := by rintro rfl; simp at l3; exact hx (List.length_eq_zero_iff.mp l3.symm)
  obtain ⟨f0, z', f2, m1, m2, m3, m4⟩ := C01_fir_convolution ([1, -1] : List K) y' (by simp) hy'
  rw [h1] at m1
  cases m1
  have hdiff : ∀ (u v : List K), v.length = u.length → (∀ n, n < u.length → v[n]? = some (∑ i ∈ range (n + 1), at0 [1, -1] i * at0 u (n - i))) → ∀ n < u.length, at0 v n = at0 u n - if n = 0 then 0 else at0 u (n - 1) := by
    intro u v _ h n hn
    rw [at0, List.getD, h n hn, Option.getD_some]
    rcases n with _ | n
    · simp [at0]
    · rw [if_neg (by omega), sum_range_succ', sum_range_succ', sum_eq_zero]
      · simp [at0]; ring
      · intro i _
        rw [at0_of_le [1, -1] (i + 1 + 1) (by simp), zero_mul]
  have dy := hdiff x y h3 h4
  have dz := hdiff y' z' m3 m4
  have hz : ∀ n < x.length, at0 z n = ∑ i ∈ range (n + 1), at0 b i * at0 x (n - i) := by
    intro n
    induction n with
    | zero => intro hn; rw [k4 0 (by omega)]; simp [dy 0 hn]
    | succ n ih =>
      intro hn
      rw [k4 _ (by omega), if_neg (by omega), Nat.add_sub_cancel, ih (by omega), sum_range_succ _ (n + 1), sum_range_succ _ (n + 1), Nat.sub_self, dy 0 (by omega), if_pos rfl, sub_zero, ← add_assoc, ← sum_add_distrib]
      congr 1
      refine sum_congr rfl fun i hi => ?_
      have := mem_range.mp hi
      rw [dy _ (by omega), if_neg (by omega), show n + 1 - i - 1 = n - i by omega]
      ring
  have hz' : ∀ n < x.length, at0 z' n = ∑ i ∈ range (n + 1), at0 b i * at0 x (n - i) := by
    intro n hn
    rw [dz n (by omega), l4 n hn]
    ring
  refine ⟨b, f, y, z, y', z', f1, g1, f2, g2, k1, h1, h2, k2, l2, m2, ?_, by omega, hz, ?_⟩
  · refine List.ext_getElem (by omega) fun n a c => ?_
    rw [← at0_of_lt _ _ a, ← at0_of_lt _ _ c, hz n (by omega), hz' n (by omega)]
  · rintro rfl
    cases k1
    refine List.ext_getElem (by omega) fun n a c => ?_
    rw [← at0_of_lt _ _ a, ← at0_of_lt _ _ c, hz n (by omega), sum_range_succ', sum_eq_zero]
    · simp [at0]
    · intro i _
      rw [at0_of_le [1] (i + 1) (by simp), zero_mul]

example : ∃ g : Iir ℚ, Integral.new 2 = .ok g := ⟨_, rfl⟩

end Verif.Props
