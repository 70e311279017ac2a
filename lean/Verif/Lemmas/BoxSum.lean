import Verif.Lemmas.PolyphaseBank

/- Partial sums of the sawtooth and of the square wave, as responses of centred rectangles (for C110). -/

namespace Verif

open Finset

/-- The integral from 0 to `x` of `∑_{n<N} cos((n-(N-1)/2) t)`. -/
noncomputable def boxSum : ℕ → ℝ → ℝ
  | 0, _ => 0
  | 1, x => x
  | N + 2, x => boxSum N x + 4 * Real.sin ((N + 1) * x / 2) / (N + 1)

/-- Sums of `N (boxSum N - π)` over `N` of one parity. -/
noncomputable def boxWeighted : ℕ → ℝ → ℝ
  | 0, _ => 0
  | 1, x => boxSum 1 x - Real.pi
  | N + 2, x => boxWeighted N x + (N + 2) * (boxSum (N + 2) x - Real.pi)

/-- Induction over one parity. -/
theorem parity_induction {P : ℕ → Prop} (h0 : P 0) (h1 : P 1) (h2 : ∀ N, P N → P (N + 2)) : ∀ N, P N
  | 0 => h0
  | 1 => h1
  | N + 2 => h2 N (parity_induction h0 h1 h2 N)

theorem boxSum_neg (N : ℕ) (x : ℝ) : boxSum N (-x) = -boxSum N x := by
  induction N using parity_induction with
  | h0 => simp [boxSum]
  | h1 => simp [boxSum]
  | h2 N ih =>
    simp only [boxSum]
    rw [ih, show ((N : ℝ) + 1) * -x / 2 = -(((N : ℝ) + 1) * x / 2) by ring, Real.sin_neg]
    ring

theorem boxSum_deriv (N : ℕ) (x : ℝ) (h : Real.sin (x / 2) ≠ 0) : HasDerivAt (boxSum N) (Real.sin (N * x / 2) / Real.sin (x / 2)) x := by
  induction N using parity_induction with
  | h0 =>
    have : boxSum 0 = fun _ => 0 := by funext y; simp [boxSum]
    rw [this]
    simpa using hasDerivAt_const x (0 : ℝ)
  | h1 =>
    have : boxSum 1 = fun y => y := by funext y; simp [boxSum]
    rw [this]
    have e : Real.sin ((1 : ℕ) * x / 2) / Real.sin (x / 2) = 1 := by rw [Nat.cast_one, one_mul, div_self h]
    rw [e]
    exact hasDerivAt_id x
  | h2 N ih =>
    have hN : ((N : ℝ) + 1) ≠ 0 := by positivity
    have d1 : HasDerivAt (fun y : ℝ => ((N : ℝ) + 1) * y / 2) (((N : ℝ) + 1) / 2) x := by
      simpa using ((hasDerivAt_id x).const_mul ((N : ℝ) + 1)).div_const 2
    have d2 := ih.add ((d1.sin.const_mul 4).div_const ((N : ℝ) + 1))
    have : boxSum (N + 2) = boxSum N + fun y => 4 * Real.sin ((N + 1) * y / 2) / (N + 1) := by
      funext y; simp [boxSum]
    rw [this]
    refine d2.congr_deriv ?_
    push_cast
    have e1 : ((N : ℝ) + 2) * x / 2 = (N + 1) * x / 2 + x / 2 := by ring
    have e2 : (N : ℝ) * x / 2 = (N + 1) * x / 2 - x / 2 := by ring
    rw [e1, e2, Real.sin_add, Real.sin_sub]
    field_simp
    ring

/-- The number of terms bounds the slope. -/
theorem boxSum_abs_le (N : ℕ) (x : ℝ) (hx : 0 ≤ x) : |boxSum N x| ≤ N * x := by
  induction N using parity_induction with
  | h0 => simp [boxSum]
  | h1 => simp [boxSum, abs_of_nonneg hx]
  | h2 N ih =>
    simp only [boxSum]
    have h1 : |4 * Real.sin ((N + 1) * x / 2) / (N + 1)| ≤ 2 * x := by
      rw [abs_div, abs_mul, abs_of_pos (by positivity : (0 : ℝ) < 4), abs_of_pos (by positivity : (0 : ℝ) < (N : ℝ) + 1), div_le_iff₀ (by positivity)]
      have := Real.abs_sin_le_abs (x := (N + 1) * x / 2)
      rw [abs_of_nonneg (by positivity : 0 ≤ ((N : ℝ) + 1) * x / 2)] at this
      linarith
    have h2 := abs_add_le (boxSum N x) (4 * Real.sin ((N + 1) * x / 2) / (N + 1))
    push_cast
    linarith

theorem boxSum_odd (n : ℕ) (x : ℝ) : boxSum (2 * n + 1) x = x + 2 * ∑ k ∈ range n, Real.sin ((k + 1 : ℝ) * x) / (k + 1) := by
  induction n with
  | zero => simp [boxSum]
  | succ n ih =>
    rw [show 2 * (n + 1) + 1 = (2 * n + 1) + 2 by ring, boxSum, ih, sum_range_succ]
    push_cast
    rw [show (2 * (n : ℝ) + 1 + 1) * x / 2 = (n + 1) * x by ring]
    have : ((n : ℝ) + 1) ≠ 0 := by positivity
    field_simp
    ring

theorem boxSum_even (n : ℕ) (x : ℝ) : boxSum (2 * n) x = 2 * squareSum n x := by
  induction n with
  | zero => simp [boxSum, squareSum]
  | succ n ih =>
    rw [show 2 * (n + 1) = 2 * n + 2 by ring, boxSum, ih]
    unfold squareSum
    rw [sum_range_succ]
    push_cast
    rw [show (2 * (n : ℝ) + 1) * x / 2 = (n + 1 / 2) * x by ring]
    generalize Real.sin ((n + 1 / 2) * x) = a
    generalize ∑ k ∈ range n, Real.sin ((k + 1 / 2) * x) / (k + 1 / 2) = b
    have : ((n : ℝ) + 1 / 2) ≠ 0 := by positivity
    have : (2 * (n : ℝ) + 1) ≠ 0 := by positivity
    field_simp
    ring

/-- Reflection about π. -/
theorem boxSum_reflect_odd (n : ℕ) (x : ℝ) : boxSum (2 * n + 1) (2 * Real.pi - x) = 2 * Real.pi - boxSum (2 * n + 1) x := by
  rw [boxSum_odd, boxSum_odd]
  have : ∑ k ∈ range n, Real.sin ((k + 1 : ℝ) * (2 * Real.pi - x)) / (k + 1) = -∑ k ∈ range n, Real.sin ((k + 1 : ℝ) * x) / (k + 1) := by
    rw [← sum_neg_distrib]
    apply sum_congr rfl
    intro k _
    have := Real.sin_nat_mul_two_pi_sub ((k + 1 : ℝ) * x) (k + 1)
    rw [show (k + 1 : ℝ) * (2 * Real.pi - x) = ((k + 1 : ℕ) : ℝ) * (2 * Real.pi) - (k + 1 : ℝ) * x by push_cast; ring, this, neg_div]
  rw [this]; ring

theorem boxSum_reflect_even (n : ℕ) (x : ℝ) : boxSum (2 * n) (2 * Real.pi - x) = boxSum (2 * n) x := by
  rw [boxSum_even, boxSum_even]
  unfold squareSum
  congr 1
  apply sum_congr rfl
  intro k _
  congr 1
  rw [show ((k : ℝ) + 1 / 2) * (2 * Real.pi - x) = Real.pi - ((k : ℝ) + 1 / 2) * x + (k : ℝ) * (2 * Real.pi) by ring, Real.sin_add_nat_mul_two_pi, Real.sin_pi_sub]

theorem boxSum_pi_odd (n : ℕ) : boxSum (2 * n + 1) Real.pi = Real.pi := by
  rw [boxSum_odd]
  have : ∑ k ∈ range n, Real.sin ((k + 1 : ℝ) * Real.pi) / (k + 1) = 0 := by
    apply sum_eq_zero
    intro k _
    have := Real.sin_nat_mul_pi (k + 1)
    push_cast at this
    rw [this, zero_div]
  rw [this]; ring

/-- What is missing from π at π, with the alternating sign removed. -/
noncomputable def boxMiss (K : ℕ) : ℝ := (-1) ^ K * (Real.pi - boxSum (2 * K) Real.pi)

theorem sin_half_odd (K : ℕ) : Real.sin ((2 * K + 1) * Real.pi / 2) = (-1) ^ K := by
  rw [show (2 * (K : ℝ) + 1) * Real.pi / 2 = Real.pi / 2 + K * Real.pi by ring, Real.sin_add_nat_mul_pi, Real.sin_pi_div_two, mul_one]

theorem boxMiss_succ (K : ℕ) : boxMiss (K + 1) = 4 / (2 * K + 1) - boxMiss K := by
  unfold boxMiss
  rw [show 2 * (K + 1) = 2 * K + 2 by ring, boxSum]
  push_cast
  rw [sin_half_odd, pow_succ]
  have : ((-1 : ℝ) ^ K) * (-1) ^ K = 1 := by rw [← mul_pow]; norm_num
  linear_combination (4 / (2 * K + 1) : ℝ) * this

theorem boxMiss_tendsto : Filter.Tendsto boxMiss Filter.atTop (nhds 0) := by
  have hl := Real.tendsto_sum_pi_div_four
  have h1 : Filter.Tendsto (fun K => Real.pi - boxSum (2 * K) Real.pi) Filter.atTop (nhds 0) := by
    have h2 := (hl.const_mul 4).const_sub Real.pi
    rw [show Real.pi - 4 * (Real.pi / 4) = 0 by ring] at h2
    refine h2.congr fun K => ?_
    congr 1
    rw [boxSum_even]
    unfold squareSum
    rw [mul_sum, mul_sum]
    apply sum_congr rfl
    intro k _
    rw [show ((k : ℝ) + 1 / 2) * Real.pi = (2 * k + 1) * Real.pi / 2 by ring, sin_half_odd]
    have : (2 * (k : ℝ) + 1) ≠ 0 := by positivity
    have : ((k : ℝ) + 1 / 2) ≠ 0 := by positivity
    field_simp
    ring
  rw [tendsto_zero_iff_abs_tendsto_zero] at h1 ⊢
  refine h1.congr fun K => ?_
  simp [boxMiss, abs_mul]

theorem nonneg_of_steps (d : ℕ → ℝ) (h : ∀ K, 1 ≤ K → d (K + 2) ≤ d K) (ht : Filter.Tendsto d Filter.atTop (nhds 0)) (K : ℕ) (hK : 1 ≤ K) : 0 ≤ d K := by
  have h1 : ∀ j, d (K + 2 * j) ≤ d K := by
    intro j
    induction j with
    | zero => simp
    | succ j ih => exact (h (K + 2 * j) (by omega)).trans ih
  have h2 : Filter.Tendsto (fun j : ℕ => K + 2 * j) Filter.atTop Filter.atTop := by
    apply Filter.tendsto_atTop_mono (f := fun j : ℕ => j) (fun j => by omega) Filter.tendsto_id
  exact le_of_tendsto' (ht.comp h2) h1

theorem boxMiss_bounds (K : ℕ) (hK : 1 ≤ K) : 2 / (2 * K + 1) ≤ boxMiss K ∧ boxMiss K ≤ 1 / K := by
  have hstep : ∀ K, boxMiss (K + 2) = 4 / (2 * K + 3) - 4 / (2 * K + 1) + boxMiss K := by
    intro K
    rw [boxMiss_succ (K + 1), boxMiss_succ K]
    push_cast
    ring
  have hlim : ∀ b : ℝ, Filter.Tendsto (fun K : ℕ => 1 / ((K : ℝ) + b)) Filter.atTop (nhds 0) := by
    intro b
    have : Filter.Tendsto (fun K : ℕ => (K : ℝ) + b) Filter.atTop Filter.atTop := Filter.tendsto_atTop_add_const_right _ _ tendsto_natCast_atTop_atTop
    refine this.inv_tendsto_atTop.congr fun K => ?_
    simp
  constructor
  · have := nonneg_of_steps (fun K => boxMiss K - 1 / ((K : ℝ) + 1 / 2)) ?_ ?_ K hK
    · have e : (2 : ℝ) / (2 * K + 1) = 1 / ((K : ℝ) + 1 / 2) := by
        have : (2 * (K : ℝ) + 1) ≠ 0 := by positivity
        have : ((K : ℝ) + 1 / 2) ≠ 0 := by positivity
        field_simp
      rw [e]; linarith
    · intro K hK
      rw [hstep]
      push_cast
      have : (4 : ℝ) / (2 * K + 1) - 4 / (2 * K + 3) - (1 / ((K : ℝ) + 1 / 2) - 1 / ((K : ℝ) + 2 + 1 / 2)) = 16 / ((2 * K + 1) * (2 * K + 3) * (2 * K + 5)) := by
        have : ((K : ℝ) + 1 / 2) ≠ 0 := by positivity
        have : ((K : ℝ) + 2 + 1 / 2) ≠ 0 := by positivity
        field_simp
        ring
      have : (0 : ℝ) < 16 / ((2 * K + 1) * (2 * K + 3) * (2 * K + 5)) := by positivity
      linarith
    · simpa using boxMiss_tendsto.sub (hlim (1 / 2))
  · have := nonneg_of_steps (fun K => 1 / ((K : ℝ) + 0) - boxMiss K) ?_ ?_ K hK
    · simp only [add_zero] at this; linarith
    · intro K hK
      rw [hstep]
      push_cast
      have hK' : (0 : ℝ) < K := by exact_mod_cast hK
      have : 1 / ((K : ℝ) + 0) - 1 / ((K : ℝ) + 2 + 0) - (4 / (2 * K + 1) - 4 / (2 * K + 3)) = 6 / (K * (K + 2) * (2 * K + 1) * (2 * K + 3)) := by
        simp only [add_zero]
        field_simp
        ring
      have : (0 : ℝ) < 6 / (K * (K + 2) * (2 * K + 1) * (2 * K + 3)) := by positivity
      linarith
    · simpa using (hlim 0).sub boxMiss_tendsto

/-- The distance from π, for every `x` in (0, π]. -/
theorem boxSum_near_le (N : ℕ) (hN : 0 < N) (x : ℝ) (hx : 0 < x) (hx' : x ≤ Real.pi) : |boxSum N x - Real.pi| ≤ 4 / (N * Real.sin (x / 2)) := by
  have hpi := Real.pi_pos
  have hn' : (0 : ℝ) < N := by exact_mod_cast hN
  have hsin : ∀ y, x ≤ y → y ≤ Real.pi → 0 < Real.sin (y / 2) := fun y h1 h2 => Real.sin_pos_of_pos_of_lt_pi (by linarith) (by linarith)
  have hcos : ∀ y, x ≤ y → y ≤ Real.pi → 0 ≤ Real.cos (y / 2) := fun y h1 h2 => Real.cos_nonneg_of_mem_Icc ⟨by linarith, by linarith⟩
  have hder : ∀ e y : ℝ, x ≤ y → y ≤ Real.pi → HasDerivAt (fun y : ℝ => boxSum N y + 2 * (Real.cos (N * y / 2) + e) / (N * Real.sin (y / 2)))
      (-(Real.cos (N * y / 2) + e) * Real.cos (y / 2) / (N * Real.sin (y / 2) ^ 2)) y := by
    intro e y h1 h2
    have hs := (hsin y h1 h2).ne'
    have d1 : HasDerivAt (fun y : ℝ => (N : ℝ) * y / 2) ((N : ℝ) / 2) y := by simpa using ((hasDerivAt_id y).const_mul (N : ℝ)).div_const 2
    have d2 : HasDerivAt (fun y : ℝ => y / 2) (1 / 2) y := (hasDerivAt_id y).div_const 2
    have d3 := ((d1.cos.add_const e).const_mul 2).div (d2.sin.const_mul (N : ℝ)) (by positivity)
    refine ((boxSum_deriv N y hs).add d3).congr_deriv ?_
    field_simp
    ring
  have hcont : ∀ e : ℝ, ContinuousOn (fun y : ℝ => boxSum N y + 2 * (Real.cos (N * y / 2) + e) / (N * Real.sin (y / 2))) (Set.Icc x Real.pi) :=
    fun e y hy => (hder e y hy.1 hy.2).continuousAt.continuousWithinAt
  have hint : interior (Set.Icc x Real.pi) = Set.Ioo x Real.pi := interior_Icc
  have hmono : MonotoneOn (fun y : ℝ => boxSum N y + 2 * (Real.cos (N * y / 2) + -1) / (N * Real.sin (y / 2))) (Set.Icc x Real.pi) := by
    apply monotoneOn_of_deriv_nonneg (convex_Icc _ _) (hcont (-1))
    · intro y hy
      rw [hint] at hy
      exact (hder (-1) y hy.1.le hy.2.le).differentiableAt.differentiableWithinAt
    · intro y hy
      rw [hint] at hy
      rw [(hder (-1) y hy.1.le hy.2.le).deriv]
      apply div_nonneg _ (by positivity)
      exact mul_nonneg (by linarith [Real.cos_le_one (N * y / 2)]) (hcos y hy.1.le hy.2.le)
  have hanti : AntitoneOn (fun y : ℝ => boxSum N y + 2 * (Real.cos (N * y / 2) + 1) / (N * Real.sin (y / 2))) (Set.Icc x Real.pi) := by
    apply antitoneOn_of_deriv_nonpos (convex_Icc _ _) (hcont 1)
    · intro y hy
      rw [hint] at hy
      exact (hder 1 y hy.1.le hy.2.le).differentiableAt.differentiableWithinAt
    · intro y hy
      rw [hint] at hy
      rw [(hder 1 y hy.1.le hy.2.le).deriv]
      apply div_nonpos_of_nonpos_of_nonneg _ (by positivity)
      exact mul_nonpos_of_nonpos_of_nonneg (by linarith [Real.neg_one_le_cos (N * y / 2)]) (hcos y hy.1.le hy.2.le)
  have m1 := hmono (Set.left_mem_Icc.mpr hx') (Set.right_mem_Icc.mpr hx') hx'
  have m2 := hanti (Set.left_mem_Icc.mpr hx') (Set.right_mem_Icc.mpr hx') hx'
  simp only [Real.sin_pi_div_two, mul_one] at m1 m2
  have hsx := hsin x le_rfl hx'
  have hD : 0 < N * Real.sin (x / 2) := by positivity
  have b3 : (-4 : ℝ) / (N * Real.sin (x / 2)) ≤ 2 * (Real.cos (N * x / 2) + -1) / (N * Real.sin (x / 2)) :=
    div_le_div_of_nonneg_right (by linarith [Real.neg_one_le_cos (N * x / 2)]) hD.le
  have b4 : 2 * (Real.cos (N * x / 2) + 1) / (N * Real.sin (x / 2)) ≤ 4 / (N * Real.sin (x / 2)) :=
    div_le_div_of_nonneg_right (by linarith [Real.cos_le_one (N * x / 2)]) hD.le
  rw [neg_div] at b3
  have hend : boxSum N Real.pi + 2 * (Real.cos (N * Real.pi / 2) + -1) / N ≤ Real.pi ∧ Real.pi ≤ boxSum N Real.pi + 2 * (Real.cos (N * Real.pi / 2) + 1) / N := by
    rcases Nat.even_or_odd' N with ⟨K, rfl | rfl⟩
    · have hK : 1 ≤ K := by omega
      have hK' : (1 : ℝ) ≤ K := by exact_mod_cast hK
      obtain ⟨q1, q2⟩ := boxMiss_bounds K hK
      push_cast
      rw [show 2 * (K : ℝ) * Real.pi / 2 = K * Real.pi by ring, Real.cos_nat_mul_pi]
      have q0 : 0 ≤ boxMiss K := le_trans (by positivity) q1
      unfold boxMiss at q0 q2
      rcases neg_one_pow_eq_or ℝ K with h | h
      · rw [h] at q0 q2 ⊢
        have : 2 * ((1 : ℝ) + 1) / (2 * K) = 2 * (1 / K) := by field_simp; norm_num
        have : 0 < 1 / (K : ℝ) := by positivity
        constructor
        · norm_num; linarith
        · linarith
      · rw [h] at q0 q2 ⊢
        have : 2 * ((-1 : ℝ) + -1) / (2 * K) = - (2 * (1 / K)) := by field_simp; norm_num
        have : 0 < 1 / (K : ℝ) := by positivity
        constructor
        · linarith
        · norm_num; linarith
    · rw [boxSum_pi_odd]
      constructor
      · have : 2 * (Real.cos (((2 * K + 1 : ℕ) : ℝ) * Real.pi / 2) + -1) / ((2 * K + 1 : ℕ) : ℝ) ≤ 0 :=
          div_nonpos_of_nonpos_of_nonneg (by linarith [Real.cos_le_one (((2 * K + 1 : ℕ) : ℝ) * Real.pi / 2)]) (by positivity)
        linarith
      · have : 0 ≤ 2 * (Real.cos (((2 * K + 1 : ℕ) : ℝ) * Real.pi / 2) + 1) / ((2 * K + 1 : ℕ) : ℝ) :=
          div_nonneg (by linarith [Real.neg_one_le_cos (((2 * K + 1 : ℕ) : ℝ) * Real.pi / 2)]) (by positivity)
        linarith
  rw [abs_le]
  constructor <;> linarith [hend.1, hend.2]

/-- Reflection keeps the distance from π. -/
theorem boxSum_reflect (N : ℕ) (x : ℝ) : |boxSum N (2 * Real.pi - x) - Real.pi| = |boxSum N x - Real.pi| := by
  rcases Nat.even_or_odd' N with ⟨K, rfl | rfl⟩
  · rw [boxSum_reflect_even]
  · rw [boxSum_reflect_odd, ← abs_neg]
    congr 1; ring

theorem sin_reflect (x : ℝ) : Real.sin ((2 * Real.pi - x) / 2) = Real.sin (x / 2) := by
  rw [show (2 * Real.pi - x) / 2 = Real.pi - x / 2 by ring, Real.sin_pi_sub]

theorem boxSum_near (N : ℕ) (hN : 0 < N) (x : ℝ) (hx : 0 < x) (hx' : x < 2 * Real.pi) : |boxSum N x - Real.pi| ≤ 4 / (N * Real.sin (x / 2)) := by
  rcases le_total x Real.pi with h | h
  · exact boxSum_near_le N hN x hx h
  · rw [← boxSum_reflect, ← sin_reflect]
    exact boxSum_near_le N hN _ (by linarith) (by linarith)

/-- A bound for all arguments. -/
theorem boxSum_le (N : ℕ) (x : ℝ) (hx : 0 ≤ x) (hx' : x ≤ 2 * Real.pi) : |boxSum N x| ≤ 2 * Real.pi := by
  have hpi := Real.pi_gt_three
  rcases Nat.eq_zero_or_pos N with rfl | hN
  · simp [boxSum]; linarith
  have hn' : (0 : ℝ) < N := by exact_mod_cast hN
  have key : ∀ y, 0 ≤ y → y ≤ Real.pi → |boxSum N y - Real.pi| ≤ Real.pi ∨ |boxSum N y| ≤ 4 := by
    intro y hy hy'
    rcases eq_or_lt_of_le hy with h0 | h0
    · right
      have := boxSum_abs_le N y hy
      rw [← h0, mul_zero] at this
      rw [← h0]; linarith
    have hs : 0 < Real.sin (y / 2) := Real.sin_pos_of_pos_of_lt_pi (by linarith) (by linarith)
    by_cases hc : 4 ≤ N * Real.sin (y / 2) * Real.pi
    · left
      refine (boxSum_near_le N hN y h0 hy').trans ?_
      rw [div_le_iff₀ (by positivity)]
      linarith
    · right
      refine (boxSum_abs_le N y hy).trans ?_
      have : y ≤ Real.pi * Real.sin (y / 2) := by
        have := Real.mul_le_sin (x := y / 2) (by linarith) (by linarith)
        rw [show 2 / Real.pi * (y / 2) = y / Real.pi by ring, div_le_iff₀ (by linarith)] at this
        linarith
      nlinarith
  have habs : ∀ z : ℝ, |z - Real.pi| ≤ Real.pi → |z| ≤ 2 * Real.pi := by
    intro z hz
    rw [abs_le] at hz ⊢
    constructor <;> linarith
  rcases le_total x Real.pi with h | h
  · rcases key x hx h with h1 | h1
    · exact habs _ h1
    · linarith
  · rcases key (2 * Real.pi - x) (by linarith) (by linarith) with h1 | h1
    · rw [boxSum_reflect] at h1
      exact habs _ h1
    · rcases Nat.even_or_odd' N with ⟨K, rfl | rfl⟩
      · rw [boxSum_reflect_even] at h1; linarith
      · have h2 : 0 ≤ boxSum (2 * K + 1) (2 * Real.pi - x) := by
          rw [boxSum_odd]
          have := fejer_jackson K (2 * Real.pi - x) (by linarith) (by linarith)
          linarith
        rw [boxSum_reflect_odd] at h1 h2
        rw [abs_le] at h1 ⊢
        constructor <;> linarith

theorem boxWeighted_even (K : ℕ) :
    boxWeighted (2 * K) Real.pi = ((K : ℝ) + 1 / 2) ^ 2 * (boxSum (2 * K) Real.pi - Real.pi) + (-1) ^ K * K + Real.pi / 4 := by
  induction K with
  | zero => simp [boxWeighted, boxSum]; ring
  | succ K ih =>
    rw [show 2 * (K + 1) = 2 * K + 2 by ring, boxWeighted, ih, boxSum]
    push_cast
    rw [sin_half_odd, pow_succ]
    field_simp
    ring

theorem boxWeighted_odd (K : ℕ) : boxWeighted (2 * K + 1) Real.pi = 0 := by
  induction K with
  | zero => simp [boxWeighted, boxSum]
  | succ K ih =>
    rw [show 2 * (K + 1) + 1 = (2 * K + 1) + 2 by ring, boxWeighted, ih, show (2 * K + 1) + 2 = 2 * (K + 1) + 1 by ring, boxSum_pi_odd]
    ring

theorem boxWeighted_reflect (N : ℕ) (x : ℝ) : |boxWeighted N (2 * Real.pi - x)| = |boxWeighted N x| := by
  rcases Nat.even_or_odd' N with ⟨K, rfl | rfl⟩
  · congr 1
    induction K with
    | zero => simp [boxWeighted]
    | succ K ih =>
      rw [show 2 * (K + 1) = 2 * K + 2 by ring, boxWeighted, boxWeighted, ih, show 2 * K + 2 = 2 * (K + 1) by ring, boxSum_reflect_even]
  · rw [← abs_neg (boxWeighted _ x)]
    congr 1
    induction K with
    | zero => simp [boxWeighted, boxSum]; ring
    | succ K ih =>
      rw [show 2 * (K + 1) + 1 = (2 * K + 1) + 2 by ring, boxWeighted, boxWeighted, ih, show (2 * K + 1) + 2 = 2 * (K + 1) + 1 by ring, boxSum_reflect_odd]
      push_cast
      ring

theorem boxWeighted_deriv (N : ℕ) (x : ℝ) (h : Real.sin (x / 2) ≠ 0) :
    HasDerivAt (fun y => boxWeighted N y + Real.sin ((N + 1) * y / 2) / Real.sin (y / 2) ^ 2)
      (-(Real.sin ((N + 1) * x / 2) * Real.cos (x / 2)) / (2 * Real.sin (x / 2) ^ 3)) x := by
  have d2 : HasDerivAt (fun y : ℝ => y / 2) (1 / 2) x := (hasDerivAt_id x).div_const 2
  have d1 : ∀ a : ℝ, HasDerivAt (fun y : ℝ => a * y / 2) (a / 2) x := fun a => by simpa using ((hasDerivAt_id x).const_mul a).div_const 2
  have hsq := d2.sin.pow 2
  induction N using parity_induction with
  | h0 =>
    have := (hasDerivAt_const x (0 : ℝ)).add ((d1 (((0 : ℕ) : ℝ) + 1)).sin.div hsq (pow_ne_zero 2 h))
    refine HasDerivAt.congr_deriv (f := fun y => boxWeighted 0 y + Real.sin ((((0 : ℕ) : ℝ) + 1) * y / 2) / Real.sin (y / 2) ^ 2) (this.congr_of_eventuallyEq (Filter.Eventually.of_forall fun y => ?_)) ?_
    · simp [boxWeighted]
    · simp only [Nat.cast_zero, zero_add, one_mul, Pi.pow_apply]
      field_simp
      norm_num
      ring
  | h1 =>
    have := ((hasDerivAt_id x).sub_const Real.pi).add ((d1 (((1 : ℕ) : ℝ) + 1)).sin.div hsq (pow_ne_zero 2 h))
    refine HasDerivAt.congr_deriv (f := fun y => boxWeighted 1 y + Real.sin ((((1 : ℕ) : ℝ) + 1) * y / 2) / Real.sin (y / 2) ^ 2) (this.congr_of_eventuallyEq (Filter.Eventually.of_forall fun y => ?_)) ?_
    · simp [boxWeighted, boxSum]
    · simp only [Nat.cast_one, Pi.pow_apply]
      rw [show (1 + 1 : ℝ) * x / 2 = 2 * (x / 2) by ring, Real.sin_two_mul, Real.cos_two_mul]
      have hc : Real.cos (x / 2) ^ 2 = 1 - Real.sin (x / 2) ^ 2 := Real.cos_sq' _
      generalize Real.cos (x / 2) = c at *
      generalize Real.sin (x / 2) = s at *
      field_simp
      norm_num
      linear_combination (2 * s) * hc
  | h2 N ih =>
    have d3 := ((d1 ((N : ℝ) + 2)).cos.const_mul 2).div d2.sin h
    have d4 := ((boxSum_deriv (N + 2) x h).sub_const Real.pi).const_mul ((N : ℝ) + 2)
    have := (ih.add d4).add d3
    have hs : ∀ᶠ y in nhds x, Real.sin (y / 2) ≠ 0 := by
      have : ContinuousAt (fun y : ℝ => Real.sin (y / 2)) x := by fun_prop
      exact this.eventually_ne h
    refine HasDerivAt.congr_deriv (f := fun y => boxWeighted (N + 2) y + Real.sin ((((N + 2 : ℕ) : ℝ) + 1) * y / 2) / Real.sin (y / 2) ^ 2) (this.congr_of_eventuallyEq (hs.mono fun y hy => ?_)) ?_
    · simp only [boxWeighted, Pi.add_apply]
      push_cast
      rw [show ((N : ℝ) + 2 + 1) * y / 2 = (N + 2) * y / 2 + y / 2 by ring, show ((N : ℝ) + 1) * y / 2 = (N + 2) * y / 2 - y / 2 by ring, Real.sin_add, Real.sin_sub]
      simp only [Pi.div_apply]
      generalize boxWeighted N y = w
      generalize boxSum (N + 2) y = v
      field_simp
      ring
    · push_cast
      rw [show ((N : ℝ) + 2 + 1) * x / 2 = (N + 2) * x / 2 + x / 2 by ring, show ((N : ℝ) + 1) * x / 2 = (N + 2) * x / 2 - x / 2 by ring, Real.sin_add, Real.sin_sub]
      field_simp
      ring

theorem boxWeighted_le (N : ℕ) (x : ℝ) (hx : 0 < x) (hx' : x ≤ Real.pi) : |boxWeighted N x| ≤ 2.3 / Real.sin (x / 2) ^ 2 := by
  have hpi := Real.pi_pos
  have hsin : ∀ y, x ≤ y → y ≤ Real.pi → 0 < Real.sin (y / 2) := fun y h1 h2 => Real.sin_pos_of_pos_of_lt_pi (by linarith) (by linarith)
  have hcos : ∀ y, x ≤ y → y ≤ Real.pi → 0 ≤ Real.cos (y / 2) := fun y h1 h2 => Real.cos_nonneg_of_mem_Icc ⟨by linarith, by linarith⟩
  have hder : ∀ e y : ℝ, x ≤ y → y ≤ Real.pi → HasDerivAt
      (fun y : ℝ => boxWeighted N y + Real.sin ((N + 1) * y / 2) / Real.sin (y / 2) ^ 2 + e / (2 * Real.sin (y / 2) ^ 2))
      (-(Real.sin ((N + 1) * y / 2) + e) * Real.cos (y / 2) / (2 * Real.sin (y / 2) ^ 3)) y := by
    intro e y h1 h2
    have hs := (hsin y h1 h2).ne'
    have d2 : HasDerivAt (fun y : ℝ => y / 2) (1 / 2) y := (hasDerivAt_id y).div_const 2
    have d3 := (hasDerivAt_const y e).div ((d2.sin.pow 2).const_mul 2) (mul_ne_zero two_ne_zero (pow_ne_zero 2 hs))
    refine ((boxWeighted_deriv N y hs).add d3).congr_deriv ?_
    simp only [Pi.pow_apply]
    field_simp
    norm_num
    ring
  have hcont : ∀ e : ℝ, ContinuousOn (fun y : ℝ => boxWeighted N y + Real.sin ((N + 1) * y / 2) / Real.sin (y / 2) ^ 2 + e / (2 * Real.sin (y / 2) ^ 2)) (Set.Icc x Real.pi) :=
    fun e y hy => (hder e y hy.1 hy.2).continuousAt.continuousWithinAt
  have hint : interior (Set.Icc x Real.pi) = Set.Ioo x Real.pi := interior_Icc
  have hmono : MonotoneOn (fun y : ℝ => boxWeighted N y + Real.sin ((N + 1) * y / 2) / Real.sin (y / 2) ^ 2 + -1 / (2 * Real.sin (y / 2) ^ 2)) (Set.Icc x Real.pi) := by
    apply monotoneOn_of_deriv_nonneg (convex_Icc _ _) (hcont (-1))
    · intro y hy
      rw [hint] at hy
      exact (hder (-1) y hy.1.le hy.2.le).differentiableAt.differentiableWithinAt
    · intro y hy
      rw [hint] at hy
      rw [(hder (-1) y hy.1.le hy.2.le).deriv]
      have := hsin y hy.1.le hy.2.le
      apply div_nonneg _ (by positivity)
      exact mul_nonneg (by linarith [Real.sin_le_one ((N + 1) * y / 2)]) (hcos y hy.1.le hy.2.le)
  have hanti : AntitoneOn (fun y : ℝ => boxWeighted N y + Real.sin ((N + 1) * y / 2) / Real.sin (y / 2) ^ 2 + 1 / (2 * Real.sin (y / 2) ^ 2)) (Set.Icc x Real.pi) := by
    apply antitoneOn_of_deriv_nonpos (convex_Icc _ _) (hcont 1)
    · intro y hy
      rw [hint] at hy
      exact (hder 1 y hy.1.le hy.2.le).differentiableAt.differentiableWithinAt
    · intro y hy
      rw [hint] at hy
      rw [(hder 1 y hy.1.le hy.2.le).deriv]
      have := hsin y hy.1.le hy.2.le
      apply div_nonpos_of_nonpos_of_nonneg _ (by positivity)
      exact mul_nonpos_of_nonpos_of_nonneg (by linarith [Real.neg_one_le_sin ((N + 1) * y / 2)]) (hcos y hy.1.le hy.2.le)
  have m1 := hmono (Set.left_mem_Icc.mpr hx') (Set.right_mem_Icc.mpr hx') hx'
  have m2 := hanti (Set.left_mem_Icc.mpr hx') (Set.right_mem_Icc.mpr hx') hx'
  simp only [Real.sin_pi_div_two, one_pow, mul_one, div_one] at m1 m2
  have hsx := hsin x le_rfl hx'
  have hend : |boxWeighted N Real.pi + Real.sin ((N + 1) * Real.pi / 2)| ≤ 1.29 := by
    rcases Nat.even_or_odd' N with ⟨K, rfl | rfl⟩
    · rw [boxWeighted_even]
      push_cast
      rw [sin_half_odd]
      rcases Nat.eq_zero_or_pos K with rfl | hK
      · simp [boxSum]
        rw [abs_le]
        constructor <;> norm_num <;> linarith
      have hK' : (1 : ℝ) ≤ K := by exact_mod_cast hK
      obtain ⟨q1, q2⟩ := boxMiss_bounds K hK
      have r1 : (K : ℝ) + 1 / 2 ≤ ((K : ℝ) + 1 / 2) ^ 2 * boxMiss K := by
        have := mul_le_mul_of_nonneg_left q1 (by positivity : 0 ≤ ((K : ℝ) + 1 / 2) ^ 2)
        have e : ((K : ℝ) + 1 / 2) ^ 2 * (2 / (2 * K + 1)) = K + 1 / 2 := by field_simp
        linarith
      have r2 : ((K : ℝ) + 1 / 2) ^ 2 * boxMiss K ≤ K + 1.25 := by
        have := mul_le_mul_of_nonneg_left q2 (by positivity : 0 ≤ ((K : ℝ) + 1 / 2) ^ 2)
        have e : ((K : ℝ) + 1 / 2) ^ 2 * (1 / K) ≤ K + 1.25 := by
          rw [mul_one_div, div_le_iff₀ (by linarith)]
          nlinarith
        linarith
      have hp1 := Real.pi_gt_three
      have hp2 := Real.pi_lt_d2
      unfold boxMiss at r1 r2
      rw [abs_le]
      rcases neg_one_pow_eq_or ℝ K with h | h
      · rw [h] at r1 r2 ⊢
        constructor <;> norm_num at * <;> linarith
      · rw [h] at r1 r2 ⊢
        constructor <;> norm_num at * <;> linarith
    · rw [boxWeighted_odd]
      push_cast
      rw [show (2 * (K : ℝ) + 1 + 1) * Real.pi / 2 = ((K + 1 : ℕ) : ℝ) * Real.pi by push_cast; ring, Real.sin_nat_mul_pi]
      norm_num
  obtain ⟨i, hi⟩ : ∃ i, i = 1 / Real.sin (x / 2) ^ 2 := ⟨_, rfl⟩
  have hi1 : 1 ≤ i := by
    rw [hi, le_div_iff₀ (by positivity)]
    nlinarith [Real.sin_le_one (x / 2)]
  have e1 : Real.sin ((N + 1) * x / 2) / Real.sin (x / 2) ^ 2 = Real.sin ((N + 1) * x / 2) * i := by rw [hi]; ring
  have e2 : 1 / (2 * Real.sin (x / 2) ^ 2) = i / 2 := by rw [hi]; field_simp
  have e3 : -1 / (2 * Real.sin (x / 2) ^ 2) = -(i / 2) := by rw [neg_div, e2]
  have e4 : 2.3 / Real.sin (x / 2) ^ 2 = 2.3 * i := by rw [hi]; ring
  rw [e1, e2] at m2
  rw [e1, e3] at m1
  rw [e4]
  have t1 : Real.sin ((N + 1) * x / 2) * i ≤ i := by nlinarith [Real.sin_le_one ((N + 1) * x / 2)]
  have t2 : -i ≤ Real.sin ((N + 1) * x / 2) * i := by nlinarith [Real.neg_one_le_sin ((N + 1) * x / 2)]
  rw [abs_le] at hend ⊢
  constructor <;> norm_num at * <;> linarith [hend.1, hend.2]

/-- Sums over one parity stay bounded. -/
theorem boxWeighted_bound (N : ℕ) (x : ℝ) (hx : 0 < x) (hx' : x < 2 * Real.pi) : |boxWeighted N x| ≤ 2.3 / Real.sin (x / 2) ^ 2 := by
  rcases le_total x Real.pi with h | h
  · exact boxWeighted_le N x hx h
  · rw [← boxWeighted_reflect, ← sin_reflect]
    exact boxWeighted_le N _ (by linarith) (by linarith)

end Verif
