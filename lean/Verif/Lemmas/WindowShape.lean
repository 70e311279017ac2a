import Verif.Lemmas.BoxSum
import Mathlib.Analysis.Convex.Deriv
import Mathlib.Analysis.Convex.SpecificFunctions.Deriv
import Mathlib.Analysis.SpecialFunctions.Pow.Deriv

/- The windows as functions of the squared distance from their centre (for C110). -/

namespace Verif

open Finset

/-- A cosine window by its squared distance from the centre. -/
noncomputable def cosShape (a b c q : ℝ) : ℝ := a + b * Real.cos (Real.pi * Real.sqrt q) + c * Real.cos (2 * (Real.pi * Real.sqrt q))

/-- A window by its squared distance from the centre, in half widths. -/
noncomputable def window.shape (style : WStyle) (q : ℝ) : ℝ :=
  match style with
  | .blackman => cosShape 0.42 0.5 0.08 q
  | .hamming => cosShape 0.54 0.46 0 q
  | .hann => cosShape 0.5 0.5 0 q
  | .kaiser => window.i0 (7 * Real.sqrt (1 - q)) / window.i0 7

theorem window.value_shape (style : WStyle) (order n : ℕ) (ho : 0 < order) :
    window.value style (order + 1) n = window.shape style ((2 * ((n : ℝ) - order / 2) / order) ^ 2) := by
  have hor : (0 : ℝ) < order := by exact_mod_cast ho
  have hcos : ∀ a b c, window.cosine a b c (order + 1) n = cosShape a b c ((2 * ((n : ℝ) - order / 2) / order) ^ 2) := by
    intro a b c
    unfold window.cosine cosShape
    rw [Real.sqrt_sq_eq_abs]
    have e : -Real.pi + 2 * Real.pi * n / (((order + 1 : ℕ) : ℝ) - 1) = Real.pi * (2 * ((n : ℝ) - order / 2) / order) := by
      push_cast
      rw [add_sub_cancel_right]
      field_simp
      ring
    simp only [e]
    have habs : ∀ k z : ℝ, 0 < k → Real.cos (k * z) = Real.cos (k * |z|) := by
      intro k z hk
      rw [← Real.cos_abs (k * z), abs_mul, abs_of_pos hk]
    rw [habs Real.pi _ Real.pi_pos, ← mul_assoc 2, habs (2 * Real.pi) _ (by linarith [Real.pi_pos]), mul_assoc]
  unfold window.value window.shape
  rw [if_neg (by omega)]
  cases style
  · exact hcos _ _ _
  · exact hcos _ _ _
  · exact hcos _ _ _
  · simp only [window.kaiser]
    congr 5
    push_cast
    rw [add_sub_cancel_right]
    field_simp

theorem sinc_antitone (x y : ℝ) (hx : 0 < x) (h : x ≤ y) (hy : y ≤ Real.pi) : Real.sin y / y ≤ Real.sin x / x := by
  have hy0 : 0 < y := by linarith
  have hcv := strictConcaveOn_sin_Icc.concaveOn.2
  have := @hcv 0 ⟨le_rfl, Real.pi_pos.le⟩ y ⟨hy0.le, hy⟩ (1 - x / y) (x / y) (by rw [sub_nonneg, div_le_one hy0]; exact h) (by positivity) (by ring)
  simp only [smul_eq_mul, Real.sin_zero, mul_zero, zero_add] at this
  rw [div_mul_cancel₀ _ hy0.ne'] at this
  rw [div_le_div_iff₀ hy0 hx]
  rw [div_mul_eq_mul_div, div_le_iff₀ hy0] at this
  linarith

theorem cosShape_convex (a b c : ℝ) (hc : 0 ≤ c) (hb : 4 * c ≤ b) : ConvexOn ℝ (Set.Icc 0 1) (cosShape a b c) := by
  have hpi := Real.pi_pos
  have hint : interior (Set.Icc (0 : ℝ) 1) = Set.Ioo 0 1 := interior_Icc
  have hder : ∀ q, 0 < q → HasDerivAt (cosShape a b c)
      (-(Real.pi ^ 2 / 2) * (Real.sin (Real.pi * Real.sqrt q) / (Real.pi * Real.sqrt q) * (b + 4 * c * Real.cos (Real.pi * Real.sqrt q)))) q := by
    intro q hq
    have hs : 0 < Real.sqrt q := Real.sqrt_pos.mpr hq
    have d1 : HasDerivAt (fun q => Real.pi * Real.sqrt q) (Real.pi * (1 / (2 * Real.sqrt q))) q := (Real.hasDerivAt_sqrt hq.ne').const_mul Real.pi
    have d2 := ((d1.cos.const_mul b).const_add a).add (((d1.const_mul 2).cos).const_mul c)
    refine d2.congr_deriv ?_
    rw [Real.sin_two_mul]
    field_simp
    ring
  apply MonotoneOn.convexOn_of_deriv (convex_Icc 0 1)
  · unfold cosShape; fun_prop
  · intro q hq
    rw [hint] at hq
    exact (hder q hq.1).differentiableAt.differentiableWithinAt
  · intro q hq r hr hqr
    rw [hint] at hq hr
    rw [(hder q hq.1).deriv, (hder r hr.1).deriv]
    have hsq : 0 < Real.sqrt q := Real.sqrt_pos.mpr hq.1
    have hsqr : Real.sqrt q ≤ Real.sqrt r := Real.sqrt_le_sqrt hqr
    have hr1 : Real.sqrt r ≤ 1 := Real.sqrt_le_one.mpr hr.2.le
    have h1 := sinc_antitone (Real.pi * Real.sqrt q) (Real.pi * Real.sqrt r) (by positivity) (by nlinarith) (by nlinarith)
    have h2 : Real.cos (Real.pi * Real.sqrt r) ≤ Real.cos (Real.pi * Real.sqrt q) := Real.cos_le_cos_of_nonneg_of_le_pi (by positivity) (by nlinarith) (by nlinarith)
    have h3 : 0 ≤ Real.sin (Real.pi * Real.sqrt r) / (Real.pi * Real.sqrt r) :=
      div_nonneg (Real.sin_nonneg_of_nonneg_of_le_pi (by positivity) (by nlinarith)) (by positivity)
    have h4 := Real.neg_one_le_cos (Real.pi * Real.sqrt r)
    have h5 : b + 4 * c * Real.cos (Real.pi * Real.sqrt r) ≤ b + 4 * c * Real.cos (Real.pi * Real.sqrt q) := by nlinarith
    have h6 : 0 ≤ b + 4 * c * Real.cos (Real.pi * Real.sqrt r) := by nlinarith
    have := mul_le_mul h1 h5 h6 (h3.trans h1)
    nlinarith [sq_nonneg Real.pi]

theorem i0_terms (x : ℝ) (hx : 0 ≤ x) : window.i0 (7 * Real.sqrt x) = ∑' k : ℕ, (49 / 4 * x) ^ k / (k.factorial : ℝ) ^ 2 := by
  unfold window.i0
  congr 1
  funext k
  rw [div_pow, ← pow_mul, mul_comm k 2, pow_mul, div_pow, mul_pow, Real.sq_sqrt hx]
  norm_num
  ring_nf

theorem kaiser_summable (x : ℝ) (hx : 0 ≤ x) : Summable fun k : ℕ => (49 / 4 * x) ^ k / (k.factorial : ℝ) ^ 2 := by
  refine (window.i0_summable (7 * Real.sqrt x)).congr fun k => ?_
  rw [div_pow, ← pow_mul, mul_comm k 2, pow_mul, div_pow, mul_pow, Real.sq_sqrt hx]
  norm_num
  ring_nf

theorem kaiser_convex : ConvexOn ℝ (Set.Icc 0 1) (fun q => window.i0 (7 * Real.sqrt (1 - q)) / window.i0 7) := by
  have hi := window.i0_ge_one 7
  refine ⟨convex_Icc 0 1, ?_⟩
  intro x hx y hy a b ha hb hab
  simp only [smul_eq_mul]
  rw [← mul_div_assoc, ← mul_div_assoc, ← add_div]
  apply div_le_div_of_nonneg_right _ (by linarith)
  have hz : 0 ≤ 1 - (a * x + b * y) := by nlinarith [hx.2, hy.2]
  have hx1 : 0 ≤ 1 - x := by linarith [hx.2]
  have hy1 : 0 ≤ 1 - y := by linarith [hy.2]
  rw [i0_terms _ hz, i0_terms _ hx1, i0_terms _ hy1, ← tsum_mul_left, ← tsum_mul_left,
    ← ((kaiser_summable _ hx1).mul_left a).tsum_add ((kaiser_summable _ hy1).mul_left b)]
  apply (kaiser_summable _ hz).tsum_le_tsum _ (((kaiser_summable _ hx1).mul_left a).add ((kaiser_summable _ hy1).mul_left b))
  intro k
  have hcv := (convexOn_pow (𝕜 := ℝ) k).2
  have := @hcv (49 / 4 * (1 - x)) (by simp; nlinarith) (49 / 4 * (1 - y)) (by simp; nlinarith) a b ha hb hab
  simp only [smul_eq_mul] at this
  rw [show a * (49 / 4 * (1 - x)) + b * (49 / 4 * (1 - y)) = 49 / 4 * (1 - (a * x + b * y)) by linear_combination (49 / 4) * hab] at this
  rw [← mul_div_assoc, ← mul_div_assoc, ← add_div]
  exact div_le_div_of_nonneg_right this (by positivity)

theorem cosShape_slope (a b c q : ℝ) (hb : 0 ≤ b) (hc : 0 ≤ c) (hq : 0 ≤ q) : a + b + c - cosShape a b c q ≤ Real.pi ^ 2 / 2 * (b + 4 * c) * q := by
  unfold cosShape
  have h1 := Real.one_sub_sq_div_two_le_cos (x := Real.pi * Real.sqrt q)
  have h2 := Real.one_sub_sq_div_two_le_cos (x := 2 * (Real.pi * Real.sqrt q))
  have e : (Real.pi * Real.sqrt q) ^ 2 = Real.pi ^ 2 * q := by rw [mul_pow, Real.sq_sqrt hq]
  rw [mul_pow 2, e] at h2
  rw [e] at h1
  nlinarith

theorem kaiser_slope (q : ℝ) (hq : 0 ≤ q) (hq1 : q ≤ 1) : window.i0 7 - window.i0 (7 * Real.sqrt (1 - q)) ≤ 7 / 2 * q * window.i0 7 := by
  have h7 : window.i0 7 = ∑' k : ℕ, (49 / 4 * (1 : ℝ)) ^ k / (k.factorial : ℝ) ^ 2 := by
    rw [← i0_terms 1 (by norm_num)]; simp
  have hs1 := kaiser_summable 1 (by norm_num)
  have hsq := kaiser_summable (1 - q) (by linarith)
  -- the first moment of the terms
  have hterm : ∀ k : ℕ, (k : ℝ) * ((49 / 4 * (1 : ℝ)) ^ k / (k.factorial : ℝ) ^ 2) ≤
      7 / 4 * ((49 / 4 * (1 : ℝ)) ^ k / (k.factorial : ℝ) ^ 2 + (if k = 0 then 0 else (49 / 4 * (1 : ℝ)) ^ (k - 1) / ((k - 1).factorial : ℝ) ^ 2)) := by
    intro k
    rcases k with _ | k
    · simp; norm_num
    · simp only [Nat.succ_ne_zero, if_false, Nat.add_sub_cancel, mul_one]
      rw [Nat.factorial_succ, pow_succ]
      push_cast
      have hf : (0 : ℝ) < k.factorial := by exact_mod_cast k.factorial_pos
      have hk : (0 : ℝ) < (k : ℝ) + 1 := by positivity
      have hp : (0 : ℝ) < (49 / 4) ^ k := by positivity
      generalize (49 / 4 : ℝ) ^ k = P at *
      have e : ((k : ℝ) + 1) * (P * (49 / 4) / (((k : ℝ) + 1) * (k.factorial : ℝ)) ^ 2) = P / (k.factorial : ℝ) ^ 2 * (49 / 4 / ((k : ℝ) + 1)) := by field_simp
      have e2 : 7 / 4 * (P * (49 / 4) / (((k : ℝ) + 1) * (k.factorial : ℝ)) ^ 2 + P / (k.factorial : ℝ) ^ 2) = P / (k.factorial : ℝ) ^ 2 * (7 / 4 * (49 / 4 / ((k : ℝ) + 1) ^ 2 + 1)) := by field_simp
      rw [e, e2]
      apply mul_le_mul_of_nonneg_left _ (by positivity)
      have : 49 / 4 / ((k : ℝ) + 1) = 7 / 2 * (7 / 2 / ((k : ℝ) + 1)) := by ring
      have e3 : 49 / 4 / ((k : ℝ) + 1) ^ 2 = (7 / 2 / ((k : ℝ) + 1)) ^ 2 := by field_simp; norm_num
      rw [this, e3]
      nlinarith [sq_nonneg (7 / 2 / ((k : ℝ) + 1) - 1)]
  have hshift : Summable fun k : ℕ => (if k = 0 then (0 : ℝ) else (49 / 4 * (1 : ℝ)) ^ (k - 1) / ((k - 1).factorial : ℝ) ^ 2) := by
    rw [← summable_nat_add_iff 1]
    simpa using hs1
  have hmaj : Summable fun k : ℕ => 7 / 4 * ((49 / 4 * (1 : ℝ)) ^ k / (k.factorial : ℝ) ^ 2 + (if k = 0 then (0 : ℝ) else (49 / 4 * (1 : ℝ)) ^ (k - 1) / ((k - 1).factorial : ℝ) ^ 2)) :=
    (hs1.add hshift).mul_left _
  have hmom : Summable fun k : ℕ => (k : ℝ) * ((49 / 4 * (1 : ℝ)) ^ k / (k.factorial : ℝ) ^ 2) := Summable.of_nonneg_of_le (fun k => by positivity) hterm hmaj
  have hmoment : ∑' k : ℕ, (k : ℝ) * ((49 / 4 * (1 : ℝ)) ^ k / (k.factorial : ℝ) ^ 2) ≤ 7 / 2 * window.i0 7 := by
    refine (hmom.tsum_le_tsum hterm hmaj).trans ?_
    rw [tsum_mul_left, hs1.tsum_add hshift, hshift.tsum_eq_zero_add]
    simp only [if_true, zero_add, Nat.succ_ne_zero, if_false, Nat.add_sub_cancel, ← h7]
    linarith
  rw [i0_terms _ (by linarith : (0 : ℝ) ≤ 1 - q)]
  rw [sub_le_iff_le_add]
  calc window.i0 7 = ∑' k : ℕ, (49 / 4 * (1 : ℝ)) ^ k / (k.factorial : ℝ) ^ 2 := h7
    _ ≤ ∑' k : ℕ, (q * ((k : ℝ) * ((49 / 4 * (1 : ℝ)) ^ k / (k.factorial : ℝ) ^ 2)) + (49 / 4 * (1 - q)) ^ k / (k.factorial : ℝ) ^ 2) := by
        apply hs1.tsum_le_tsum _ ((hmom.mul_left q).add hsq)
        intro k
        have hb := one_add_mul_le_pow (a := -q) (by linarith) k
        rw [mul_pow, mul_pow, one_pow, mul_one]
        have hP : (0 : ℝ) ≤ (49 / 4) ^ k / (k.factorial : ℝ) ^ 2 := by positivity
        have e : (49 / 4 : ℝ) ^ k * (1 - q) ^ k / (k.factorial : ℝ) ^ 2 = (49 / 4) ^ k / (k.factorial : ℝ) ^ 2 * (1 + -q) ^ k := by ring
        rw [e]
        nlinarith [mul_le_mul_of_nonneg_left hb hP]
    _ = q * ∑' k : ℕ, (k : ℝ) * ((49 / 4 * (1 : ℝ)) ^ k / (k.factorial : ℝ) ^ 2) + ∑' k : ℕ, (49 / 4 * (1 - q)) ^ k / (k.factorial : ℝ) ^ 2 := by
        rw [(hmom.mul_left q).tsum_add hsq, tsum_mul_left]
    _ ≤ _ := by nlinarith

theorem window.shape_convex (style : WStyle) : ConvexOn ℝ (Set.Icc 0 1) (window.shape style) := by
  cases style
  · exact cosShape_convex _ _ _ (by norm_num) (by norm_num)
  · exact cosShape_convex _ _ _ (by norm_num) (by norm_num)
  · exact cosShape_convex _ _ _ (by norm_num) (by norm_num)
  · exact kaiser_convex

theorem window.shape_slope (style : WStyle) (q : ℝ) (hq : 0 ≤ q) (hq1 : q ≤ 1) : 1 - window.shape style q ≤ 4.05 * q := by
  have hp1 := Real.pi_gt_three
  have hp2 := Real.pi_lt_d4
  have hpq : Real.pi ^ 2 ≤ 9.8697 := by nlinarith
  have key : ∀ a b c : ℝ, a + b + c = 1 → 0 ≤ b → 0 ≤ c → b + 4 * c ≤ 0.82 → 1 - cosShape a b c q ≤ 4.05 * q := by
    intro a b c h1 h2 h3 h4
    have := cosShape_slope a b c q h2 h3 hq
    have h5 : Real.pi ^ 2 / 2 * (b + 4 * c) ≤ 4.05 := by nlinarith
    have h6 := mul_le_mul_of_nonneg_right h5 hq
    linarith
  cases style
  · exact key _ _ _ (by norm_num) (by norm_num) (by norm_num) (by norm_num)
  · exact key _ _ _ (by norm_num) (by norm_num) (by norm_num) (by norm_num)
  · exact key _ _ _ (by norm_num) (by norm_num) (by norm_num) (by norm_num)
  · have hi := window.i0_ge_one 7
    have := kaiser_slope q hq hq1
    show 1 - window.i0 (7 * Real.sqrt (1 - q)) / window.i0 7 ≤ _
    rw [sub_le_iff_le_add, ← sub_le_iff_le_add', le_div_iff₀ (by linarith)]
    nlinarith

theorem window.shape_zero (style : WStyle) : window.shape style 0 = 1 := by
  have hi := window.i0_ge_one 7
  cases style
  · simp [window.shape, cosShape]; norm_num
  · simp [window.shape, cosShape]; norm_num
  · simp [window.shape, cosShape]; norm_num
  · simp only [window.shape, sub_zero, Real.sqrt_one, mul_one]
    rw [div_self (by linarith)]

theorem window.shape_one (style : WStyle) : 0 ≤ window.shape style 1 ∧ window.shape style 1 ≤ 0.08 := by
  have hi : 13.25 ≤ window.i0 7 := by
    unfold window.i0
    have := (window.i0_summable 7).sum_le_tsum (range 2) (fun j _ => by positivity)
    simp [sum_range_succ] at this
    norm_num at this ⊢
    linarith
  cases style
  · simp [window.shape, cosShape]; norm_num
  · simp [window.shape, cosShape]; norm_num
  · simp [window.shape, cosShape]; norm_num
  · simp only [window.shape, sub_self, Real.sqrt_zero, mul_zero]
    have h0 : window.i0 0 = 1 := by
      unfold window.i0
      rw [tsum_eq_single 0]
      · simp
      · intro k hk; simp [hk]
    rw [h0]
    constructor
    · positivity
    · rw [div_le_iff₀ (by linarith)]; linarith

theorem window.shape_antitone (style : WStyle) (q r : ℝ) (h : q ≤ r) (hr : r ≤ 1) : window.shape style r ≤ window.shape style q := by
  have hpi := Real.pi_pos
  have hsqr : Real.sqrt q ≤ Real.sqrt r := Real.sqrt_le_sqrt h
  have hr1 : Real.sqrt r ≤ 1 := Real.sqrt_le_one.mpr hr
  have hsq : 0 ≤ Real.sqrt q := Real.sqrt_nonneg q
  have h2 : Real.cos (Real.pi * Real.sqrt r) ≤ Real.cos (Real.pi * Real.sqrt q) := Real.cos_le_cos_of_nonneg_of_le_pi (by positivity) (by nlinarith) (by nlinarith)
  have h3 := Real.neg_one_le_cos (Real.pi * Real.sqrt r)
  have key : ∀ a b c : ℝ, 0 ≤ c → 4 * c ≤ b → cosShape a b c r ≤ cosShape a b c q := by
    intro a b c hc hb
    unfold cosShape
    rw [Real.cos_two_mul, Real.cos_two_mul]
    generalize Real.cos (Real.pi * Real.sqrt r) = y at *
    generalize Real.cos (Real.pi * Real.sqrt q) = z at *
    nlinarith [mul_nonneg (sub_nonneg.mpr h2) (by nlinarith : 0 ≤ b + 2 * c * (y + z))]
  cases style
  · exact key _ _ _ (by norm_num) (by norm_num)
  · exact key _ _ _ (by norm_num) (by norm_num)
  · exact key _ _ _ (by norm_num) (by norm_num)
  · apply div_le_div_of_nonneg_right _ (by linarith [window.i0_ge_one 7])
    apply window.i0_mono _ _ (by positivity)
    apply mul_le_mul_of_nonneg_left _ (by norm_num)
    exact Real.sqrt_le_sqrt (by linarith)

/-- The integral from 0 to `x` of `cos(m t)`. -/
noncomputable def tone (x m : ℝ) : ℝ := open scoped Classical in if m = 0 then x else Real.sin (m * x) / m

/-- The sum of a window against the integrals of the cosines. -/
noncomputable def window.phase (style : WStyle) (order : ℕ) (x : ℝ) : ℝ :=
  ∑ n ∈ range (order + 1), window.value style (order + 1) n * tone x ((n : ℝ) - order / 2)

theorem centred_succ (G : ℝ → ℝ) (N : ℕ) : ∑ n ∈ range (N + 2), G ((n : ℝ) - (N + 1) / 2) =
    ∑ n ∈ range N, G ((n : ℝ) - ((N : ℝ) - 1) / 2) + (G (-((N + 1) / 2)) + G ((N + 1) / 2)) := by
  rw [sum_range_succ, sum_range_succ']
  push_cast
  have e : ∀ n : ℕ, ((n : ℝ) + 1 - (N + 1) / 2) = (n : ℝ) - ((N : ℝ) - 1) / 2 := fun n => by ring
  simp only [e]
  rw [show (0 : ℝ) - ((N : ℝ) + 1) / 2 = -((N + 1) / 2) by ring, show (N : ℝ) - ((N : ℝ) - 1) / 2 = (N + 1) / 2 by ring]
  ring

/-- The weight of the outermost coefficients of a centred rectangle of `N` coefficients. -/
noncomputable def window.edge (style : WStyle) (order N : ℕ) : ℝ := window.shape style ((((N : ℝ) - 1) / order) ^ 2)

theorem window.phase_rings (style : WStyle) (order : ℕ) (x : ℝ) (p : ℕ) (hp : p = 1 ∨ p = 2) (K : ℕ) :
    ∑ n ∈ range (p + 2 * K), window.shape style ((2 * ((n : ℝ) - (((p + 2 * K : ℕ) : ℝ) - 1) / 2) / order) ^ 2) * tone x ((n : ℝ) - (((p + 2 * K : ℕ) : ℝ) - 1) / 2) =
      window.edge style order p * boxSum p x + ∑ i ∈ range K, window.edge style order (p + 2 * (i + 1)) * (boxSum (p + 2 * (i + 1)) x - boxSum (p + 2 * i) x) := by
  have hring : ∀ N : ℕ, window.shape style ((2 * (-(((N : ℝ) + 1) / 2)) / order) ^ 2) * tone x (-(((N : ℝ) + 1) / 2)) +
      window.shape style ((2 * (((N : ℝ) + 1) / 2) / order) ^ 2) * tone x (((N : ℝ) + 1) / 2) = window.edge style order (N + 2) * (4 * Real.sin ((N + 1) * x / 2) / (N + 1)) := by
    intro N
    have hN : ((N : ℝ) + 1) / 2 ≠ 0 := by positivity
    have h1 : tone x (-(((N : ℝ) + 1) / 2)) = tone x (((N : ℝ) + 1) / 2) := by
      unfold tone
      rw [if_neg (neg_ne_zero.mpr hN), if_neg hN, neg_mul, Real.sin_neg, neg_div_neg_eq]
    have h2 : tone x (((N : ℝ) + 1) / 2) = 2 * Real.sin ((N + 1) * x / 2) / (N + 1) := by
      unfold tone
      rw [if_neg hN, show ((N : ℝ) + 1) / 2 * x = (N + 1) * x / 2 by ring]
      field_simp
    rw [h1, h2]
    unfold window.edge
    rw [show (2 * (-(((N : ℝ) + 1) / 2)) / order) ^ 2 = (((N : ℝ) + 1) / order) ^ 2 by ring, show (2 * (((N : ℝ) + 1) / 2) / order) ^ 2 = (((N : ℝ) + 1) / order) ^ 2 by ring]
    push_cast
    rw [show (N : ℝ) + 2 - 1 = N + 1 by ring]
    ring
  induction K with
  | zero =>
    rcases hp with rfl | rfl
    · simp [tone, window.edge, boxSum]
    · have := centred_succ (fun m => window.shape style ((2 * m / order) ^ 2) * tone x m) 0
      have h2 := hring 0
      simp only [Nat.cast_zero, zero_add, range_zero, sum_empty] at this h2
      simp only [mul_zero, add_zero, range_zero, sum_empty]
      have e : (((2 : ℕ) : ℝ) - 1) / 2 = 1 / 2 := by norm_num
      rw [e, this, h2]
      simp [boxSum]
  | succ K ih =>
    rw [sum_range_succ, ← add_assoc, ← ih]
    have := centred_succ (fun m => window.shape style ((2 * m / order) ^ 2) * tone x m) (p + 2 * K)
    have h2 := hring (p + 2 * K)
    rw [h2] at this
    have e : ((((p + 2 * (K + 1)) : ℕ) : ℝ) - 1) / 2 = (((p + 2 * K : ℕ) : ℝ) + 1) / 2 := by push_cast; ring
    rw [e, show p + 2 * (K + 1) = p + 2 * K + 2 by ring, this, boxSum]
    ring

theorem window.phase_eq (style : WStyle) (order : ℕ) (ho : 0 < order) (x : ℝ) (p K : ℕ) (hp : p = 1 ∨ p = 2) (hK : order + 1 = p + 2 * K) :
    window.phase style order x = window.edge style order (p + 2 * K) * boxSum (p + 2 * K) x +
      ∑ i ∈ range K, (window.edge style order (p + 2 * i) - window.edge style order (p + 2 * (i + 1))) * boxSum (p + 2 * i) x := by
  have h1 := window.phase_rings style order x p hp K
  have e : (((p + 2 * K : ℕ) : ℝ) - 1) / 2 = order / 2 := by rw [← hK]; push_cast; ring
  rw [e, ← hK] at h1
  unfold window.phase
  have h2 : ∀ n ∈ range (order + 1), window.value style (order + 1) n * tone x ((n : ℝ) - order / 2) =
      window.shape style ((2 * ((n : ℝ) - order / 2) / order) ^ 2) * tone x ((n : ℝ) - order / 2) := fun n _ => by rw [window.value_shape style order n ho]
  rw [sum_congr rfl h2, h1]
  clear h1 h2 e hK
  induction K with
  | zero => simp
  | succ K ih => rw [sum_range_succ, sum_range_succ, ← add_assoc, ih]; ring

/-- Summation by parts against a decreasing weight, both ways. -/
theorem abel_abs (u a : ℕ → ℝ) (n : ℕ) (B : ℝ) (hu : ∀ k < n, u (k + 1) ≤ u k) (hu0 : ∀ k ≤ n, 0 ≤ u k) (hpart : ∀ k ≤ n, |∑ i ∈ range (k + 1), a i| ≤ B) :
    |∑ k ∈ range (n + 1), u k * a k| ≤ u 0 * B := by
  have key : ∀ m ≤ n, |∑ k ∈ range (m + 1), u k * a k - u m * ∑ i ∈ range (m + 1), a i| ≤ (u 0 - u m) * B := by
    intro m
    induction m with
    | zero => intro _; simp
    | succ m ih =>
      intro hm
      have h1 := ih (by omega)
      have h2 := hpart m (by omega)
      have h3 := hu m (by omega)
      rw [sum_range_succ _ (m + 1), sum_range_succ (fun i => a i) (m + 1)]
      have e : ∑ k ∈ range (m + 1), u k * a k + u (m + 1) * a (m + 1) - u (m + 1) * (∑ i ∈ range (m + 1), a i + a (m + 1)) =
          (∑ k ∈ range (m + 1), u k * a k - u m * ∑ i ∈ range (m + 1), a i) + (u m - u (m + 1)) * ∑ i ∈ range (m + 1), a i := by ring
      rw [e]
      have h4 := abs_add_le (∑ k ∈ range (m + 1), u k * a k - u m * ∑ i ∈ range (m + 1), a i) ((u m - u (m + 1)) * ∑ i ∈ range (m + 1), a i)
      rw [abs_mul, abs_of_nonneg (by linarith : 0 ≤ u m - u (m + 1))] at h4
      nlinarith [mul_le_mul_of_nonneg_left h2 (by linarith : 0 ≤ u m - u (m + 1))]
  have h1 := key n le_rfl
  have h2 := hpart n le_rfl
  have h3 := hu0 n le_rfl
  have h4 := abs_add_le (∑ k ∈ range (n + 1), u k * a k - u n * ∑ i ∈ range (n + 1), a i) (u n * ∑ i ∈ range (n + 1), a i)
  rw [sub_add_cancel, abs_mul, abs_of_nonneg h3] at h4
  nlinarith [mul_le_mul_of_nonneg_left h2 h3]

theorem boxWeighted_sum (p : ℕ) (hp : p = 1 ∨ p = 2) (x : ℝ) (k : ℕ) :
    ∑ i ∈ range (k + 1), ((p + 2 * i : ℕ) : ℝ) * (boxSum (p + 2 * i) x - Real.pi) = boxWeighted (p + 2 * k) x := by
  induction k with
  | zero =>
    rcases hp with rfl | rfl
    · simp [boxWeighted]
    · simp [boxWeighted]
  | succ k ih =>
    rw [sum_range_succ, ih, show p + 2 * (k + 1) = p + 2 * k + 2 by ring, boxWeighted]
    push_cast
    ring

/-- The weights of the rings, from the centre out. -/
theorem window.edge_facts (style : WStyle) (order : ℕ) (ho : 0 < order) (p K : ℕ) (hp : p = 1 ∨ p = 2) (hK : order + 1 = p + 2 * K) :
    (∀ i < K, 0 ≤ window.edge style order (p + 2 * i) - window.edge style order (p + 2 * (i + 1))) ∧
    (∀ i, i + 1 < K → (window.edge style order (p + 2 * (i + 1)) - window.edge style order (p + 2 * (i + 2))) / ((p + 2 * (i + 1) : ℕ) : ℝ) ≤
      (window.edge style order (p + 2 * i) - window.edge style order (p + 2 * (i + 1))) / ((p + 2 * i : ℕ) : ℝ)) ∧
    (0 < K → (window.edge style order p - window.edge style order (p + 2)) / (p : ℝ) ≤ 4 * 4.05 / (order : ℝ) ^ 2) ∧
    0 ≤ window.edge style order (p + 2 * K) ∧ window.edge style order (p + 2 * K) ≤ 0.08 ∧
    1 - 4.05 / (order : ℝ) ^ 2 ≤ window.edge style order p ∧ window.edge style order p ≤ 1 := by
  have hor : (0 : ℝ) < order := by exact_mod_cast ho
  have hp0 : (1 : ℝ) ≤ p := by rcases hp with rfl | rfl <;> norm_num
  have hp1 : (p : ℝ) ≤ 2 := by rcases hp with rfl | rfl <;> norm_num
  have hKr : (order : ℝ) = p + 2 * K - 1 := by
    have : ((order + 1 : ℕ) : ℝ) = ((p + 2 * K : ℕ) : ℝ) := by rw [hK]
    push_cast at this; linarith
  -- squared distances
  obtain ⟨d, hd⟩ : ∃ d : ℕ → ℝ, d = fun i => (((p + 2 * i : ℕ) : ℝ) - 1) / order := ⟨_, rfl⟩
  have hd0 : ∀ i, 0 ≤ d i := by
    intro i
    rw [hd]
    apply div_nonneg _ hor.le
    push_cast
    have : (0 : ℝ) ≤ i := by positivity
    linarith
  have hd1 : ∀ i ≤ K, d i ≤ 1 := by
    intro i hi
    rw [hd]
    simp only
    rw [div_le_one hor, hKr]
    push_cast
    have : (i : ℝ) ≤ K := by exact_mod_cast hi
    linarith
  have hstep : ∀ i, d (i + 1) ^ 2 - d i ^ 2 = 4 * ((p + 2 * i : ℕ) : ℝ) / order ^ 2 := by
    intro i
    rw [hd]
    push_cast
    field_simp
    ring
  have hlt : ∀ i, d i ^ 2 < d (i + 1) ^ 2 := by
    intro i
    have : 0 < 4 * ((p + 2 * i : ℕ) : ℝ) / order ^ 2 := by
      have : (0 : ℝ) < ((p + 2 * i : ℕ) : ℝ) := by exact_mod_cast (by omega : 0 < p + 2 * i)
      positivity
    linarith [hstep i]
  have hedge : ∀ i, window.edge style order (p + 2 * i) = window.shape style (d i ^ 2) := fun i => by rw [hd]; rfl
  have hsq : ∀ i ≤ K, d i ^ 2 ≤ 1 := fun i hi => by nlinarith [hd0 i, hd1 i hi]
  have hNpos : ∀ i, (0 : ℝ) < ((p + 2 * i : ℕ) : ℝ) := fun i => by exact_mod_cast (by omega : 0 < p + 2 * i)
  have hsl : ∀ i, (window.edge style order (p + 2 * i) - window.edge style order (p + 2 * (i + 1))) / ((p + 2 * i : ℕ) : ℝ) =
      4 / (order : ℝ) ^ 2 * -((window.shape style (d (i + 1) ^ 2) - window.shape style (d i ^ 2)) / (d (i + 1) ^ 2 - d i ^ 2)) := by
    intro i
    rw [hstep, hedge, hedge]
    have := hNpos i
    field_simp
    ring
  refine ⟨fun i hi => ?_, fun i hi => ?_, fun hK0 => ?_, ?_, ?_, ?_, ?_⟩
  · rw [hedge, hedge, sub_nonneg]
    exact window.shape_antitone style _ _ (hlt i).le (hsq _ (by omega))
  · rw [hsl i, show i + 2 = (i + 1) + 1 by ring, hsl (i + 1)]
    apply mul_le_mul_of_nonneg_left _ (by positivity)
    apply neg_le_neg
    exact (window.shape_convex style).slope_mono_adjacent ⟨sq_nonneg _, hsq i (by omega)⟩ ⟨sq_nonneg _, hsq (i + 1 + 1) (by omega)⟩ (hlt i) (hlt (i + 1))
  · have h0 := hsl 0
    simp only [mul_zero, add_zero, zero_add, mul_one] at h0
    rw [h0]
    have h1 : -((window.shape style (d 1 ^ 2) - window.shape style (d 0 ^ 2)) / (d 1 ^ 2 - d 0 ^ 2)) ≤ 4.05 := by
      rcases eq_or_lt_of_le (sq_nonneg (d 0)) with h | h
      · rw [← h, window.shape_zero, sub_zero, ← neg_div, neg_sub, div_le_iff₀ (by rw [h]; exact hlt 0)]
        exact window.shape_slope style _ (sq_nonneg _) (hsq 1 (by omega))
      · have := (window.shape_convex style).slope_mono_adjacent ⟨le_rfl, by norm_num⟩ ⟨sq_nonneg _, hsq 1 (by omega)⟩ h (hlt 0)
        rw [window.shape_zero, sub_zero] at this
        have h2 := window.shape_slope style (d 0 ^ 2) (sq_nonneg _) (hsq 0 (by omega))
        have h3 : -4.05 ≤ (window.shape style (d 0 ^ 2) - 1) / d 0 ^ 2 := by rw [le_div_iff₀ h]; linarith
        linarith
    calc 4 / (order : ℝ) ^ 2 * _ ≤ 4 / (order : ℝ) ^ 2 * 4.05 := mul_le_mul_of_nonneg_left h1 (by positivity)
      _ = _ := by ring
  · rw [hedge]
    have : d K = 1 := by rw [hd, hKr]; push_cast; rw [div_self]; rw [hKr] at hor; exact hor.ne'
    rw [this, one_pow]
    exact (window.shape_one style).1
  · rw [hedge]
    have : d K = 1 := by rw [hd, hKr]; push_cast; rw [div_self]; rw [hKr] at hor; exact hor.ne'
    rw [this, one_pow]
    exact (window.shape_one style).2
  · have h0 := hedge 0
    rw [mul_zero, add_zero] at h0
    rw [h0]
    have h1 := window.shape_slope style (d 0 ^ 2) (sq_nonneg _) (hsq 0 (by omega))
    have h2 : d 0 ^ 2 ≤ 1 / (order : ℝ) ^ 2 := by
      rw [hd]
      simp only
      rw [div_pow]
      apply div_le_div_of_nonneg_right _ (by positivity)
      push_cast
      nlinarith
    have h3 : 4.05 / (order : ℝ) ^ 2 = 4.05 * (1 / (order : ℝ) ^ 2) := by ring
    rw [h3]
    linarith
  · have h0 := hedge 0
    rw [mul_zero, add_zero] at h0
    rw [h0, ← window.shape_zero style]
    exact window.shape_antitone style _ _ (sq_nonneg _) (hsq 0 (by omega))

/-- Between 0 and 2π the sum of a window against the integrals of the cosines is close to π times the weight of the centre. -/
theorem window.phase_near (style : WStyle) (order : ℕ) (ho : 0 < order) :
    ∃ w, 1 - 4.05 / (order : ℝ) ^ 2 ≤ w ∧ w ≤ 1 ∧
      (∀ x, 0 < x → x < 2 * Real.pi → |window.phase style order x - w * Real.pi| ≤ 37.3 / (order * Real.sin (x / 2)) ^ 2 + 0.32 / (order * Real.sin (x / 2))) ∧
      ∀ x, 0 ≤ x → x ≤ 2 * Real.pi → |window.phase style order x| ≤ 2 * Real.pi := by
  have hor : (0 : ℝ) < order := by exact_mod_cast ho
  have hpi := Real.pi_pos
  obtain ⟨p, K, hp, hK⟩ : ∃ p K, (p = 1 ∨ p = 2) ∧ order + 1 = p + 2 * K := by
    rcases Nat.even_or_odd' order with ⟨k, h | h⟩
    · exact ⟨1, k, Or.inl rfl, by omega⟩
    · exact ⟨2, k, Or.inr rfl, by omega⟩
  obtain ⟨f1, f2, f3, f4, f5, f6, f7⟩ := window.edge_facts style order ho p K hp hK
  have htel : ∑ i ∈ range K, (window.edge style order (p + 2 * i) - window.edge style order (p + 2 * (i + 1))) = window.edge style order p - window.edge style order (p + 2 * K) := by
    have := sum_range_sub' (fun i => window.edge style order (p + 2 * i)) K
    simpa using this
  refine ⟨window.edge style order p, f6, f7, fun x hx hx' => ?_, fun x hx hx' => ?_⟩
  · have hs : 0 < Real.sin (x / 2) := Real.sin_pos_of_pos_of_lt_pi (by linarith) (by linarith)
    rw [window.phase_eq style order ho x p K hp hK]
    have e : window.edge style order (p + 2 * K) * boxSum (p + 2 * K) x +
        ∑ i ∈ range K, (window.edge style order (p + 2 * i) - window.edge style order (p + 2 * (i + 1))) * boxSum (p + 2 * i) x - window.edge style order p * Real.pi =
        window.edge style order (p + 2 * K) * (boxSum (p + 2 * K) x - Real.pi) +
        ∑ i ∈ range K, (window.edge style order (p + 2 * i) - window.edge style order (p + 2 * (i + 1))) / ((p + 2 * i : ℕ) : ℝ) * (((p + 2 * i : ℕ) : ℝ) * (boxSum (p + 2 * i) x - Real.pi)) := by
      have : ∀ i ∈ range K, (window.edge style order (p + 2 * i) - window.edge style order (p + 2 * (i + 1))) / ((p + 2 * i : ℕ) : ℝ) * (((p + 2 * i : ℕ) : ℝ) * (boxSum (p + 2 * i) x - Real.pi)) =
          (window.edge style order (p + 2 * i) - window.edge style order (p + 2 * (i + 1))) * boxSum (p + 2 * i) x - (window.edge style order (p + 2 * i) - window.edge style order (p + 2 * (i + 1))) * Real.pi := by
        intro i _
        have : ((p + 2 * i : ℕ) : ℝ) ≠ 0 := by
          have : 0 < p + 2 * i := by omega
          positivity
        field_simp
      rw [sum_congr rfl this, sum_sub_distrib, ← sum_mul, htel]
      ring
    rw [e]
    refine (abs_add_le _ _).trans ?_
    rw [add_comm]
    apply add_le_add
    · rcases Nat.eq_zero_or_pos K with rfl | hK0
      · simp; positivity
      · obtain ⟨k, rfl⟩ : ∃ k, K = k + 1 := ⟨K - 1, by omega⟩
        have := abel_abs (fun i => (window.edge style order (p + 2 * i) - window.edge style order (p + 2 * (i + 1))) / ((p + 2 * i : ℕ) : ℝ))
          (fun i => ((p + 2 * i : ℕ) : ℝ) * (boxSum (p + 2 * i) x - Real.pi)) k (2.3 / Real.sin (x / 2) ^ 2)
          (fun i hi => f2 i (by omega)) (fun i hi => div_nonneg (f1 i (by omega)) (by positivity))
          (fun i _ => by rw [boxWeighted_sum p hp]; exact boxWeighted_bound _ x hx hx')
        refine this.trans ?_
        refine (mul_le_mul_of_nonneg_right (f3 (by omega)) (by positivity)).trans ?_
        rw [mul_pow, div_mul_div_comm]
        apply div_le_div_of_nonneg_right _ (by positivity)
        norm_num
    · rw [abs_mul, abs_of_nonneg f4]
      have h1 := boxSum_near (p + 2 * K) (by omega) x hx hx'
      have h2 : 4 / (((p + 2 * K : ℕ) : ℝ) * Real.sin (x / 2)) ≤ 4 / (order * Real.sin (x / 2)) := by
        apply div_le_div_of_nonneg_left (by norm_num) (by positivity)
        apply mul_le_mul_of_nonneg_right _ hs.le
        rw [← hK]; push_cast; linarith
      calc window.edge style order (p + 2 * K) * |boxSum (p + 2 * K) x - Real.pi| ≤ 0.08 * (4 / (order * Real.sin (x / 2))) :=
            mul_le_mul f5 (h1.trans h2) (abs_nonneg _) (by norm_num)
        _ = _ := by rw [← mul_div_assoc]; norm_num
  · rw [window.phase_eq style order ho x p K hp hK]
    refine (abs_add_le _ _).trans ?_
    have h1 : |window.edge style order (p + 2 * K) * boxSum (p + 2 * K) x| ≤ window.edge style order (p + 2 * K) * (2 * Real.pi) := by
      rw [abs_mul, abs_of_nonneg f4]
      exact mul_le_mul_of_nonneg_left (boxSum_le _ x hx hx') f4
    have h2 : |∑ i ∈ range K, (window.edge style order (p + 2 * i) - window.edge style order (p + 2 * (i + 1))) * boxSum (p + 2 * i) x| ≤
        ∑ i ∈ range K, (window.edge style order (p + 2 * i) - window.edge style order (p + 2 * (i + 1))) * (2 * Real.pi) := by
      refine (abs_sum_le_sum_abs _ _).trans (sum_le_sum fun i hi => ?_)
      have := f1 i (mem_range.mp hi)
      rw [abs_mul, abs_of_nonneg this]
      exact mul_le_mul_of_nonneg_left (boxSum_le _ x hx hx') this
    rw [← sum_mul, htel] at h2
    nlinarith

end Verif
