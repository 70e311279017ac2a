import Verif.Props.Ramp
import Verif.Props.BesselCutoff
import Mathlib.Analysis.Calculus.LogDeriv
import Mathlib.Analysis.SpecialFunctions.Integrals.Basic

/-
C172: the delay of the designs of IirFilter.
-/

namespace Verif.Props

open Finset Spec

/-- `exp(-j π θ)`: one sample of delay. -/
private noncomputable def lag (θ : ℝ) : ℂ := Complex.exp (-(Complex.I * Real.pi * θ))

private theorem lag_norm (θ : ℝ) : ‖lag θ‖ = 1 := by
  rw [lag, show -(Complex.I * Real.pi * θ) = ((-(Real.pi * θ) : ℝ) : ℂ) * Complex.I by push_cast; ring, Complex.norm_exp_ofReal_mul_I]

private theorem lag_ne (θ : ℝ) : lag θ ≠ 0 := Complex.exp_ne_zero _

private theorem lag_deriv (θ : ℝ) : HasDerivAt lag (-(Complex.I * Real.pi) * lag θ) θ := by
  have h := hasDerivAt_cexp 1 θ
  have e : lag = fun f : ℝ => Complex.exp (-(Complex.I * Real.pi * f)) := rfl
  rw [e]
  simpa using h

private theorem lag_pow (θ : ℝ) (i : ℕ) : Complex.exp (-(Complex.I * Real.pi * θ * i)) = lag θ ^ i := by
  rw [lag, ← Complex.exp_nat_mul]
  congr 1
  ring

private theorem dtftC_poly (r : List ℂ) (θ : ℝ) : dtftC (np.poly r) θ = (r.map fun q => 1 - q * lag θ).prod := by
  have hl := np.poly_length r
  have h1 : (np.toPoly (np.poly r)).eval (lag θ)⁻¹ = (r.map fun q => (lag θ)⁻¹ - q).prod := by
    rw [np.toPoly_poly, ← Polynomial.coe_evalRingHom, map_list_prod, List.map_map]
    congr 1
    apply List.map_congr_left
    intro q _
    simp
  rw [np.eval_toPoly, hl, Nat.add_sub_cancel] at h1
  have h2 : lag θ ^ r.length * (r.map fun q => (lag θ)⁻¹ - q).prod = (r.map fun q => 1 - q * lag θ).prod := by
    clear h1 hl
    induction r with
    | nil => simp
    | cons q r ih =>
      rw [List.map_cons, List.prod_cons, List.map_cons, List.prod_cons, ← ih, List.length_cons, pow_succ]
      have := lag_ne θ
      field_simp
  rw [← h2, ← h1, dtftC, hl, mul_sum]
  refine sum_congr rfl fun i hi => ?_
  have hi := mem_range.mp hi
  rw [lag_pow, inv_pow, mul_left_comm]
  congr 1
  rw [eq_mul_inv_iff_mul_eq₀ (pow_ne_zero _ (lag_ne θ)), ← pow_add]
  congr 1
  omega

private theorem dtft_zeros (n : ℕ) (θ : ℝ) : dtft (np.poly (List.replicate n (-1 : ℝ))) θ = (1 + lag θ) ^ n := by
  rw [← dtftC_complexOf, show np.complexOf (np.poly (List.replicate n (-1 : ℝ))) = np.poly (List.replicate n (-1 : ℂ)) by
    apply np.toPoly_inj
    · simp [np.complexOf, np.poly_length]
    · rw [show np.complexOf (np.poly (List.replicate n (-1 : ℝ))) = (np.poly (List.replicate n (-1 : ℝ))).map Complex.ofRealHom from rfl, np.toPoly_map Complex.ofRealHom,
        np.toPoly_poly, np.toPoly_poly]
      simp [Polynomial.map_pow], dtftC_poly]
  simp

private theorem evaluate_zeros (residue : List ℝ → List ℝ → List ℂ × List ℂ) (style : IStyle) (f : ℝ) (n : ℕ) (a b : List ℝ) (h : iir.evaluate residue style f n = .ok (a, b)) :
    ∃ G : ℝ, ∀ θ, dtft b θ = G * (1 + lag θ) ^ n := by
  unfold iir.evaluate at h
  simp only at h
  split at h
  · simp at h
  · simp at h
  · simp only [Except.ok.injEq, Prod.mk.injEq] at h
    obtain ⟨-, rfl⟩ := h
    exact ⟨_, fun θ => by rw [dtft_scale, dtft_zeros]⟩

private theorem alternate_lag (b : List ℝ) (G : ℝ) (n : ℕ) (h : ∀ θ, dtft b θ = G * (1 + lag θ) ^ n) (θ : ℝ) : dtft (alternate b) θ = G * (1 - lag θ) ^ n := by
  have := dtft_alternate b (1 - θ)
  rw [sub_sub_cancel] at this
  rw [this, h]
  congr 2
  unfold lag
  rw [show -(Complex.I * Real.pi * ((-(1 - θ) : ℝ) : ℂ)) = -(Complex.I * Real.pi * θ) + Real.pi * Complex.I by push_cast; ring, Complex.exp_add, Complex.exp_pi_mul_I]
  ring

/-- The zeros of a design: all at -1, with complement at 1. -/
private theorem design_zeros (residue : List ℝ → List ℝ → List ℂ × List ℂ) (style : IStyle) (f : ℝ) (hf : 0 < f)
    (hf1 : f < 1) (order count : ℤ) (ho : 0 < order) (hcount : 0 < count) (complement : Bool) (gain : ℝ) (a b : List ℝ)
    (h : iir.design residue (some style) f order count complement gain = .ok (a, b)) :
    ∃ G : ℝ, ∀ θ, dtft b θ = G * (1 + (if complement then -1 else 1) * lag θ) ^ order.toNat := by
  set f' := if complement then 1 - f else f with hf'
  unfold iir.design at h
  simp only [show ¬ (f ≤ 0 ∨ f ≥ 1) by push Not; exact ⟨hf, hf1⟩, show ¬ order ≤ 0 by omega, show ¬ count ≤ 0 by omega, if_false] at h
  rw [← hf'] at h
  rcases search.run_result (fun scale => iir.evaluate residue style (scale * f') order.toNat)
    (iir.deviation f' count.toNat) (iir.rate order.toNat count.toNat) with ⟨x, ⟨a', b'⟩, hx, h1, h2⟩ | ⟨x, e, hx, h1, h2⟩
  · obtain ⟨G, hG⟩ := evaluate_zeros residue style _ _ _ _ h1
    rw [h2] at h
    cases complement with
    | false =>
      simp only [Bool.false_eq_true, if_false, Except.ok.injEq, Prod.mk.injEq] at h
      obtain ⟨-, rfl⟩ := h
      refine ⟨gain * G, fun θ => ?_⟩
      rw [dtft_scale, hG]
      push_cast
      simp
      ring
    | true =>
      simp only [if_true, Except.ok.injEq, Prod.mk.injEq, div_eq_mul_inv] at h
      obtain ⟨K, rfl⟩ : ∃ K : ℝ, b = ((alternate b').map (· * K)).map (· * gain) := ⟨_, h.2.symm⟩
      refine ⟨gain * (K * G), fun θ => ?_⟩
      · rw [dtft_scale, dtft_scale, alternate_lag b' G _ hG]
        push_cast
        simp only [if_true]
        rw [show (1 : ℂ) + -1 * lag θ = 1 - lag θ by ring]
        ring
  · rw [h2] at h
    simp at h

/-! ### Delay of zeros and poles -/

private theorem pole_ne (q : ℂ) (hq : ‖q‖ < 1) (θ : ℝ) : 1 - q * lag θ ≠ 0 := by
  intro h
  have : ‖q * lag θ‖ = 1 := by rw [← sub_eq_zero.mp h, norm_one]
  rw [norm_mul, lag_norm, mul_one] at this
  linarith

private theorem factor_deriv (q : ℂ) (θ : ℝ) : HasDerivAt (fun θ : ℝ => 1 - q * lag θ) (Complex.I * Real.pi * (q * lag θ)) θ := by
  have := ((lag_deriv θ).const_mul q).const_sub 1
  refine this.congr_deriv ?_
  ring

private theorem factors_log (r : List ℂ) (hr : ∀ q ∈ r, ‖q‖ < 1) (θ : ℝ) :
    DifferentiableAt ℝ (fun θ : ℝ => (r.map fun q => 1 - q * lag θ).prod) θ ∧ (r.map fun q => 1 - q * lag θ).prod ≠ 0 ∧
    logDeriv (fun θ : ℝ => (r.map fun q => 1 - q * lag θ).prod) θ = Complex.I * Real.pi * (r.map fun q => q * lag θ / (1 - q * lag θ)).sum := by
  induction r with
  | nil => simp [logDeriv]
  | cons q r ih =>
    obtain ⟨h1, h2, h3⟩ := ih fun p hp => hr p (List.mem_cons_of_mem _ hp)
    have hq := pole_ne q (hr q (by simp)) θ
    have hd := factor_deriv q θ
    simp only [List.map_cons, List.prod_cons, List.sum_cons]
    refine ⟨hd.differentiableAt.mul h1, mul_ne_zero hq h2, ?_⟩
    have := logDeriv_mul (f := fun θ : ℝ => 1 - q * lag θ) (g := fun θ : ℝ => (r.map fun q => 1 - q * lag θ).prod) θ hq h2 hd.differentiableAt h1
    rw [this, h3, logDeriv_apply, hd.deriv]
    ring

/-- The delay of zeros on the circle and poles inside. -/
private theorem delay_formula (H : ℝ → ℂ) (G : ℝ) (ε : ℂ) (hε : ‖ε‖ = 1) (n : ℕ) (r : List ℂ) (hr : ∀ q ∈ r, ‖q‖ < 1)
    (hH : ∀ θ, H θ = G * (1 + ε * lag θ) ^ n / (r.map fun q => 1 - q * lag θ).prod) (θ : ℝ) (hG : G ≠ 0) (hz : 1 + ε * lag θ ≠ 0) :
    groupDelay H θ = n / 2 + (r.map fun q => (q * lag θ / (1 - q * lag θ)).re).sum := by
  obtain ⟨h1, h2, h3⟩ := factors_log r hr θ
  have hGc : (G : ℂ) ≠ 0 := by exact_mod_cast hG
  have hd : HasDerivAt (fun θ : ℝ => 1 + ε * lag θ) (-(Complex.I * Real.pi) * (ε * lag θ)) θ := by
    refine (((lag_deriv θ).const_mul ε).const_add 1).congr_deriv ?_
    ring
  have hp := (hd.fun_pow n).const_mul (G : ℂ)
  have hne : (G : ℂ) * (1 + ε * lag θ) ^ n ≠ 0 := mul_ne_zero hGc (pow_ne_zero _ hz)
  have e : H = fun θ => G * (1 + ε * lag θ) ^ n / (r.map fun q => 1 - q * lag θ).prod := funext hH
  have hl := logDeriv_div (f := fun θ : ℝ => (G : ℂ) * (1 + ε * lag θ) ^ n) (g := fun θ : ℝ => (r.map fun q => 1 - q * lag θ).prod) θ hne h2 hp.differentiableAt h1
  have hnum : logDeriv (fun θ : ℝ => (G : ℂ) * (1 + ε * lag θ) ^ n) θ = -(Complex.I * Real.pi) * (n * (ε * lag θ / (1 + ε * lag θ))) := by
    rw [logDeriv_apply, hp.deriv]
    rcases Nat.eq_zero_or_pos n with rfl | hn
    · simp
    · obtain ⟨m, rfl⟩ : ∃ m, n = m + 1 := ⟨n - 1, by omega⟩
      rw [Nat.add_sub_cancel]
      field_simp
      ring
  have hhalf : (ε * lag θ / (1 + ε * lag θ)).re = 1 / 2 := by
    set v := ε * lag θ with hv
    have hvn : ‖v‖ = 1 := by rw [hv, norm_mul, hε, lag_norm, mul_one]
    have hsq : v.re * v.re + v.im * v.im = 1 := by
      have := Complex.normSq_eq_norm_sq v
      rw [hvn, Complex.normSq_apply] at this
      linarith
    have hns : Complex.normSq (1 + v) = 2 * (1 + v.re) := by
      rw [Complex.normSq_apply]
      simp
      nlinarith
    have hpos : 0 < Complex.normSq (1 + v) := Complex.normSq_pos.mpr hz
    rw [Complex.div_re, ← add_div, hns, div_eq_div_iff (by linarith) two_ne_zero]
    simp
    nlinarith
  have hsum : ((r.map fun q => q * lag θ / (1 - q * lag θ)).sum).re = (r.map fun q => (q * lag θ / (1 - q * lag θ)).re).sum := by
    rw [← Complex.coe_reAddGroupHom, map_list_sum, List.map_map]
    rfl
  unfold groupDelay
  rw [← logDeriv_apply, e]
  rw [hl, hnum, h3]
  rw [← hsum, show -(Complex.I * Real.pi) * (n * (ε * lag θ / (1 + ε * lag θ))) - Complex.I * Real.pi * (r.map fun q => q * lag θ / (1 - q * lag θ)).sum =
    ((-Real.pi : ℝ) : ℂ) * (Complex.I * (((n : ℝ) : ℂ) * (ε * lag θ / (1 + ε * lag θ)) + (r.map fun q => q * lag θ / (1 - q * lag θ)).sum)) by push_cast; ring,
    Complex.im_ofReal_mul, Complex.I_mul_im, Complex.add_re, Complex.re_ofReal_mul, hhalf]
  have := Real.pi_ne_zero
  generalize (r.map fun q => q * lag θ / (1 - q * lag θ)).sum.re = S
  field_simp

private theorem pole_delay (v : ℂ) (hv : ‖v‖ < 1) : -(1 / 2) < (v / (1 - v)).re := by
  have hsq : v.re * v.re + v.im * v.im < 1 := by
    have := Complex.normSq_eq_norm_sq v
    rw [Complex.normSq_apply] at this
    rw [this]
    nlinarith [norm_nonneg v]
  have hne : 1 - v ≠ 0 := by
    intro h
    rw [← sub_eq_zero.mp h, norm_one] at hv
    exact lt_irrefl _ hv
  have hpos : 0 < Complex.normSq (1 - v) := Complex.normSq_pos.mpr hne
  rw [Complex.div_re, ← add_div, lt_div_iff₀ hpos, Complex.normSq_apply]
  simp
  nlinarith

private theorem poles_delay (r : List ℂ) (hr : ∀ q ∈ r, ‖q‖ < 1) (hne : r ≠ []) (θ : ℝ) : -((r.length : ℝ) / 2) < (r.map fun q => (q * lag θ / (1 - q * lag θ)).re).sum := by
  have hle : ∀ r : List ℂ, (∀ q ∈ r, ‖q‖ < 1) → -((r.length : ℝ) / 2) ≤ (r.map fun q => (q * lag θ / (1 - q * lag θ)).re).sum := by
    intro r
    induction r with
    | nil => simp
    | cons q r ih =>
      intro hr
      have h1 := ih fun p hp => hr p (List.mem_cons_of_mem _ hp)
      have h2 := pole_delay (q * lag θ) (by rw [norm_mul, lag_norm, mul_one]; exact hr q (by simp))
      simp only [List.map_cons, List.sum_cons, List.length_cons]
      push_cast
      linarith
  cases r with
  | nil => exact absurd rfl hne
  | cons q r =>
    have h1 := hle r fun p hp => hr p (List.mem_cons_of_mem _ hp)
    have h2 := pole_delay (q * lag θ) (by rw [norm_mul, lag_norm, mul_one]; exact hr q (by simp))
    simp only [List.map_cons, List.sum_cons, List.length_cons]
    push_cast
    linarith

private theorem dtft_nyquist (b : List ℝ) : dtft b 1 = ((altSum b : ℝ) : ℂ) := by
  unfold dtft altSum
  push_cast
  refine sum_congr rfl fun i _ => ?_
  have : lag 1 = -1 := by
    unfold lag
    rw [Complex.ofReal_one, mul_one, Complex.exp_neg, mul_comm, Complex.exp_pi_mul_I]
    norm_num
  have h := lag_pow 1 i
  rw [Complex.ofReal_one] at h
  rw [h, this, mul_comm]

/-- Zeros and poles of a design. -/
private theorem design_form (residue : List ℝ → List ℝ → List ℂ × List ℂ) (hres : ResidueSpec residue) (style : IStyle) (f : ℝ) (hf : 0 < f)
    (hf1 : f < 1) (order count : ℤ) (ho : 0 < order) (hcount : 0 < count) (complement : Bool) (gain : ℝ) :
    ∃ g, ∃ G : ℝ, ∃ r : List ℂ, Iir.newDesign residue (some style) f order count complement gain none = .ok g ∧ g.cast = id ∧ g.WF ∧ at0 g.a 0 = 0 ∧ Stable g.a ∧
      (r.length : ℤ) = order ∧ (∀ z, z ∈ r ↔ Pole g.a z) ∧ (∀ q ∈ r, ‖q‖ < 1) ∧
      (∀ θ, 1 - dtft g.a θ = (r.map fun q => 1 - q * lag θ).prod) ∧
      (∀ θ, freqResp g.a g.b θ = G * (1 + (if complement then -1 else 1) * lag θ) ^ order.toNat / (r.map fun q => 1 - q * lag θ).prod) ∧
      (complement = false → g.b.sum = gain * (1 - g.a.sum)) ∧ (gain ≠ 0 → G ≠ 0) := by
  classical
  obtain ⟨a, b, h1, h2, h3, h4, h5, h6, h7⟩ := iir.design_spec residue hres style f hf hf1 order count ho hcount complement gain
  obtain ⟨G, hG⟩ := design_zeros residue style f hf hf1 order count ho hcount complement gain a b h1
  have hane : a ≠ [] := by intro h; rw [h] at h3; simp at h3; omega
  obtain ⟨g, g1, g2, g3, g4, g5⟩ := Iir.new_spec (id : ℝ → ℝ) a b none (Or.inl hane) h2
  have hl : a.length = b.length := by omega
  have ha : g.a = a := by rw [g3, hl]; simp [padTo, hl]
  have hb : g.b = b := by rw [g4, hl]; simp [padTo]
  have hs : g.s = List.replicate b.length 0 := by rw [g5, hl]; simp [padTo]
  obtain ⟨r, r1, r2⟩ := stable_factors a h2 hane
  have hr : ∀ q ∈ r, ‖q‖ < 1 := fun q hq => h5 q ((r1 q).mp hq)
  have hden : ∀ θ, 1 - dtft a θ = (r.map fun q => 1 - q * lag θ).prod := fun θ => by
    rw [← dtft_one_sub a hane h2, ← dtftC_complexOf, r2, dtftC_poly]
  have hrl : (r.length : ℤ) = order := by
    have := congrArg List.length r2
    rw [np.poly_length] at this
    simp [np.complexOf] at this
    omega
  refine ⟨g, G, r, ?_, g2, ⟨by rw [ha, hb, hl], by rw [hb, hs]; simp, by rw [hb]; omega⟩, by rw [ha, h2], by rw [ha]; exact h5, hrl, by rw [ha]; exact r1, hr,
    by rw [ha]; exact hden, fun θ => by rw [freqResp, ha, hb, hden, hG], fun hc => by rw [ha, hb]; exact (h6 hc).1, fun hgain hG0 => ?_⟩
  · unfold Iir.newDesign
    rw [h1]
    simp only
    convert g1
  · -- without gain factor the response would vanish everywhere
    have hz : ∀ θ, dtft b θ = 0 := fun θ => by rw [hG, hG0]; simp
    cases complement with
    | false =>
      have h8 := (h6 rfl).1
      have h9 := hz 0
      rw [dtft_zero_real, ← sum_eq_range] at h9
      have h10 : b.sum = 0 := by exact_mod_cast h9
      rw [h10] at h8
      exact (mul_ne_zero hgain (stable_sum_ne a h2 hane h5)) h8.symm
    | true =>
      have h8 := (h7 rfl).1
      have h9 := hz 1
      have h10 : altSum b = 0 := by
        rw [dtft_nyquist] at h9
        exact_mod_cast h9
      rw [h10] at h8
      have h11 : 1 - altSum a ≠ 0 := by
        intro q
        have h12 := hden 1
        rw [dtft_nyquist] at h12
        apply (factors_log r hr 1).2.1
        rw [← h12]
        exact_mod_cast q
      exact (mul_ne_zero hgain h11) h8.symm

private theorem zero_points (complement : Bool) (θ : ℝ) (h1 : -1 < θ) (h2 : θ ≤ 1) (h : 1 + (if complement then (-1 : ℂ) else 1) * lag θ = 0) : θ = 0 ∨ θ = 1 := by
  have hpi : (Real.pi : ℂ) ≠ 0 := by exact_mod_cast Real.pi_ne_zero
  cases complement with
  | false =>
    right
    have e : Complex.exp (-(Complex.I * Real.pi * θ)) = Complex.exp (Real.pi * Complex.I) := by
      rw [Complex.exp_pi_mul_I]
      have : lag θ = -1 := by
        simp at h
        linear_combination h
      exact this
    obtain ⟨n, hn⟩ := Complex.exp_eq_exp_iff_exists_int.mp e
    have h3 : (θ : ℂ) = -1 - 2 * n := by
      have h4 : (Complex.I * Real.pi) * ((θ : ℂ) - (-1 - 2 * n)) = 0 := by linear_combination -hn
      rcases mul_eq_zero.mp h4 with h | h
      · exact absurd h (mul_ne_zero Complex.I_ne_zero hpi)
      · exact sub_eq_zero.mp h
    have h5 : θ = -1 - 2 * (n : ℝ) := by exact_mod_cast h3
    have h6 : n = -1 := by
      have a1 : (n : ℝ) < 0 := by linarith
      have a2 : (-1 : ℝ) ≤ n := by linarith
      have a1 : n < 0 := by exact_mod_cast a1
      have a2 : -1 ≤ n := by exact_mod_cast a2
      omega
    rw [h5, h6]
    norm_num
  | true =>
    left
    have e : Complex.exp (-(Complex.I * Real.pi * θ)) = Complex.exp 0 := by
      rw [Complex.exp_zero]
      have : lag θ = 1 := by
        simp at h
        linear_combination -h
      exact this
    obtain ⟨n, hn⟩ := Complex.exp_eq_exp_iff_exists_int.mp e
    have h3 : (θ : ℂ) = -2 * n := by
      have h4 : (Complex.I * Real.pi) * ((θ : ℂ) - -2 * n) = 0 := by linear_combination -hn
      rcases mul_eq_zero.mp h4 with h | h
      · exact absurd h (mul_ne_zero Complex.I_ne_zero hpi)
      · exact sub_eq_zero.mp h
    have h5 : θ = -2 * (n : ℝ) := by exact_mod_cast h3
    have h6 : n = 0 := by
      have a1 : (n : ℝ) < 1 := by linarith
      have a2 : (-1 : ℝ) < n := by linarith
      have a1 : n < 1 := by exact_mod_cast a1
      have a2 : -1 < n := by exact_mod_cast a2
      omega
    rw [h5, h6]
    norm_num

/-- C172.  Every design of IirFilter delays every frequency which it passes at all: with the poles `q` of the filter the group delay is half the order plus
the sum of the real parts of `q w / (1 - q w)`, `w = exp(-j π θ)`, and positive. -/
theorem C172_delay (residue : List ℝ → List ℝ → List ℂ × List ℂ) (hres : ResidueSpec residue) (style : IStyle) (f : ℝ) (hf : 0 < f)
    (hf1 : f < 1) (order count : ℤ) (ho : 0 < order) (hcount : 0 < count) (complement : Bool) (gain : ℝ) :
    ∃ g, ∃ r : List ℂ, Iir.newDesign residue (some style) f order count complement gain none = .ok g ∧ (r.length : ℤ) = order ∧ (∀ z, z ∈ r ↔ Pole g.a z) ∧ (∀ q ∈ r, ‖q‖ < 1) ∧
      (gain ≠ 0 → ∀ θ, -1 < θ → θ < 1 → θ ≠ 0 → freqResp g.a g.b θ ≠ 0) ∧
      ∀ θ, freqResp g.a g.b θ ≠ 0 →
        groupDelay (freqResp g.a g.b) θ = order / 2 + (r.map fun q => (q * Complex.exp (-(Complex.I * Real.pi * θ)) / (1 - q * Complex.exp (-(Complex.I * Real.pi * θ)))).re).sum ∧
        0 < groupDelay (freqResp g.a g.b) θ := by
  obtain ⟨g, G, r, h1, -, -, -, -, h5, h6, h7, -, h8, -, h9⟩ := design_form residue hres style f hf hf1 order count ho hcount complement gain
  refine ⟨g, r, h1, h5, h6, h7, fun hgain θ t1 t2 t3 => ?_, fun θ hθ => ?_⟩
  · rw [h8]
    refine div_ne_zero (mul_ne_zero (by exact_mod_cast h9 hgain) (pow_ne_zero _ fun q => ?_)) (factors_log r h7 θ).2.1
    rcases zero_points complement θ t1 t2.le q with h | h
    · exact t3 h
    · linarith
  have hn : 0 < order.toNat := by omega
  have hG : G ≠ 0 := by
    rintro rfl
    rw [h8] at hθ
    simp at hθ
  have hz : 1 + (if complement then (-1 : ℂ) else 1) * lag θ ≠ 0 := by
    intro q
    rw [h8, q, zero_pow hn.ne', mul_zero, zero_div] at hθ
    exact hθ rfl
  have e := delay_formula (freqResp g.a g.b) G (if complement then (-1 : ℂ) else 1) (by split <;> simp) order.toNat r h7 h8 θ hG hz
  have hord : ((order.toNat : ℕ) : ℝ) = (order : ℝ) := by
    have : (order.toNat : ℤ) = order := by omega
    exact_mod_cast this
  rw [hord] at e
  refine ⟨e, ?_⟩
  have hp := poles_delay r h7 (by rintro rfl; simp at h5; omega) θ
  have hrl : (r.length : ℝ) = (order : ℝ) := by exact_mod_cast h5
  rw [e]
  rw [hrl] at hp
  linarith

/-- C172.  So delay() of a design reports no negative number where the response is not zero, and a positive one away from the six samples at either end. -/
theorem C172_reported (residue : List ℝ → List ℝ → List ℂ × List ℂ) (hres : ResidueSpec residue) (style : IStyle) (f : ℝ) (hf : 0 < f)
    (hf1 : f < 1) (order count : ℤ) (ho : 0 < order) (hcount : 0 < count) (complement : Bool) (gain : ℝ) (length n : ℤ) (hl : 0 < length) (he : Even length) (hn : 0 < n) :
    ∃ g y axs, Iir.newDesign residue (some style) f order count complement gain none = .ok g ∧ g.delay length n = .ok (y, axs) ∧ y.length = length.toNat ∧
      ∀ k < length.toNat, freqResp g.a g.b (axis length k) ≠ 0 → 0 ≤ at0 y k ∧ (length ≤ 6 ∨ 6 ≤ k ∧ (k : ℤ) + 6 < length → 0 < at0 y k) := by
  obtain ⟨g, r, h1, -, -, -, -, h5⟩ := C172_delay residue hres style f hf hf1 order count ho hcount complement gain
  obtain ⟨g', G, r', k1, -, k2, k3, k4, -⟩ := design_form residue hres style f hf hf1 order count ho hcount complement gain
  rw [h1] at k1
  cases k1
  have hane : g.a ≠ [] := wf_ne k2
  have hbne : g.b ≠ [] := by
    intro q
    have := k2.1
    rw [q] at this
    exact hane (List.length_eq_zero_iff.mp (by simpa using this))
  obtain ⟨y, axs, d1, d2, d3, d4, d5, -⟩ := C71_iir_delay g hane k3 hbne length n hl he hn
  refine ⟨g, y, axs, h1, d1, d2, fun k hk hH => ?_⟩
  have hnum : dtft g.b (axis length k) ≠ 0 := fun q => hH (by rw [freqResp, q, zero_div])
  obtain ⟨-, e1, t, t1, t2, e2⟩ := d5 k hk hnum (impulse_sum g.a g.b k3 hane k4 _).1
  have hpos := (h5 _ hH).2
  have hn' : (0 : ℝ) < n := by exact_mod_cast hn
  have hat : ∀ v : ℝ, y[k]? = some v → at0 y k = v := fun v hv => by rw [at0, List.getD_eq_getElem?_getD, hv, Option.getD_some]
  refine ⟨?_, fun hm => ?_⟩
  · rw [hat _ e2]
    positivity
  · rw [hat _ (e1 hm)]
    positivity

/-- C172.  A low pass design, in any state, follows a ramp late: the output tends to gain times the ramp of `τ` samples before, `τ` positive. -/
theorem C172_ramp (residue : List ℝ → List ℝ → List ℂ × List ℂ) (hres : ResidueSpec residue) (style : IStyle) (f : ℝ) (hf : 0 < f)
    (hf1 : f < 1) (order count : ℤ) (ho : 0 < order) (hcount : 0 < count) (gain : ℝ) (hgain : gain ≠ 0) :
    ∃ g τ, Iir.newDesign residue (some style) f order count false gain none = .ok g ∧ 0 < τ ∧
      ∀ (s : List ℝ), s.length = g.s.length → ∀ (c d ε : ℝ), 0 < ε → ∃ N, ∀ L, 0 < L →
        ∃ y g', { g with s := s }.filter ((List.range L).map fun n : ℕ => c + d * n) = (.ok y, g') ∧ y.length = L ∧
          ∀ n, N ≤ n → n < L → |at0 y n - gain * (c + d * (n - τ))| < ε := by
  obtain ⟨g, r, h1, -, -, -, -, h5⟩ := C172_delay residue hres style f hf hf1 order count ho hcount false gain
  obtain ⟨g', G, r', k1, kc, k2, k3, k4, -, -, -, -, -, k5, -⟩ := design_form residue hres style f hf hf1 order count ho hcount false gain
  rw [h1] at k1
  cases k1
  have hane : g.a ≠ [] := wf_ne k2
  have hA := stable_sum_ne g.a k3 hane k4
  have hbs := k5 rfl
  have hB : ∑ i ∈ range g.b.length, at0 g.b i ≠ 0 := by
    rw [← sum_eq_range, hbs]
    exact mul_ne_zero hgain hA
  have hH : freqResp g.a g.b 0 ≠ 0 := by
    rw [freqResp, dtft_zero_real, dtft_zero_real, ← sum_eq_range, ← sum_eq_range]
    have h1 : (1 : ℂ) - (g.a.sum : ℝ) ≠ 0 := by exact_mod_cast hA
    have h2 : ((g.b.sum : ℝ) : ℂ) ≠ 0 := by
      rw [← sum_eq_range] at hB
      exact_mod_cast hB
    exact div_ne_zero h2 h1
  have hA' : 1 - ∑ i ∈ range g.a.length, at0 g.a i ≠ 0 := by rw [← sum_eq_range]; exact hA
  refine ⟨g, rampDelay g.a g.b, h1, ?_, fun s hs c d ε hε => ?_⟩
  · rw [← rampDelay_eq _ _ hA' hB]
    exact (h5 0 hH).2
  · obtain ⟨N, hN⟩ := (C171_ramp { g with s := s } kc ⟨k2.1, by rw [k2.2.1, hs], k2.2.2⟩ k3 k4 hB).2.1 c d ε hε
    refine ⟨N, fun L hL => ?_⟩
    obtain ⟨y, g', y1, y2, y3⟩ := hN L hL
    refine ⟨y, g', y1, y2, fun n n1 n2 => ?_⟩
    have := y3 n n1 n2
    rwa [← sum_eq_range, ← sum_eq_range, hbs, mul_div_assoc, div_self hA, mul_one] at this

/-! ### Mean delay -/

private theorem lag_continuous : Continuous lag := continuous_iff_continuousAt.mpr fun θ => (lag_deriv θ).continuousAt

private theorem lag_period (θ : ℝ) : lag (θ + 2) = lag θ := by
  unfold lag
  rw [show -(Complex.I * Real.pi * ((θ + 2 : ℝ) : ℂ)) = -(Complex.I * Real.pi * θ) + ((-1 : ℤ) : ℂ) * (2 * Real.pi * Complex.I) by push_cast; ring, Complex.exp_add,
    Complex.exp_int_mul_two_pi_mul_I, mul_one]

private theorem pole_mean (q : ℂ) (hq : ‖q‖ < 1) :
    Continuous (fun θ : ℝ => (q * lag θ / (1 - q * lag θ)).re) ∧ ∫ θ in (-1 : ℝ)..1, (q * lag θ / (1 - q * lag θ)).re = 0 := by
  have hc : Continuous (fun θ : ℝ => (q * lag θ / (1 - q * lag θ)).re) :=
    Complex.continuous_re.comp ((continuous_const.mul lag_continuous).div (continuous_const.sub (continuous_const.mul lag_continuous)) (pole_ne q hq))
  refine ⟨hc, ?_⟩
  have hslit : ∀ θ : ℝ, 1 - q * lag θ ∈ Complex.slitPlane := by
    intro θ
    left
    have h1 := Complex.abs_re_le_norm (q * lag θ)
    rw [norm_mul, lag_norm, mul_one] at h1
    have h2 := abs_le.mp h1
    rw [Complex.sub_re, Complex.one_re]
    linarith [h2.2]
  have hd : ∀ θ : ℝ, HasDerivAt (fun θ : ℝ => (Complex.log (1 - q * lag θ)).im / Real.pi) (q * lag θ / (1 - q * lag θ)).re θ := by
    intro θ
    have h1 := (factor_deriv q θ).clog_real (hslit θ)
    have h2 := (Complex.imCLM.hasFDerivAt.comp_hasDerivAt θ h1).div_const Real.pi
    refine h2.congr_deriv ?_
    rw [Complex.imCLM_apply, show Complex.I * Real.pi * (q * lag θ) / (1 - q * lag θ) = ((Real.pi : ℝ) : ℂ) * (Complex.I * (q * lag θ / (1 - q * lag θ))) by ring,
      Complex.im_ofReal_mul, Complex.I_mul_im]
    have := Real.pi_ne_zero
    field_simp
  rw [intervalIntegral.integral_eq_sub_of_hasDerivAt (fun θ _ => hd θ) (hc.intervalIntegrable _ _)]
  have := lag_period (-1)
  rw [show (-1 : ℝ) + 2 = 1 by norm_num] at this
  rw [this, sub_self]

private theorem poles_mean (r : List ℂ) (hr : ∀ q ∈ r, ‖q‖ < 1) :
    Continuous (fun θ : ℝ => (r.map fun q => (q * lag θ / (1 - q * lag θ)).re).sum) ∧ ∫ θ in (-1 : ℝ)..1, (r.map fun q => (q * lag θ / (1 - q * lag θ)).re).sum = 0 := by
  induction r with
  | nil => simp [continuous_const]
  | cons q r ih =>
    obtain ⟨h1, h2⟩ := ih fun p hp => hr p (List.mem_cons_of_mem _ hp)
    obtain ⟨h3, h4⟩ := pole_mean q (hr q (by simp))
    simp only [List.map_cons, List.sum_cons]
    refine ⟨h3.add h1, ?_⟩
    rw [intervalIntegral.integral_add (h3.intervalIntegrable _ _) (h1.intervalIntegrable _ _), h2, h4, add_zero]

/-- C172.  The mean of the group delay of a design over all frequencies is half the order, whatever the style, the frequency, the count and the complement. -/
theorem C172_mean (residue : List ℝ → List ℝ → List ℂ × List ℂ) (hres : ResidueSpec residue) (style : IStyle) (f : ℝ) (hf : 0 < f)
    (hf1 : f < 1) (order count : ℤ) (ho : 0 < order) (hcount : 0 < count) (complement : Bool) (gain : ℝ) (hgain : gain ≠ 0) :
    ∃ g, Iir.newDesign residue (some style) f order count complement gain none = .ok g ∧ (∫ θ in (-1 : ℝ)..1, groupDelay (freqResp g.a g.b) θ) / 2 = order / 2 := by
  obtain ⟨g, G, r, h1, -, -, -, -, h5, h6, h7, -, h8, -, h9⟩ := design_form residue hres style f hf hf1 order count ho hcount complement gain
  refine ⟨g, h1, ?_⟩
  have hG := h9 hgain
  obtain ⟨m1, m2⟩ := poles_mean r h7
  have hord : ((order.toNat : ℕ) : ℝ) = (order : ℝ) := by
    have : (order.toNat : ℤ) = order := by omega
    exact_mod_cast this
  have hae : ∫ θ in (-1 : ℝ)..1, groupDelay (freqResp g.a g.b) θ = ∫ θ in (-1 : ℝ)..1, ((order : ℝ) / 2 + (r.map fun q => (q * lag θ / (1 - q * lag θ)).re).sum) := by
    apply intervalIntegral.integral_congr_ae
    have hfin : ({0, 1} : Set ℝ).Countable := (Set.toFinite _).countable
    filter_upwards [hfin.ae_notMem MeasureTheory.volume] with θ hθ hmem
    rw [Set.uIoc_of_le (by norm_num)] at hmem
    have := delay_formula (freqResp g.a g.b) G (if complement then (-1 : ℂ) else 1) (by split <;> simp) order.toNat r h7 h8 θ hG
      (fun q => hθ (by rcases zero_points complement θ hmem.1 hmem.2 q with h | h <;> simp [h]))
    rw [this, hord]
  rw [hae, intervalIntegral.integral_add (by simp) (m1.intervalIntegrable _ _), m2]
  simp
  ring

/-! ### Concrete cases -/

section
variable (residue : List ℝ → List ℝ → List ℂ × List ℂ) (hres : ResidueSpec residue)

/-- A Butterworth low pass filter of order 4. -/
example := C172_delay residue hres .butterworth 0.1 (by norm_num) (by norm_num) 4 1 (by norm_num) (by norm_num) false 1

/-- A Chebyshev high pass filter of order 5, on 64 frequencies. -/
example := C172_reported residue hres .chebyshev 0.3 (by norm_num) (by norm_num) 5 2 (by norm_num) (by norm_num) true (-2) 64 2 (by norm_num) (by decide) (by norm_num)

example := C172_ramp residue hres .bessel 0.2 (by norm_num) (by norm_num) 3 1 (by norm_num) (by norm_num) 5 (by norm_num)

example := C172_mean residue hres .bessel 0.2 (by norm_num) (by norm_num) 3 1 (by norm_num) (by norm_num) true 5 (by norm_num)

end

end Verif.Props
