import Verif.Props.Butterworth
import Mathlib.Analysis.SpecialFunctions.Trigonometric.Chebyshev.RootsExtrema

/- Property C89: the magnitude response of the Chebyshev designs of IirFilter (diamondback/filters/iir_filter.py:160-254).  The specification uses the
Chebyshev polynomials `T` of Mathlib. -/

namespace Verif.Props

open Finset Spec

theorem cos_prod (N : ℕ) (hN : 0 < N) (α β : ℂ) :
    2 * (Complex.cos (N * β) - Complex.cos (N * α)) = 2 ^ N * ∏ k ∈ range N, (Complex.cos β - Complex.cos (α + 2 * Real.pi * k / N)) := by
  have hNc : (N : ℂ) ≠ 0 := by exact_mod_cast hN.ne'
  have hp : ∀ a w : ℂ, w ^ N - a ^ N = ∏ k ∈ range N, (w - Complex.exp (2 * Real.pi * Complex.I / N) ^ k * a) := by
    intro a w
    have := congrArg (Polynomial.eval w) (X_pow_sub_C_eq_prod (Complex.isPrimitiveRoot_exp N hN.ne') hN (α := a) rfl)
    simpa only [Polynomial.eval_prod, Polynomial.eval_sub, Polynomial.eval_pow, Polynomial.eval_X, Polynomial.eval_C] using this
  have hq : ∀ a w : ℂ, w ^ N - a ^ N = ∏ k ∈ range N, (w - Complex.exp (-(2 * Real.pi * Complex.I / N)) ^ k * a) := by
    intro a w
    have hr : IsPrimitiveRoot (Complex.exp (-(2 * Real.pi * Complex.I / N))) N := by
      rw [Complex.exp_neg]; exact (Complex.isPrimitiveRoot_exp N hN.ne').inv
    have := congrArg (Polynomial.eval w) (X_pow_sub_C_eq_prod hr hN (α := a) rfl)
    simpa only [Polynomial.eval_prod, Polynomial.eval_sub, Polynomial.eval_pow, Polynomial.eval_X, Polynomial.eval_C] using this
  set w := Complex.exp (β * Complex.I) with hw
  set a := Complex.exp (α * Complex.I) with ha
  have hw0 : w ≠ 0 := Complex.exp_ne_zero _
  have ha0 : a ≠ 0 := Complex.exp_ne_zero _
  have hcN : ∀ (γ : ℂ), 2 * Complex.cos (N * γ) = Complex.exp (γ * Complex.I) ^ N + (Complex.exp (γ * Complex.I) ^ N)⁻¹ := by
    intro γ
    rw [Complex.two_cos, ← Complex.exp_nat_mul, ← Complex.exp_neg]
    congr 2 <;> ring
  have key : ∀ k : ℕ, (w - Complex.exp (2 * Real.pi * Complex.I / N) ^ k * a) * (w - Complex.exp (-(2 * Real.pi * Complex.I / N)) ^ k * a⁻¹) =
      w * (2 * (Complex.cos β - Complex.cos (α + 2 * Real.pi * k / N))) := by
    intro k
    have e1 : Complex.exp (2 * Real.pi * Complex.I / N) ^ k * a = Complex.exp ((α + 2 * Real.pi * k / N) * Complex.I) := by
      rw [ha, ← Complex.exp_nat_mul, ← Complex.exp_add]; congr 1; ring
    have e2 : Complex.exp (-(2 * Real.pi * Complex.I / N)) ^ k * a⁻¹ = Complex.exp (-(α + 2 * Real.pi * k / N) * Complex.I) := by
      rw [ha, ← Complex.exp_neg, ← Complex.exp_nat_mul, ← Complex.exp_add]; congr 1; ring
    have e3 : Complex.exp ((α + 2 * Real.pi * k / N) * Complex.I) * Complex.exp (-(α + 2 * Real.pi * k / N) * Complex.I) = 1 := by
      rw [← Complex.exp_add, ← add_mul, add_neg_cancel, zero_mul, Complex.exp_zero]
    have e4 := Complex.two_cos (α + 2 * Real.pi * k / N)
    have e5 := Complex.two_cos β
    have e6 : w * Complex.exp (-β * Complex.I) = 1 := by rw [hw, ← Complex.exp_add]; simp
    rw [e1, e2]
    rw [← hw] at e5
    linear_combination e3 - e6 + w * e4 - w * e5
  have h1 : (w ^ N - a ^ N) * (w ^ N - a⁻¹ ^ N) = w ^ N * (2 ^ N * ∏ k ∈ range N, (Complex.cos β - Complex.cos (α + 2 * Real.pi * k / N))) := by
    rw [hp a w, hq a⁻¹ w, ← prod_mul_distrib, prod_congr rfl (fun k _ => key k), prod_mul_distrib, prod_mul_distrib]
    simp
  apply mul_left_cancel₀ (pow_ne_zero N hw0)
  rw [← h1, mul_sub, hcN β, hcN α, ← hw, ← ha, inv_pow]
  have : w ^ N ≠ 0 := pow_ne_zero N hw0
  have : a ^ N ≠ 0 := pow_ne_zero N ha0
  field_simp
  ring

open Polynomial.Chebyshev in
theorem cheb_prod (N : ℕ) (hN : 0 < N) (α x : ℂ) :
    2 * ((T ℂ N).eval x - Complex.cos (N * α)) = 2 ^ N * ∏ k ∈ range N, (x - Complex.cos (α + 2 * Real.pi * k / N)) := by
  obtain ⟨β, rfl⟩ := Complex.cos_surjective x
  rw [T_complex_cos]
  exact_mod_cast cos_prod N hN α β

open Polynomial.Chebyshev in
theorem cheb_norm (n : ℕ) (hn : 0 < n) (x v : ℝ) :
    2 ^ (2 * n) * ∏ k ∈ range n, Complex.normSq ((x : ℂ) - Complex.cos (((Real.pi * (2 * k + 1) / (2 * n) : ℝ) : ℂ) - v * Complex.I)) =
      4 * (((T ℝ n).eval x) ^ 2 + Real.sinh (n * v) ^ 2) := by
  have hnc : (n : ℂ) ≠ 0 := by exact_mod_cast hn.ne'
  have h := cheb_prod (2 * n) (by omega) (((Real.pi / (2 * n) : ℝ) : ℂ) - v * Complex.I) x
  have hT : ((T ℂ ((2 * n : ℕ) : ℤ)).eval (x : ℂ)) = ((2 * ((T ℝ n).eval x) ^ 2 - 1 : ℝ) : ℂ) := by
    push_cast
    obtain ⟨β, hβ⟩ := Complex.cos_surjective (x : ℂ)
    rw [← hβ, T_complex_cos, T_complex_cos]
    push_cast
    rw [mul_assoc, Complex.cos_two_mul]
  have hC : Complex.cos (((2 * n : ℕ) : ℂ) * (((Real.pi / (2 * n) : ℝ) : ℂ) - v * Complex.I)) = ((-(2 * Real.sinh (n * v) ^ 2 + 1) : ℝ) : ℂ) := by
    have e : ((2 * n : ℕ) : ℂ) * (((Real.pi / (2 * n) : ℝ) : ℂ) - v * Complex.I) = Real.pi - (2 * (n * v)) * Complex.I := by
      push_cast; field_simp
    rw [e, Complex.cos_pi_sub, Complex.cos_mul_I]
    have : Complex.cosh (2 * (n * v)) = ((2 * Real.sinh (n * v) ^ 2 + 1 : ℝ) : ℂ) := by
      have h2 := Real.cosh_two_mul (n * v)
      rw [Real.cosh_sq] at h2
      have : Real.cosh (2 * (n * v)) = 2 * Real.sinh (n * v) ^ 2 + 1 := by rw [h2]; ring
      rw [← this]; push_cast; rfl
    rw [this]; push_cast; ring
  have hP : ∏ k ∈ range (2 * n), ((x : ℂ) - Complex.cos (((Real.pi / (2 * n) : ℝ) : ℂ) - v * Complex.I + 2 * Real.pi * k / ((2 * n : ℕ) : ℂ))) =
      ((∏ k ∈ range n, Complex.normSq ((x : ℂ) - Complex.cos (((Real.pi * (2 * k + 1) / (2 * n) : ℝ) : ℂ) - v * Complex.I)) : ℝ) : ℂ) := by
    rw [two_mul, prod_range_add, ← prod_range_reflect (fun k => (x : ℂ) - Complex.cos (((Real.pi / (2 * n) : ℝ) : ℂ) - v * Complex.I + 2 * Real.pi * ((n + k : ℕ) : ℂ) / ((n + n : ℕ) : ℂ))), ← prod_mul_distrib,
      Complex.ofReal_prod]
    apply prod_congr rfl
    intro k hk
    have hk := mem_range.mp hk
    rw [← Complex.mul_conj, map_sub, Complex.conj_ofReal, ← Complex.cos_conj, map_sub, map_mul, Complex.conj_ofReal, Complex.conj_ofReal, Complex.conj_I]
    have ec : ((n + (n - 1 - k) : ℕ) : ℂ) = 2 * n - 1 - k := by
      rw [show n + (n - 1 - k) = 2 * n - 1 - k by omega, Nat.cast_sub (by omega), Nat.cast_sub (by omega)]; push_cast; ring
    congr 2
    · congr 1
      push_cast
      field_simp
      ring
    · rw [ec]
      have : ((Real.pi / (2 * n) : ℝ) : ℂ) - v * Complex.I + 2 * Real.pi * (2 * n - 1 - k) / ((n + n : ℕ) : ℂ) =
          2 * Real.pi - (((Real.pi * (2 * k + 1) / (2 * n) : ℝ) : ℂ) - v * -Complex.I) := by
        push_cast
        field_simp
        ring
      rw [this, Complex.cos_two_pi_sub]
  rw [hT, hC, hP] at h
  have h' : 2 * ((2 * ((T ℝ n).eval x) ^ 2 - 1) - (-(2 * Real.sinh (n * v) ^ 2 + 1))) =
      2 ^ (2 * n) * ∏ k ∈ range n, Complex.normSq ((x : ℂ) - Complex.cos (((Real.pi * (2 * k + 1) / (2 * n) : ℝ) : ℂ) - v * Complex.I)) := by
    exact_mod_cast h
  rw [← h']; ring

open Polynomial.Chebyshev in
/-- The Chebyshev denominator on the imaginary axis, up to a constant factor. -/
theorem chebyshev_norm (n : ℕ) (hn : 0 < n) (x : ℝ) :
    2 ^ (2 * n) * Complex.normSq (sAt (iir.denominator .chebyshev n) (Complex.I * ((2 * Real.pi * x : ℝ) : ℂ))) * ((10 : ℝ) ^ (0.0125 : ℝ) - 1) =
      4 * (2 * Real.pi) ^ (2 * n) * (1 + ((10 : ℝ) ^ (0.0125 : ℝ) - 1) * ((T ℝ n).eval x) ^ 2) := by
  have hbase : 0 < (10 : ℝ) ^ (0.0125 : ℝ) - 1 := by
    have := Real.one_lt_rpow (by norm_num : (1 : ℝ) < 10) (by norm_num : (0 : ℝ) < 0.0125)
    linarith
  have hnr : (n : ℝ) ≠ 0 := by exact_mod_cast hn.ne'
  set w := Real.arsinh (1 / ((10 : ℝ) ^ (0.1 * 0.125 : ℝ) - 1) ^ (0.5 : ℝ)) with hwd
  have hsinh : Real.sinh (n * (w / n)) ^ 2 * ((10 : ℝ) ^ (0.0125 : ℝ) - 1) = 1 := by
    rw [mul_div_cancel₀ _ hnr, hwd, Real.sinh_arsinh, show (0.1 * 0.125 : ℝ) = 0.0125 by norm_num, div_pow, one_pow, ← Real.rpow_natCast, ← Real.rpow_mul hbase.le]
    rw [show (0.5 : ℝ) * ((2 : ℕ) : ℝ) = 1 by norm_num, Real.rpow_one]
    field_simp
  have h := cheb_norm n hn x (w / n)
  have hS : Complex.normSq (sAt (iir.denominator .chebyshev n) (Complex.I * ((2 * Real.pi * x : ℝ) : ℂ))) =
      (2 * Real.pi) ^ (2 * n) * ∏ k ∈ range n, Complex.normSq ((x : ℂ) - Complex.cos (((Real.pi * (2 * k + 1) / (2 * n) : ℝ) : ℂ) - ((w / n : ℝ) : ℂ) * Complex.I)) := by
    unfold iir.denominator
    simp only
    rw [poly_eval _ (iir.chebyshev_conj n hn)]
    unfold iir.chebyshevPoles
    simp only [List.map_map]
    have hpow : ((2 * Real.pi) ^ 2) ^ n = ∏ _k ∈ range n, (2 * Real.pi) ^ 2 := by simp
    rw [list_range_prod, map_prod, pow_mul, hpow, ← prod_mul_distrib]
    apply prod_congr rfl
    intro k _
    simp only [Function.comp_apply]
    rw [← hwd]
    have e : Complex.exp (Complex.I * Real.pi * (2 * k + 1) / (2 * n)) = Complex.exp (((Real.pi * (2 * k + 1) / (2 * n) : ℝ) : ℂ) * Complex.I) := by
      congr 1; push_cast; ring
    rw [e, Complex.exp_ofReal_mul_I_re, Complex.exp_ofReal_mul_I_im]
    generalize hφ : Real.pi * (2 * (k : ℝ) + 1) / (2 * n) = φ
    generalize w / n = v
    have hc : Complex.cos ((φ : ℂ) - v * Complex.I) = ((Real.cos φ * Real.cosh v : ℝ) : ℂ) + ((Real.sin φ * Real.sinh v : ℝ) : ℂ) * Complex.I := by
      rw [Complex.cos_sub, Complex.cos_mul_I, Complex.sin_mul_I]
      push_cast
      ring
    rw [hc]
    have e2 : (Complex.I * ((2 * Real.pi * x : ℝ) : ℂ)) - (-(Real.sinh v : ℂ) * (Real.sin φ : ℂ) + Complex.I * (Real.cosh v : ℂ) * (Real.cos φ : ℂ)) * 2 * Real.pi =
        ((2 * Real.pi : ℝ) : ℂ) * Complex.I * ((x : ℂ) - (((Real.cos φ * Real.cosh v : ℝ) : ℂ) + ((Real.sin φ * Real.sinh v : ℝ) : ℂ) * Complex.I)) := by
      push_cast
      linear_combination (2 * Real.pi * (Complex.sin φ * Complex.sinh v)) * Complex.I_sq
    rw [e2, map_mul, map_mul, Complex.normSq_ofReal, Complex.normSq_I]
    ring
  rw [hS]
  linear_combination ((2 * Real.pi) ^ (2 * n) * ((10 : ℝ) ^ (0.0125 : ℝ) - 1)) * h + 4 * (2 * Real.pi) ^ (2 * n) * hsinh

theorem dtft_neg (c : List ℝ) (θ : ℝ) : dtft c (-θ) = (starRingEnd ℂ) (dtft c θ) := by
  unfold dtft
  rw [map_sum]
  apply sum_congr rfl
  intro n _
  rw [map_mul, Complex.conj_ofReal, ← Complex.exp_conj]
  congr 2
  simp only [map_neg, map_mul, Complex.conj_I, Complex.conj_ofReal, map_natCast]
  push_cast
  ring

/-- The response at the negative frequency has the same magnitude. -/
theorem freqResp_neg (a b : List ℝ) (θ : ℝ) : ‖freqResp a b (-θ)‖ = ‖freqResp a b θ‖ := by
  unfold freqResp
  rw [dtft_neg, dtft_neg, show (1 : ℂ) - (starRingEnd ℂ) (dtft a θ) = (starRingEnd ℂ) (1 - dtft a θ) by simp, ← map_div₀, RCLike.norm_conj]

/-- A design is one evaluation at a scaled frequency, mirrored for the complement. -/
theorem design_response (residue : List ℝ → List ℝ → List ℂ × List ℂ) (hres : ResidueSpec residue) (style : IStyle) (f : ℝ) (hf : 0 < f)
    (hf1 : f < 1) (order count : ℤ) (ho : 0 < order) (hcount : 0 < count) (complement : Bool) (gain : ℝ) :
    ∃ g φ a b, Iir.newDesign residue (some style) f order count complement gain none = .ok g ∧ 0 < φ ∧ iir.evaluate residue style φ order.toNat = .ok (a, b) ∧
      ∀ θ, ‖freqResp g.a g.b (if complement then 1 - θ else θ)‖ = |gain| * ‖freqResp a b θ‖ := by
  let D : ℝ → ℝ := fun x => match iir.evaluate residue style (x * (if complement then 1 - f else f)) order.toNat with
    | .ok ab => 1 / Real.sqrt 2 - ‖freqResp ab.1 ab.2 (if complement then 1 - f else f)‖ ^ count.toNat
    | .error _ => 0
  obtain ⟨n, k, a, b, -, -, -, -, -, h6, h7⟩ := C15_iir_design_best residue hres style f hf hf1 order count ho hcount complement gain _ D (scales_exist D _)
    (by intro x a b h; simp only [D, h])
  obtain ⟨a'', b'', q1, q2, q3, q4, -⟩ := iir.design_spec residue hres style f hf hf1 order count ho hcount complement gain
  rw [h7] at q1
  simp only [Except.ok.injEq, Prod.mk.injEq] at q1
  obtain ⟨q5, q6⟩ := q1
  have hane : a'' ≠ [] := by intro h; rw [h] at q3; simp at q3; omega
  obtain ⟨g', p1, p2, p3, p4, p5⟩ := Iir.new_spec (id : ℝ → ℝ) a'' b'' none (Or.inl hane) q2
  have hl : a''.length = b''.length := by omega
  have ha : g'.a = a'' := by rw [p3, hl]; simp [padTo, hl]
  have hb : g'.b = b'' := by rw [p4, hl]; simp [padTo]
  refine ⟨g', _, a, b, ?_, evaluate_pos residue _ _ _ a b h6, h6, ?_⟩
  · unfold Iir.newDesign
    rw [h7]
    simp only
    rw [q5, q6]
    convert p1
  · intro θ
    rw [ha, hb, ← q5, ← q6]
    cases complement with
    | false =>
      simp only [Bool.false_eq_true, if_false]
      unfold freqResp
      rw [dtft_scale, mul_div_assoc, norm_mul, Complex.norm_real, Real.norm_eq_abs]
    | true =>
      simp only [if_true]
      rw [← freqResp_neg a b θ]
      unfold freqResp
      rw [dtft_scale, dtft_alternate, dtft_alternate, mul_div_assoc, norm_mul, Complex.norm_real, Real.norm_eq_abs]

/-- The squared response of a Chebyshev filter with a ripple of 0.125 dB, relative to zero frequency. -/
noncomputable def chebResponse (n : ℕ) (x : ℝ) : ℝ :=
  (1 + ((10 : ℝ) ^ (0.0125 : ℝ) - 1) * ((Polynomial.Chebyshev.T ℝ n).eval 0) ^ 2) / (1 + ((10 : ℝ) ^ (0.0125 : ℝ) - 1) * ((Polynomial.Chebyshev.T ℝ n).eval x) ^ 2)

theorem ripple_pos : 0 < (10 : ℝ) ^ (0.0125 : ℝ) - 1 := by
  have := Real.one_lt_rpow (by norm_num : (1 : ℝ) < 10) (by norm_num : (0 : ℝ) < 0.0125)
  linarith

/-- C89.  The gain of one evaluation of the Chebyshev design, between zero frequency and Nyquist. -/
theorem C89_evaluate (residue : List ℝ → List ℝ → List ℂ × List ℂ) (f : ℝ) (hf : 0 < f) (n : ℕ) (hn : 0 < n) (a b : List ℝ)
    (h : iir.evaluate residue .chebyshev f n = .ok (a, b)) (θ : ℝ) (h1 : -1 < θ) (h2 : θ < 1) :
    ‖freqResp a b θ‖ = Real.sqrt (chebResponse n (Real.tan (Real.pi * θ / 2) / (Real.pi ^ 2 * f))) := by
  have hpi := Real.pi_pos
  have hr := ripple_pos
  set x := Real.tan (Real.pi * θ / 2) / (Real.pi ^ 2 * f) with hx
  have e := evaluate_response residue .chebyshev (by simp) f hf n hn a b h (2 * Real.pi * x)
  have e1 : Real.pi * f * (2 * Real.pi * x) / 2 = Real.tan (Real.pi * θ / 2) := by rw [hx]; field_simp
  rw [e1, Real.arctan_tan (by nlinarith) (by nlinarith), show 2 / Real.pi * (Real.pi * θ / 2) = θ by field_simp] at e
  rw [e, norm_div, Complex.norm_def, Complex.norm_def, ← Real.sqrt_div (Complex.normSq_nonneg _)]
  congr 1
  have n0 := chebyshev_norm n hn 0
  have nx := chebyshev_norm n hn x
  rw [mul_zero, Complex.ofReal_zero, mul_zero] at n0
  unfold chebResponse
  have hp0 : 0 < 1 + ((10 : ℝ) ^ (0.0125 : ℝ) - 1) * ((Polynomial.Chebyshev.T ℝ n).eval x) ^ 2 := by positivity
  have hU : Complex.normSq (sAt (iir.denominator .chebyshev n) (Complex.I * ((2 * Real.pi * x : ℝ) : ℂ))) ≠ 0 := by
    intro h0
    rw [h0, mul_zero, zero_mul] at nx
    have : 0 < 4 * (2 * Real.pi) ^ (2 * n) * (1 + ((10 : ℝ) ^ (0.0125 : ℝ) - 1) * ((Polynomial.Chebyshev.T ℝ n).eval x) ^ 2) := by positivity
    linarith
  rw [div_eq_div_iff hU hp0.ne']
  generalize Complex.normSq (sAt (iir.denominator .chebyshev n) (Complex.I * ((2 * Real.pi * x : ℝ) : ℂ))) = Ux at *
  generalize Complex.normSq (sAt (iir.denominator .chebyshev n) 0) = U0 at *
  generalize 1 + ((10 : ℝ) ^ (0.0125 : ℝ) - 1) * ((Polynomial.Chebyshev.T ℝ n).eval x) ^ 2 = Tx at *
  generalize 1 + ((10 : ℝ) ^ (0.0125 : ℝ) - 1) * ((Polynomial.Chebyshev.T ℝ n).eval 0) ^ 2 = T0 at *
  have hc : (4 : ℝ) * (2 * Real.pi) ^ (2 * n) ≠ 0 := by positivity
  apply mul_left_cancel₀ hc
  linear_combination Ux * n0 - U0 * nx

/-- The hypotheses hold: order 4 and half the Nyquist frequency. -/
example (residue : List ℝ → List ℝ → List ℂ × List ℂ) (hres : ResidueSpec residue) :
    ∃ a b, iir.evaluate residue .chebyshev (1 / 10) 4 = .ok (a, b) ∧ (-1 : ℝ) < 1 / 2 ∧ (1 / 2 : ℝ) < 1 := by
  obtain ⟨a, b, h, -⟩ := C11_evaluate_stable residue hres .chebyshev (1 / 10) (by norm_num) 4 (by norm_num)
  exact ⟨a, b, h, by norm_num, by norm_num⟩

/-- C89.  A Chebyshev design has the response of a Chebyshev filter of the first kind with 0.125 dB of ripple, at the frequency θ or, with complement, the
frequency 1 - θ. -/
theorem C89_shape (residue : List ℝ → List ℝ → List ℂ × List ℂ) (hres : ResidueSpec residue) (f : ℝ) (hf : 0 < f)
    (hf1 : f < 1) (order count : ℤ) (ho : 0 < order) (hcount : 0 < count) (complement : Bool) (gain : ℝ) :
    ∃ g κ, Iir.newDesign residue (some .chebyshev) f order count complement gain none = .ok g ∧ 0 < κ ∧
      ∀ θ, -1 < θ → θ < 1 → ‖freqResp g.a g.b (if complement then 1 - θ else θ)‖ =
        |gain| * Real.sqrt (chebResponse order.toNat (κ * Real.tan (Real.pi * θ / 2))) := by
  obtain ⟨g, φ, a, b, h1, h2, h3, h4⟩ := design_response residue hres .chebyshev f hf hf1 order count ho hcount complement gain
  have hpi := Real.pi_pos
  refine ⟨g, 1 / (Real.pi ^ 2 * φ), h1, by positivity, ?_⟩
  intro θ t1 t2
  rw [h4 θ, C89_evaluate residue φ h2 order.toNat (by omega) a b h3 θ t1 t2, one_div_mul_eq_div]

/-- The hypotheses hold: a low pass filter of order 4, used twice. -/
example (residue : List ℝ → List ℝ → List ℂ × List ℂ) (hres : ResidueSpec residue) :=
  C89_shape residue hres 0.1 (by norm_num) (by norm_num) 4 2 (by norm_num) (by norm_num) false 5

theorem cheb_strictMono (n : ℕ) (hn : 0 < n) (x y : ℝ) (hx : 1 ≤ x) (hxy : x < y) :
    1 ≤ (Polynomial.Chebyshev.T ℝ n).eval x ∧ (Polynomial.Chebyshev.T ℝ n).eval x < (Polynomial.Chebyshev.T ℝ n).eval y := by
  refine ⟨Polynomial.Chebyshev.one_le_eval_T_real n hx, ?_⟩
  have h1 := Real.cosh_arcosh hx
  have h2 := Real.cosh_arcosh (le_of_lt (lt_of_le_of_lt hx hxy))
  rw [← h1, ← h2, Real.cosh_lt_cosh] at hxy
  rw [← h1, ← h2, Polynomial.Chebyshev.T_real_cosh, Polynomial.Chebyshev.T_real_cosh, Real.cosh_lt_cosh, abs_mul, abs_mul]
  have : 0 < |((n : ℤ) : ℝ)| := abs_pos.mpr (by exact_mod_cast hn.ne')
  exact mul_lt_mul_of_pos_left hxy this

/-- The smallest and the largest response in the pass band, for gain 1. -/
noncomputable def chebLow (n : ℕ) : ℝ := if n % 2 = 1 then (10 : ℝ) ^ (-(0.125 / 20) : ℝ) else 1

noncomputable def chebHigh (n : ℕ) : ℝ := if n % 2 = 1 then 1 else (10 : ℝ) ^ (0.125 / 20 : ℝ)

theorem ten_sqrt : Real.sqrt ((10 : ℝ) ^ (0.0125 : ℝ)) = (10 : ℝ) ^ (0.125 / 20 : ℝ) := by
  rw [Real.sqrt_eq_rpow, ← Real.rpow_mul (by norm_num)]
  congr 1
  norm_num

theorem cheb_zero_sq (n : ℕ) : ((Polynomial.Chebyshev.T ℝ n).eval 0) ^ 2 = if n % 2 = 1 then 0 else 1 := by
  split
  · rename_i h
    rw [Polynomial.Chebyshev.T_eval_zero_of_odd ℝ (by exact_mod_cast Nat.odd_iff.mpr h)]; simp
  · rename_i h
    rw [Polynomial.Chebyshev.T_eval_zero_of_even ℝ (by exact_mod_cast Nat.even_iff.mpr (by omega))]
    rcases Int.units_eq_one_or (Int.negOnePow ((n : ℤ) / 2)) with h' | h' <;> rw [h'] <;> simp

theorem chebResponse_low (n : ℕ) (x : ℝ) (h : ((Polynomial.Chebyshev.T ℝ n).eval x) ^ 2 = 1) : Real.sqrt (chebResponse n x) = chebLow n := by
  unfold chebResponse chebLow
  have hE : 0 < (10 : ℝ) ^ (0.0125 : ℝ) := by positivity
  rw [h, cheb_zero_sq]
  split
  · rw [mul_zero, add_zero, mul_one, add_sub_cancel, Real.sqrt_div (by norm_num), Real.sqrt_one, ten_sqrt, Real.rpow_neg (by norm_num), one_div]
  · rw [div_self (by rw [mul_one, add_sub_cancel]; exact hE.ne'), Real.sqrt_one]

theorem chebResponse_high (n : ℕ) (x : ℝ) (h : ((Polynomial.Chebyshev.T ℝ n).eval x) ^ 2 = 0) : Real.sqrt (chebResponse n x) = chebHigh n := by
  unfold chebResponse chebHigh
  rw [h, cheb_zero_sq]
  split
  · simp
  · rw [mul_zero, add_zero, mul_one, add_sub_cancel, div_one, ten_sqrt]

theorem chebResponse_mono (n : ℕ) (x y : ℝ) (h : ((Polynomial.Chebyshev.T ℝ n).eval x) ^ 2 ≤ ((Polynomial.Chebyshev.T ℝ n).eval y) ^ 2) :
    Real.sqrt (chebResponse n y) ≤ Real.sqrt (chebResponse n x) := by
  have hr := ripple_pos
  apply Real.sqrt_le_sqrt
  unfold chebResponse
  apply div_le_div_of_nonneg_left (by positivity) (by positivity)
  nlinarith

/-- C89.  Equiripple: up to an edge the response stays between two values which differ by 0.125 dB, and takes them alternately at order + 1 frequencies, the
smaller one at the edge; beyond the edge it falls strictly.  For odd orders the larger value is the gain, for even orders the smaller one. -/
theorem C89_equiripple (residue : List ℝ → List ℝ → List ℂ × List ℂ) (hres : ResidueSpec residue) (f : ℝ) (hf : 0 < f)
    (hf1 : f < 1) (order count : ℤ) (ho : 0 < order) (hcount : 0 < count) (complement : Bool) (gain : ℝ) (hg : gain ≠ 0) :
    ∃ (g : Iir ℝ) (t : ℕ → ℝ), Iir.newDesign residue (some .chebyshev) f order count complement gain none = .ok g ∧
      0 < t 0 ∧ t 0 < 1 ∧ t order.toNat = 0 ∧ (∀ i j, i < j → j ≤ order.toNat → t j < t i) ∧
      (∀ j ≤ order.toNat, ‖freqResp g.a g.b (if complement then 1 - t j else t j)‖ = |gain| * if j % 2 = 0 then chebLow order.toNat else chebHigh order.toNat) ∧
      (∀ θ, 0 ≤ θ → θ ≤ t 0 → |gain| * chebLow order.toNat ≤ ‖freqResp g.a g.b (if complement then 1 - θ else θ)‖ ∧
        ‖freqResp g.a g.b (if complement then 1 - θ else θ)‖ ≤ |gain| * chebHigh order.toNat) ∧
      StrictAntiOn (fun θ => ‖freqResp g.a g.b (if complement then 1 - θ else θ)‖) (Set.Ico (t 0) 1) := by
  obtain ⟨g, κ, h1, h2, h3⟩ := C89_shape residue hres f hf hf1 order count ho hcount complement gain
  have hpi := Real.pi_pos
  have hr := ripple_pos
  set n := order.toNat with hn
  have hn0 : 0 < n := by omega
  have hnr : (0 : ℝ) < n := by exact_mod_cast hn0
  set t : ℕ → ℝ := fun j => 2 / Real.pi * Real.arctan (Real.cos (j * Real.pi / (2 * n)) / κ) with ht
  have hx : ∀ j, κ * Real.tan (Real.pi * t j / 2) = Real.cos (j * Real.pi / (2 * n)) := by
    intro j
    rw [ht]
    simp only
    rw [show Real.pi * (2 / Real.pi * Real.arctan (Real.cos (j * Real.pi / (2 * n)) / κ)) / 2 = Real.arctan (Real.cos (j * Real.pi / (2 * n)) / κ) by field_simp, Real.tan_arctan]
    field_simp
  have htb : ∀ j, -1 < t j ∧ t j < 1 := by
    intro j
    have b1 := Real.arctan_lt_pi_div_two (Real.cos (j * Real.pi / (2 * n)) / κ)
    have b2 := Real.neg_pi_div_two_lt_arctan (Real.cos (j * Real.pi / (2 * n)) / κ)
    have e : ∀ y, 2 / Real.pi * y = y / (Real.pi / 2) := by intro y; field_simp
    simp only [ht, e]
    rw [lt_div_iff₀ (by positivity), div_lt_iff₀ (by positivity)]
    constructor <;> linarith
  have hTj : ∀ j : ℕ, (Polynomial.Chebyshev.T ℝ n).eval (Real.cos (j * Real.pi / (2 * n))) = Real.cos (j * (Real.pi / 2)) := by
    intro j
    rw [Polynomial.Chebyshev.T_real_cos]
    congr 1
    push_cast
    field_simp
  have htan : ∀ x y, 0 ≤ x → x < y → y < 1 → 0 ≤ Real.tan (Real.pi * x / 2) ∧ Real.tan (Real.pi * x / 2) < Real.tan (Real.pi * y / 2) := by
    intro x y q1 q2 q3
    exact ⟨Real.tan_nonneg_of_nonneg_of_le_pi_div_two (by positivity) (by nlinarith), Real.tan_lt_tan_of_nonneg_of_lt_pi_div_two (by positivity) (by nlinarith) (by nlinarith)⟩
  have hk0 : κ * Real.tan (Real.pi * t 0 / 2) = 1 := by rw [hx 0]; simp
  have htanmono : ∀ i j, i < j → j ≤ n → t j < t i := by
    intro i j hij hj
    simp only [ht]
    apply mul_lt_mul_of_pos_left _ (by positivity)
    apply Real.arctan_strictMono
    apply div_lt_div_of_pos_right _ h2
    have hij' : (i : ℝ) < j := by exact_mod_cast hij
    have hj' : (j : ℝ) ≤ n := by exact_mod_cast hj
    apply Real.cos_lt_cos_of_nonneg_of_le_pi (by positivity)
    · rw [div_le_iff₀ (by positivity)]; nlinarith
    · apply div_lt_div_of_pos_right _ (by positivity)
      nlinarith
  have htn : t n = 0 := by
    simp only [ht]
    rw [show (n : ℝ) * Real.pi / (2 * n) = Real.pi / 2 by field_simp]
    simp
  have ht0 : 0 < t 0 := by rw [← htn]; exact htanmono 0 n hn0 le_rfl
  refine ⟨g, t, h1, ht0, (htb 0).2, htn, htanmono, ?_, ?_, ?_⟩
  · intro j _
    rw [h3 (t j) (htb j).1 (htb j).2, hx j]
    congr 1
    split
    · rename_i hj
      apply chebResponse_low
      rw [hTj]
      obtain ⟨m, rfl⟩ : ∃ m, j = 2 * m := ⟨j / 2, by omega⟩
      rw [show ((2 * m : ℕ) : ℝ) * (Real.pi / 2) = m * Real.pi by push_cast; ring, Real.cos_nat_mul_pi, ← pow_mul, mul_comm m 2, pow_mul]
      simp
    · rename_i hj
      apply chebResponse_high
      rw [hTj]
      obtain ⟨m, rfl⟩ : ∃ m, j = 2 * m + 1 := ⟨j / 2, by omega⟩
      rw [show ((2 * m + 1 : ℕ) : ℝ) * (Real.pi / 2) = m * Real.pi + Real.pi / 2 by push_cast; ring, Real.cos_add_pi_div_two, Real.sin_nat_mul_pi]
      simp
  · intro θ q1 q2
    have hθ1 : θ < 1 := lt_of_le_of_lt q2 (htb 0).2
    rw [h3 θ (by linarith) hθ1]
    have hle : |κ * Real.tan (Real.pi * θ / 2)| ≤ 1 := by
      have hnn : 0 ≤ Real.tan (Real.pi * θ / 2) := Real.tan_nonneg_of_nonneg_of_le_pi_div_two (by positivity) (by nlinarith)
      rw [abs_of_nonneg (by positivity), ← hk0]
      rcases eq_or_lt_of_le q2 with rfl | h
      · exact le_rfl
      · exact mul_le_mul_of_nonneg_left (htan θ (t 0) q1 h (htb 0).2).2.le h2.le
    have hT := Polynomial.Chebyshev.abs_eval_T_real_le_one n hle
    have hT2 : ((Polynomial.Chebyshev.T ℝ n).eval (κ * Real.tan (Real.pi * θ / 2))) ^ 2 ≤ 1 := by
      rw [sq_le_one_iff_abs_le_one]; exact hT
    constructor
    · apply mul_le_mul_of_nonneg_left _ (abs_nonneg _)
      have h0 : ((Polynomial.Chebyshev.T ℝ n).eval 1) ^ 2 = 1 := by rw [Polynomial.Chebyshev.T_eval_one]; simp
      rw [← chebResponse_low n 1 h0]
      apply chebResponse_mono
      rw [h0]; exact hT2
    · apply mul_le_mul_of_nonneg_left _ (abs_nonneg _)
      have hz : ((Polynomial.Chebyshev.T ℝ n).eval (Real.cos ((1 : ℕ) * Real.pi / (2 * n)))) ^ 2 = 0 := by
        rw [hTj 1]; simp
      rw [← chebResponse_high n _ hz]
      apply chebResponse_mono
      rw [hz]; positivity
  · intro x hx' y hy hxy
    simp only
    rw [h3 x (by linarith [hx'.1]) hx'.2, h3 y (by linarith [hy.1]) hy.2]
    apply mul_lt_mul_of_pos_left _ (abs_pos.mpr hg)
    apply Real.sqrt_lt_sqrt
    · unfold chebResponse; positivity
    have m1 : 1 ≤ κ * Real.tan (Real.pi * x / 2) := by
      rw [← hk0]
      rcases eq_or_lt_of_le hx'.1 with h | h
      · rw [h]
      · exact mul_le_mul_of_nonneg_left (htan (t 0) x ht0.le h hx'.2).2.le h2.le
    have m2 : κ * Real.tan (Real.pi * x / 2) < κ * Real.tan (Real.pi * y / 2) :=
      mul_lt_mul_of_pos_left (htan x y (by linarith [hx'.1]) hxy hy.2).2 h2
    obtain ⟨c1, c2⟩ := cheb_strictMono n hn0 _ _ m1 m2
    unfold chebResponse
    apply div_lt_div_of_pos_left (by positivity) (by positivity)
    have : ((Polynomial.Chebyshev.T ℝ n).eval (κ * Real.tan (Real.pi * x / 2))) ^ 2 < ((Polynomial.Chebyshev.T ℝ n).eval (κ * Real.tan (Real.pi * y / 2))) ^ 2 := by
      apply pow_lt_pow_left₀ c2 (by linarith) two_ne_zero
    nlinarith

/-- The ripple is 0.125 dB for both parities. -/
example (n : ℕ) : chebHigh n / chebLow n = (10 : ℝ) ^ (0.125 / 20 : ℝ) := by
  unfold chebHigh chebLow
  split
  · rw [Real.rpow_neg (by norm_num), one_div, inv_inv]
  · simp

/-- The response of an eighth order design at zero frequency is the smaller value. -/
example (residue : List ℝ → List ℝ → List ℂ × List ℂ) (hres : ResidueSpec residue) :
    ∃ g, Iir.newDesign residue (some .chebyshev) (1 / 10) 8 1 false 1 none = .ok g ∧ ‖freqResp g.a g.b 0‖ = 1 := by
  obtain ⟨g, t, h1, -, -, h2, -, h3, -⟩ := C89_equiripple residue hres (1 / 10) (by norm_num) (by norm_num) 8 1 (by norm_num) (by norm_num) false 1 (by norm_num)
  refine ⟨g, h1, ?_⟩
  have := h3 8 le_rfl
  rw [show t 8 = 0 from h2] at this
  simpa [chebLow] using this

end Verif.Props
