import Verif.Props.Bessel
import Verif.Props.ChebyshevCutoff
import Mathlib.MeasureTheory.Integral.IntervalIntegral.FundThmCalculus
import Mathlib.Analysis.SpecialFunctions.Trigonometric.DerivHyp
import Mathlib.Analysis.SpecialFunctions.Trigonometric.Series

/- Property C130: the response of the Bessel designs of IirFilter at all frequencies, and at the design frequency (diamondback/filters/iir_filter.py:160-254). -/

namespace Verif.Props

open Finset Spec Polynomial

/-- The outcome of the search of any design at all frequencies. -/
theorem design_outcome (residue : List ℝ → List ℝ → List ℂ × List ℂ) (hres : ResidueSpec residue) (style : IStyle) (f : ℝ) (hf : 0 < f)
    (hf1 : f < 1) (order count : ℤ) (ho : 0 < order) (hcount : 0 < count) (complement : Bool) (gain f' : ℝ) (hf' : f' = if complement then 1 - f else f)
    (s : ℕ → ℝ) (G : ℝ → ℝ) (hs : Scales (fun x => 1 / Real.sqrt 2 - G x ^ count.toNat) (if order > 8 ∨ (order > 6 ∧ count > 1) then 0.015 else 0.03) (1 / 2 ^ 52) s)
    (hG : ∀ x a b, 0 < x → iir.evaluate residue style (x * f') order.toNat = .ok (a, b) → G x = ‖freqResp a b f'‖) :
    ∃ g n k a b, Iir.newDesign residue (some style) f order count complement gain none = .ok g ∧ 1 ≤ n ∧ n ≤ 500 ∧
      (n = 500 ∨ |1 / Real.sqrt 2 - G (s (n - 1)) ^ count.toNat| < 10e3 / 2 ^ 52) ∧
      FirstBest (fun x => 1 / Real.sqrt 2 - G x ^ count.toNat) s n k ∧ 0 < s k ∧ iir.evaluate residue style (s k * f') order.toNat = .ok (a, b) ∧
      ∀ θ, ‖freqResp g.a g.b (if complement then 1 - θ else θ)‖ = |gain| * ‖freqResp a b θ‖ := by
  have hf0 : 0 < f' := by rw [hf']; split <;> linarith
  have hpos : ∀ x, 0 < x * f' → 0 < x := fun x h => by
    by_contra hn
    push Not at hn
    nlinarith
  obtain ⟨n, k, a, b, h1, h2, h3, -, h5, h6, h7⟩ := C15_iir_design_best residue hres style f hf hf1 order count ho hcount complement gain s _ hs
    (by
      intro x a b h
      rw [← hf'] at h ⊢
      rw [hG x a b (hpos x (evaluate_pos residue _ _ _ a b h)) h])
  rw [← hf'] at h6
  obtain ⟨a'', b'', q1, q2, q3, q4, -⟩ := iir.design_spec residue hres style f hf hf1 order count ho hcount complement gain
  rw [h7] at q1
  simp only [Except.ok.injEq, Prod.mk.injEq] at q1
  obtain ⟨q5, q6⟩ := q1
  have hane : a'' ≠ [] := by intro h; rw [h] at q3; simp at q3; omega
  obtain ⟨g', p1, p2, p3, p4, p5⟩ := Iir.new_spec (id : ℝ → ℝ) a'' b'' none (Or.inl hane) q2
  have hl : a''.length = b''.length := by omega
  have ha : g'.a = a'' := by rw [p3, hl]; simp [padTo, hl]
  have hb : g'.b = b'' := by rw [p4, hl]; simp [padTo]
  have hsk : 0 < s k := hpos _ (evaluate_pos residue _ _ _ a b h6)
  refine ⟨g', n, k, a, b, ?_, h1, h2, h3, h5, hsk, h6, fun θ => ?_⟩
  · unfold Iir.newDesign
    rw [h7]
    simp only
    rw [q5, q6]
    convert p1
  · rw [ha, hb, ← q5, ← q6]
    cases complement with
    | false =>
      simp only [Bool.false_eq_true, if_false]
      unfold freqResp
      rw [dtft_scale, mul_div_assoc, norm_mul, Complex.norm_real, Real.norm_eq_abs]
    | true =>
      simp only [if_true]
      rw [← freqResp_neg a b θ]
      unfold freqResp
      rw [dtft_scale, dtft_alternate, dtft_alternate, mul_div_assoc, norm_mul, Complex.norm_real, Real.norm_eq_abs]

/-- The squared magnitude of `1 - e^{a + ib}`. -/
theorem normSq_one_sub_exp (a b : ℝ) : ‖1 - Complex.exp (a + b * Complex.I)‖ ^ 2 = 2 * Real.exp a * (Real.cosh a - Real.cos b) := by
  rw [← Complex.normSq_eq_norm_sq, Complex.exp_add, Complex.exp_mul_I, ← Complex.ofReal_exp, ← Complex.ofReal_cos, ← Complex.ofReal_sin, Complex.normSq_apply]
  simp only [Complex.sub_re, Complex.one_re, Complex.mul_re, Complex.add_re, Complex.ofReal_re, Complex.ofReal_im, Complex.I_re, Complex.I_im,
    Complex.mul_im, Complex.add_im, Complex.sub_im, Complex.one_im]
  have h1 := Real.sin_sq_add_cos_sq b
  have h2 : 2 * Real.exp a * Real.cosh a = Real.exp a ^ 2 + 1 := by
    rw [Real.cosh_eq, show 2 * Real.exp a * ((Real.exp a + Real.exp (-a)) / 2) = Real.exp a ^ 2 + Real.exp a * Real.exp (-a) by ring, ← Real.exp_add]
    simp
  linear_combination Real.exp a ^ 2 * h1 - h2

/-- The magnitude of one pole of a Bessel design, at the frequency `θ`. -/
theorem pole_factor (κ θ : ℝ) (p : ℂ) :
    ‖(1 - Complex.exp (Real.pi * κ * p)) / (1 - Complex.exp (Real.pi * κ * p) * Complex.exp (-(Complex.I * Real.pi * θ)))‖ ^ 2 =
      (Real.cosh (Real.pi * κ * p.re) - Real.cos (Real.pi * κ * p.im)) / (Real.cosh (Real.pi * κ * p.re) - Real.cos (Real.pi * κ * p.im - Real.pi * θ)) := by
  have e1 : (Real.pi * κ * p : ℂ) = ((Real.pi * κ * p.re : ℝ) : ℂ) + ((Real.pi * κ * p.im : ℝ) : ℂ) * Complex.I := by
    conv_lhs => rw [← Complex.re_add_im p]
    push_cast; ring
  have e2 : Complex.exp (Real.pi * κ * p) * Complex.exp (-(Complex.I * Real.pi * θ)) =
      Complex.exp (((Real.pi * κ * p.re : ℝ) : ℂ) + ((Real.pi * κ * p.im - Real.pi * θ : ℝ) : ℂ) * Complex.I) := by
    rw [← Complex.exp_add, e1]
    congr 1
    push_cast; ring
  rw [norm_div, div_pow, e2, e1, normSq_one_sub_exp, normSq_one_sub_exp, mul_div_mul_left]
  positivity

/-- A list of roots is determined by the polynomial, up to the order. -/
theorem roots_perm (P Q : List ℂ) (h : ∀ s : ℂ, (P.map (s - ·)).prod = (Q.map (s - ·)).prod) : P.Perm Q := by
  have e : (P.map fun p => X - C p).prod = (Q.map fun p => X - C p).prod := by
    refine Polynomial.funext fun s => ?_
    simpa [Polynomial.eval_list_prod, List.map_map, Function.comp_def] using h s
  have r : ∀ L : List ℂ, ((L.map fun p => X - C p).prod : ℂ[X]).roots = (L : Multiset ℂ) := by
    intro L
    have := Polynomial.roots_multiset_prod_X_sub_C (L : Multiset ℂ)
    simpa using this
  have := congrArg Polynomial.roots e
  rw [r, r] at this
  exact Multiset.coe_eq_coe.mp this

/-- The squared magnitude of the response of a product of zeros at Nyquist and poles `exp(π κ p)`. -/
noncomputable def besselGainSq (P : List ℂ) (κ θ : ℝ) : ℝ :=
  Real.cos (Real.pi * θ / 2) ^ (2 * P.length) * (P.map fun p =>
    (Real.cosh (Real.pi * κ * p.re) - Real.cos (Real.pi * κ * p.im)) / (Real.cosh (Real.pi * κ * p.re) - Real.cos (Real.pi * κ * p.im - Real.pi * θ))).prod

theorem zero_factor (θ : ℝ) : ‖(1 + Complex.exp (-(Complex.I * Real.pi * θ))) / 2‖ ^ 2 = Real.cos (Real.pi * θ / 2) ^ 2 := by
  have e : -(Complex.I * Real.pi * θ) = ((-(Real.pi * θ) : ℝ) : ℂ) * Complex.I := by push_cast; ring
  rw [e, Complex.exp_mul_I, ← Complex.ofReal_cos, ← Complex.ofReal_sin, ← Complex.normSq_eq_norm_sq, Complex.normSq_div, Complex.normSq_apply]
  simp only [Complex.add_re, Complex.one_re, Complex.mul_re, Complex.ofReal_re, Complex.ofReal_im, Complex.I_re, Complex.I_im, Complex.add_im, Complex.one_im, Complex.mul_im]
  have h1 := Real.sin_sq_add_cos_sq (Real.pi * θ)
  have h2 : Real.cos (Real.pi * θ) = 2 * Real.cos (Real.pi * θ / 2) ^ 2 - 1 := by
    rw [← Real.cos_two_mul]; congr 1; ring
  rw [Real.cos_neg, Real.sin_neg]
  simp only [Complex.normSq_ofNat]
  rw [h2] at h1 ⊢
  linear_combination h1 / 4

theorem norm_list_prod (l : List ℂ) : ‖l.prod‖ = (l.map (‖·‖)).prod := by
  induction l with
  | nil => simp
  | cons a l ih => simp [ih]

theorem list_prod_pow (l : List ℝ) (n : ℕ) : l.prod ^ n = (l.map (· ^ n)).prod := by
  induction l with
  | nil => simp
  | cons a l ih => simp [mul_pow, ih]

/-- The roots of the Bessel polynomial, and the response of the candidates of the search. -/
theorem bessel_candidates (residue : List ℝ → List ℝ → List ℂ × List ℂ) (hres : ResidueSpec residue) (order : ℕ) (ho : 0 < order) :
    ∃ P : List ℂ, P.length = order ∧ (∀ s, sAt (iir.denominator .bessel order) s = (P.map (s - ·)).prod) ∧ (∀ p ∈ P, p.re < 0) ∧
      ∀ κ a b, 0 < κ → iir.evaluate residue .bessel κ order = .ok (a, b) → (∀ θ, ‖freqResp a b θ‖ ^ 2 = besselGainSq P κ θ) ∧
        ∀ θ : ℝ, freqResp a b θ = ((1 + Complex.exp (-(Complex.I * Real.pi * θ))) / 2) ^ order *
        (P.map fun p => (1 - Complex.exp (Real.pi * κ * p)) / (1 - Complex.exp (Real.pi * κ * p) * Complex.exp (-(Complex.I * Real.pi * θ)))).prod := by
  obtain ⟨a1, b1, h1, -⟩ := iir.evaluate_spec residue hres .bessel 1 one_pos order ho
  obtain ⟨P, hl, hP, -⟩ := C100_response residue hres 1 order ho a1 b1 h1
  refine ⟨P, hl, hP, fun p hp => ?_, fun κ a b hκ h => ?_⟩
  · by_contra hn
    push Not at hn
    refine hurwitz_sAt order _ (iir.denominator_hurwitz .bessel order ho) p hn ?_
    rw [hP]
    exact List.prod_eq_zero (List.mem_map.mpr ⟨p, hp, sub_self p⟩)
  · obtain ⟨Q, -, hQ, hr⟩ := C100_response residue hres κ order ho a b h
    have hperm : Q.Perm P := roots_perm Q P fun s => by rw [← hQ, ← hP]
    have hr' : ∀ θ : ℝ, freqResp a b θ = ((1 + Complex.exp (-(Complex.I * Real.pi * θ))) / 2) ^ order *
        (P.map fun p => (1 - Complex.exp (Real.pi * κ * p)) / (1 - Complex.exp (Real.pi * κ * p) * Complex.exp (-(Complex.I * Real.pi * θ)))).prod := by
      intro θ
      rw [hr θ, (hperm.map _).prod_eq]
    refine ⟨fun θ => ?_, hr'⟩
    rw [hr' θ, norm_mul, norm_pow, mul_pow, ← pow_mul, mul_comm order 2, pow_mul, zero_factor, ← pow_mul, norm_list_prod, list_prod_pow, besselGainSq, hl,
      List.map_map, List.map_map]
    congr 2
    apply List.map_congr_left
    intro p _
    exact pole_factor κ θ p

/-- C130: the response of a Bessel design with any valid frequency, order, count, complement and gain: there are `κ > 0` and the roots `p` of the
reverse Bessel polynomial, so that the squared magnitude at the frequency `θ` (at `1 - θ` with complement) is
`gain² cos(πθ/2)^{2 order} ∏ (cosh(πκ Re p) - cos(πκ Im p)) / (cosh(πκ Re p) - cos(πκ Im p - πθ))`. -/
theorem C130_shape (residue : List ℝ → List ℝ → List ℂ × List ℂ) (hres : ResidueSpec residue) (f : ℝ) (hf : 0 < f)
    (hf1 : f < 1) (order count : ℤ) (ho : 0 < order) (hcount : 0 < count) (complement : Bool) (gain : ℝ) :
    ∃ g κ, ∃ P : List ℂ, Iir.newDesign residue (some .bessel) f order count complement gain none = .ok g ∧ 0 < κ ∧ (P.length : ℤ) = order ∧
      (∀ s, sAt (iir.denominator .bessel order.toNat) s = (P.map (s - ·)).prod) ∧
      ∀ θ, ‖freqResp g.a g.b (if complement then 1 - θ else θ)‖ ^ 2 = gain ^ 2 * (Real.cos (Real.pi * θ / 2) ^ (2 * P.length) * (P.map fun p =>
        (Real.cosh (Real.pi * κ * p.re) - Real.cos (Real.pi * κ * p.im)) / (Real.cosh (Real.pi * κ * p.re) - Real.cos (Real.pi * κ * p.im - Real.pi * θ))).prod) := by
  obtain ⟨P, hl, hP, hneg, hc⟩ := bessel_candidates residue hres order.toNat (by omega)
  obtain ⟨f', hf'⟩ : ∃ f', f' = if complement then 1 - f else f := ⟨_, rfl⟩
  have hf0 : 0 < f' := by rw [hf']; split <;> linarith
  obtain ⟨g, n, k, a, b, h1, -, -, -, -, h6, h7, h8⟩ := design_outcome residue hres .bessel f hf hf1 order count ho hcount complement gain f' hf' _
    (fun x => Real.sqrt (besselGainSq P (x * f') f')) (scales_exist _ _) (by
      intro x a b hx h
      rw [← (hc (x * f') a b (by positivity) h).1, Real.sqrt_sq (norm_nonneg _)])
  refine ⟨g, _, P, h1, mul_pos h6 hf0, by omega, hP, fun θ => ?_⟩
  rw [h8, mul_pow, sq_abs, (hc _ a b (mul_pos h6 hf0) h7).1]
  rfl

/-- The hypotheses hold: a low pass filter of order 3, used twice. -/
example (residue : List ℝ → List ℝ → List ℂ × List ℂ) (hres : ResidueSpec residue) :=
  C130_shape residue hres 0.1 (by norm_num) (by norm_num) 3 2 (by norm_num) (by norm_num) false 5

theorem one_sub_exp_le (w : ℂ) (hw : w.re < 0) : ‖1 - Complex.exp w‖ ≤ ‖w‖ / |w.re| * (1 - Real.exp w.re) := by
  have hd : ∀ t ∈ Set.uIcc (0 : ℝ) 1, HasDerivAt (fun t : ℝ => Complex.exp (t * w)) (w * Complex.exp (t * w)) t := by
    intro t _
    have h1 : HasDerivAt (fun z : ℂ => Complex.exp (z * w)) (Complex.exp (t * w) * w) (t : ℂ) := by
      simpa using ((hasDerivAt_id (t : ℂ)).mul_const w).cexp
    have := h1.comp_ofReal
    rwa [mul_comm] at this
  have hr : ∀ t ∈ Set.uIcc (0 : ℝ) 1, HasDerivAt (fun t : ℝ => ‖w‖ / w.re * Real.exp (t * w.re)) (‖w‖ * Real.exp (t * w.re)) t := by
    intro t _
    have := (((hasDerivAt_id t).mul_const w.re).exp).const_mul (‖w‖ / w.re)
    have e : ‖w‖ / w.re * (Real.exp (id t * w.re) * (1 * w.re)) = ‖w‖ * Real.exp (t * w.re) := by
      have := hw.ne
      rw [id, one_mul]
      field_simp
    rw [← e]
    exact this
  have hc1 : Continuous fun t : ℝ => w * Complex.exp (t * w) := by fun_prop
  have hc2 : Continuous fun t : ℝ => ‖w‖ * Real.exp (t * w.re) := by fun_prop
  have i1 := intervalIntegral.integral_eq_sub_of_hasDerivAt hd (hc1.intervalIntegrable 0 1)
  have i2 := intervalIntegral.integral_eq_sub_of_hasDerivAt hr (hc2.intervalIntegrable 0 1)
  have hle := intervalIntegral.norm_integral_le_integral_norm (f := fun t : ℝ => w * Complex.exp (t * w)) (μ := MeasureTheory.volume) zero_le_one
  have hn : ∀ t : ℝ, ‖w * Complex.exp (t * w)‖ = ‖w‖ * Real.exp (t * w.re) := by
    intro t; rw [norm_mul, Complex.norm_exp]; simp
  simp only [hn] at hle
  rw [i1, i2] at hle
  simp only [Complex.ofReal_one, one_mul, Complex.ofReal_zero, zero_mul, Complex.exp_zero, Real.exp_zero, mul_one] at hle
  rw [norm_sub_rev, abs_of_neg hw]
  calc _ ≤ _ := hle
    _ = _ := by rw [div_neg]; ring

/-- The poles of a Bessel design amplify by at most the product of `|p| / |Re p|`. -/
theorem poles_le (P : List ℂ) (hneg : ∀ p ∈ P, p.re < 0) (κ θ : ℝ) (hκ : 0 < κ) :
    ‖(P.map fun p => (1 - Complex.exp (Real.pi * κ * p)) / (1 - Complex.exp (Real.pi * κ * p) * Complex.exp (-(Complex.I * Real.pi * θ)))).prod‖ ≤
      (P.map fun p => ‖p‖ / |p.re|).prod := by
  have hpi := Real.pi_pos
  rw [norm_list_prod, List.map_map]
  induction P with
  | nil => simp
  | cons p P ih =>
    simp only [List.map_cons, List.prod_cons]
    have hp := hneg p (List.mem_cons_self ..)
    apply mul_le_mul _ (ih fun q hq => hneg q (List.mem_cons_of_mem _ hq))
    · apply List.prod_nonneg
      intro v hv
      obtain ⟨q, -, rfl⟩ := List.mem_map.mp hv
      exact norm_nonneg _
    · positivity
    · simp only [Function.comp_apply]
      have hre : (Real.pi * ((κ : ℝ) : ℂ) * p).re = Real.pi * κ * p.re := by
        rw [← Complex.ofReal_mul, Complex.re_ofReal_mul]
      have hwre : (Real.pi * ((κ : ℝ) : ℂ) * p).re < 0 := by
        rw [hre]; exact mul_neg_of_pos_of_neg (by positivity) hp
      have hnum := one_sub_exp_le _ hwre
      have hden : 1 - Real.exp (Real.pi * κ * p.re) ≤ ‖1 - Complex.exp (Real.pi * κ * p) * Complex.exp (-(Complex.I * Real.pi * θ))‖ := by
        have := norm_sub_norm_le (1 : ℂ) (Complex.exp (Real.pi * κ * p) * Complex.exp (-(Complex.I * Real.pi * θ)))
        rw [norm_one, norm_mul, Complex.norm_exp, Complex.norm_exp, hre] at this
        simpa using this
      have hpos : 0 < 1 - Real.exp (Real.pi * κ * p.re) := by
        rw [sub_pos, Real.exp_lt_one_iff, ← hre]; exact hwre
      have hM : ‖(Real.pi * ((κ : ℝ) : ℂ) * p)‖ / |(Real.pi * ((κ : ℝ) : ℂ) * p).re| = ‖p‖ / |p.re| := by
        rw [hre, norm_mul, ← Complex.ofReal_mul, Complex.norm_real, Real.norm_eq_abs, abs_mul (Real.pi * κ), mul_div_mul_left]
        exact abs_ne_zero.mpr (by positivity)
      rw [hM, hre] at hnum
      rw [norm_div, div_le_iff₀ (lt_of_lt_of_le hpos hden)]
      exact hnum.trans (mul_le_mul_of_nonneg_left hden (by positivity))

/-- C130: a bound of the response of a Bessel design at all frequencies, whatever the search returns: at the distance `θ` from zero frequency (from Nyquist with
complement) it is at most `|gain| C cos(πθ/2)^order` where `C` is the product of `|p| / |Re p|` over the roots of the reverse Bessel polynomial. -/
theorem C130_bound (residue : List ℝ → List ℝ → List ℂ × List ℂ) (hres : ResidueSpec residue) (order : ℤ) (ho : 0 < order) :
    ∃ P : List ℂ, (P.length : ℤ) = order ∧ (∀ s, sAt (iir.denominator .bessel order.toNat) s = (P.map (s - ·)).prod) ∧ (∀ p ∈ P, p.re < 0) ∧
      ∀ (f : ℝ), 0 < f → f < 1 → ∀ count : ℤ, 0 < count → ∀ (complement : Bool) (gain : ℝ),
        ∃ g, Iir.newDesign residue (some .bessel) f order count complement gain none = .ok g ∧
          ∀ θ, 0 ≤ θ → θ ≤ 1 → ‖freqResp g.a g.b (if complement then 1 - θ else θ)‖ ≤
            |gain| * ((P.map fun p => ‖p‖ / |p.re|).prod * Real.cos (Real.pi * θ / 2) ^ order.toNat) := by
  obtain ⟨P, hl, hP, hneg, hc⟩ := bessel_candidates residue hres order.toNat (by omega)
  refine ⟨P, by omega, hP, hneg, fun f hf hf1 count hcount complement gain => ?_⟩
  obtain ⟨f', hf'⟩ : ∃ f', f' = if complement then 1 - f else f := ⟨_, rfl⟩
  have hf0 : 0 < f' := by rw [hf']; split <;> linarith
  obtain ⟨g, n, k, a, b, h1, -, -, -, -, h6, h7, h8⟩ := design_outcome residue hres .bessel f hf hf1 order count ho hcount complement gain f' hf' _
    (fun x => Real.sqrt (besselGainSq P (x * f') f')) (scales_exist _ _) (by
      intro x a b hx h
      rw [← (hc (x * f') a b (by positivity) h).1, Real.sqrt_sq (norm_nonneg _)])
  refine ⟨g, h1, fun θ t0 t1 => ?_⟩
  have hκ := mul_pos h6 hf0
  rw [h8, (hc _ a b hκ h7).2]
  have hpi := Real.pi_pos
  apply mul_le_mul_of_nonneg_left _ (abs_nonneg _)
  rw [norm_mul, norm_pow, mul_comm]
  have hcos : ‖(1 + Complex.exp (-(Complex.I * Real.pi * θ))) / 2‖ = Real.cos (Real.pi * θ / 2) := by
    have h := zero_factor θ
    have c0 : 0 ≤ Real.cos (Real.pi * θ / 2) := Real.cos_nonneg_of_mem_Icc ⟨by nlinarith, by nlinarith⟩
    exact (pow_left_inj₀ (norm_nonneg _) c0 two_ne_zero).mp h
  rw [hcos]
  apply mul_le_mul_of_nonneg_right
  · exact poles_le P hneg _ θ hκ
  · apply pow_nonneg
    exact Real.cos_nonneg_of_mem_Icc ⟨by nlinarith, by nlinarith⟩

/-- The roots of the reverse Bessel polynomials of degrees 1 and 2. -/
theorem bessel_roots_one (P : List ℂ) (h : ∀ s, sAt (iir.denominator .bessel 1) s = (P.map (s - ·)).prod) : P.Perm [-1] := by
  refine roots_perm _ _ fun s => ?_
  rw [← h]
  simp [sAt, iir.denominator, iir.bessel, Finset.sum_range_succ, at0]

theorem bessel_roots_two (P : List ℂ) (h : ∀ s, sAt (iir.denominator .bessel 2) s = (P.map (s - ·)).prod) :
    P.Perm [-(3 / 2) + (Real.sqrt 3 / 2 : ℝ) * Complex.I, -(3 / 2) - (Real.sqrt 3 / 2 : ℝ) * Complex.I] := by
  refine roots_perm _ _ fun s => ?_
  rw [← h]
  have h3 : ((Real.sqrt 3 : ℝ) : ℂ) ^ 2 = 3 := by
    rw [← Complex.ofReal_pow, Real.sq_sqrt (by norm_num)]; norm_num
  simp only [sAt, iir.denominator, iir.bessel, at0]
  norm_num
  have hI := Complex.I_sq
  rw [Finset.sum_range_succ, Finset.sum_range_succ, Finset.sum_range_succ]
  norm_num
  linear_combination (Complex.I ^ 2 / 4) * h3 + (3 / 4) * hI

/-- C130: near Nyquist (with complement: near zero frequency) the response at the design frequency vanishes, whatever the search does: for each order
there is a constant `C` so that it is at most `|gain| C δ^order`, where `δ` is the distance from Nyquist (with complement: from zero frequency). -/
theorem C130_nyquist (residue : List ℝ → List ℝ → List ℂ × List ℂ) (hres : ResidueSpec residue) (order : ℤ) (ho : 0 < order) :
    ∃ C : ℝ, 0 < C ∧ ∀ (f : ℝ), 0 < f → f < 1 → ∀ count : ℤ, 0 < count → ∀ (complement : Bool) (gain : ℝ),
      ∃ g, Iir.newDesign residue (some .bessel) f order count complement gain none = .ok g ∧
        ‖freqResp g.a g.b f‖ ≤ |gain| * (C * (if complement then f else 1 - f) ^ order.toNat) := by
  have hpi := Real.pi_pos
  obtain ⟨P, -, -, hneg, h⟩ := C130_bound residue hres order ho
  have hC : 0 < (P.map fun p => ‖p‖ / |p.re|).prod := by
    apply List.prod_pos
    intro v hv
    obtain ⟨p, hp, rfl⟩ := List.mem_map.mp hv
    have := hneg p hp
    have h0 : p ≠ 0 := by rintro rfl; simp at this
    exact div_pos (norm_pos_iff.mpr h0) (abs_pos.mpr this.ne)
  refine ⟨(P.map fun p => ‖p‖ / |p.re|).prod * (Real.pi / 2) ^ order.toNat, by positivity, fun f hf hf1 count hc complement gain => ?_⟩
  obtain ⟨g, h1, h2⟩ := h f hf hf1 count hc complement gain
  refine ⟨g, h1, ?_⟩
  have h3 := h2 (if complement then 1 - f else f) (by split <;> linarith) (by split <;> linarith)
  have e : (if complement = true then 1 - (if complement = true then 1 - f else f) else (if complement = true then 1 - f else f)) = f := by
    cases complement <;> simp
  rw [e] at h3
  refine h3.trans (mul_le_mul_of_nonneg_left ?_ (abs_nonneg _))
  rw [mul_assoc]
  apply mul_le_mul_of_nonneg_left _ hC.le
  rw [← mul_pow]
  have e2 : Real.cos (Real.pi * (if complement = true then 1 - f else f) / 2) = Real.sin (Real.pi / 2 * (if complement then f else 1 - f)) := by
    rw [← Real.cos_pi_div_two_sub]
    congr 1
    cases complement <;> simp <;> ring
  rw [e2]
  have hd : 0 ≤ (if complement = true then f else 1 - f) ∧ (if complement = true then f else 1 - f) ≤ 1 := by split <;> constructor <;> linarith
  generalize (if complement = true then f else 1 - f) = d at *
  apply pow_le_pow_left₀
  · apply Real.sin_nonneg_of_mem_Icc
    constructor
    · exact mul_nonneg (by positivity) hd.1
    · nlinarith [hd.2]
  · exact Real.sin_le (mul_nonneg (by positivity) hd.1)

/-- The hypotheses hold: order 3. -/
example (residue : List ℝ → List ℝ → List ℂ × List ℂ) (hres : ResidueSpec residue) := C130_nyquist residue hres 3 (by norm_num)

theorem besselGainSq_one (P : List ℂ) (hperm : P.Perm [-1]) (κ θ : ℝ) (hκ : 0 < κ) : besselGainSq P κ θ =
    Real.cos (Real.pi * θ / 2) ^ 2 / (1 + Real.sin (Real.pi * θ / 2) ^ 2 / Real.sinh (Real.pi * κ / 2) ^ 2) := by
  have hpi := Real.pi_pos
  have hsh : 0 < Real.sinh (Real.pi * κ / 2) := Real.sinh_pos_iff.mpr (by positivity)
  rw [besselGainSq, (hperm.map _).prod_eq, hperm.length_eq]
  have c1 : Real.cosh (Real.pi * κ) = 1 + 2 * Real.sinh (Real.pi * κ / 2) ^ 2 := by
    rw [show Real.pi * κ = 2 * (Real.pi * κ / 2) by ring, Real.cosh_two_mul, Real.cosh_sq]
    ring_nf
  have c2 : Real.cos (Real.pi * θ) = 1 - 2 * Real.sin (Real.pi * θ / 2) ^ 2 := by
    rw [show Real.pi * θ = 2 * (Real.pi * θ / 2) by ring, Real.cos_two_mul, Real.cos_sq']
    ring_nf
  simp only [List.map_cons, List.map_nil, List.prod_cons, List.prod_nil, Complex.neg_re, Complex.one_re, Complex.neg_im, Complex.one_im, neg_zero, mul_zero,
    Real.cos_zero, mul_neg, mul_one, Real.cosh_neg, zero_sub, Real.cos_neg, List.length_cons, List.length_nil]
  rw [c1, c2]
  have hd : 0 < Real.sinh (Real.pi * κ / 2) ^ 2 + Real.sin (Real.pi * θ / 2) ^ 2 := by positivity
  rw [show 1 + 2 * Real.sinh (Real.pi * κ / 2) ^ 2 - 1 = 2 * Real.sinh (Real.pi * κ / 2) ^ 2 by ring,
    show 1 + 2 * Real.sinh (Real.pi * κ / 2) ^ 2 - (1 - 2 * Real.sin (Real.pi * θ / 2) ^ 2) = 2 * (Real.sinh (Real.pi * κ / 2) ^ 2 + Real.sin (Real.pi * θ / 2) ^ 2) by ring]
  field_simp

/-- C130: the response of a Bessel design of order one: with `κ > 0`, `gain² cos²(πθ/2) / (1 + sin²(πθ/2) / sinh²(πκ/2))` at the frequency `θ`. -/
theorem C130_first_order (residue : List ℝ → List ℝ → List ℂ × List ℂ) (hres : ResidueSpec residue) (f : ℝ) (hf : 0 < f)
    (hf1 : f < 1) (count : ℤ) (hcount : 0 < count) (complement : Bool) (gain : ℝ) :
    ∃ g κ, Iir.newDesign residue (some .bessel) f 1 count complement gain none = .ok g ∧ 0 < κ ∧
      ∀ θ, ‖freqResp g.a g.b (if complement then 1 - θ else θ)‖ ^ 2 =
        gain ^ 2 * (Real.cos (Real.pi * θ / 2) ^ 2 / (1 + Real.sin (Real.pi * θ / 2) ^ 2 / Real.sinh (Real.pi * κ / 2) ^ 2)) := by
  obtain ⟨g, κ, P, h1, h2, -, h4, h5⟩ := C130_shape residue hres f hf hf1 1 count one_pos hcount complement gain
  refine ⟨g, κ, h1, h2, fun θ => ?_⟩
  rw [h5, ← besselGainSq_one P (bessel_roots_one P h4) κ θ h2]
  rfl

/-- The hypotheses hold: a high pass filter. -/
example (residue : List ℝ → List ℝ → List ℂ × List ℂ) (hres : ResidueSpec residue) :=
  C130_first_order residue hres 0.9 (by norm_num) (by norm_num) 2 (by norm_num) true 5

/-- C130: at and beyond half of Nyquist (with complement: at and below) a Bessel design of order one or two is below -3 dB at its frequency, for every count
and every gain but zero. -/
theorem C130_half (residue : List ℝ → List ℝ → List ℂ × List ℂ) (hres : ResidueSpec residue) (order : ℤ) (ho : order = 1 ∨ order = 2) (f : ℝ) (hf : 0 < f)
    (hf1 : f < 1) (count : ℤ) (hcount : 0 < count) (complement : Bool) (gain : ℝ) (hgain : gain ≠ 0) (hhalf : if complement then f ≤ 1 / 2 else 1 / 2 ≤ f) :
    ∃ g, Iir.newDesign residue (some .bessel) f order count complement gain none = .ok g ∧ ‖freqResp g.a g.b f‖ < |gain| / Real.sqrt 2 := by
  have hpi := Real.pi_pos
  have hg : 0 < |gain| := abs_pos.mpr hgain
  obtain ⟨f', hf'⟩ : ∃ f', f' = if complement then 1 - f else f := ⟨_, rfl⟩
  have e : (if complement = true then 1 - f' else f') = f := by
    rw [hf']; cases complement <;> simp
  have hf1' : f' < 1 := by rw [hf']; split <;> linarith
  have hh : 1 / 2 ≤ f' := by
    rw [hf']
    cases complement
    · simpa using hhalf
    · simp only [if_true] at hhalf ⊢; linarith
  have hcos : Real.cos (Real.pi * f' / 2) ≤ Real.sqrt 2 / 2 := by
    rw [← Real.cos_pi_div_four]
    exact Real.cos_le_cos_of_nonneg_of_le_pi (by positivity) (by nlinarith) (by nlinarith)
  have hcos0 : 0 ≤ Real.cos (Real.pi * f' / 2) := Real.cos_nonneg_of_mem_Icc ⟨by nlinarith, by nlinarith⟩
  have hsq : Real.sqrt 2 ^ 2 = 2 := Real.sq_sqrt (by norm_num)
  have hs0 : 0 < Real.sqrt 2 := by positivity
  have hc2 : Real.cos (Real.pi * f' / 2) ^ 2 ≤ 1 / 2 := by nlinarith
  rcases ho with rfl | rfl
  · obtain ⟨g, κ, h1, h2, h3⟩ := C130_first_order residue hres f hf hf1 count hcount complement gain
    refine ⟨g, h1, ?_⟩
    have h4 := h3 f'
    rw [e] at h4
    have hsh : 0 < Real.sinh (Real.pi * κ / 2) := Real.sinh_pos_iff.mpr (by positivity)
    have hsin : 0 < Real.sin (Real.pi * f' / 2) := Real.sin_pos_of_pos_of_lt_pi (by positivity) (by nlinarith)
    have hq : 0 < Real.sin (Real.pi * f' / 2) ^ 2 / Real.sinh (Real.pi * κ / 2) ^ 2 := by positivity
    apply lt_of_pow_lt_pow_left₀ 2 (by positivity)
    rw [h4, div_pow, sq_abs, hsq, div_eq_mul_one_div (gain ^ 2) 2]
    apply mul_lt_mul_of_pos_left _ (by positivity)
    rw [div_lt_iff₀ (by positivity)]
    linarith
  · obtain ⟨P, -, h2, -, h4⟩ := C130_bound residue hres 2 (by norm_num)
    obtain ⟨g, h5, h6⟩ := h4 f hf hf1 count hcount complement gain
    refine ⟨g, h5, ?_⟩
    have h7 := h6 f' (by linarith) hf1'.le
    rw [e] at h7
    have hperm := bessel_roots_two P h2
    rw [(hperm.map _).prod_eq] at h7
    have h3 : Real.sqrt 3 ^ 2 = 3 := Real.sq_sqrt (by norm_num)
    have n1 : ‖(-(3 / 2) + (Real.sqrt 3 / 2 : ℝ) * Complex.I : ℂ)‖ * ‖(-(3 / 2) - (Real.sqrt 3 / 2 : ℝ) * Complex.I : ℂ)‖ = 3 := by
      rw [← norm_mul]
      have : (-(3 / 2) + (Real.sqrt 3 / 2 : ℝ) * Complex.I : ℂ) * (-(3 / 2) - (Real.sqrt 3 / 2 : ℝ) * Complex.I) = 3 := by
        have h3' : ((Real.sqrt 3 : ℝ) : ℂ) ^ 2 = 3 := by
          rw [← Complex.ofReal_pow, h3]; norm_num
        have hI := Complex.I_sq
        push_cast
        linear_combination (-Complex.I ^ 2 / 4) * h3' - (3 / 4) * hI
      rw [this]; norm_num
    have r1 : (-(3 / 2) + (Real.sqrt 3 / 2 : ℝ) * Complex.I : ℂ).re = -(3 / 2) := by
      simp
    have r2 : (-(3 / 2) - (Real.sqrt 3 / 2 : ℝ) * Complex.I : ℂ).re = -(3 / 2) := by
      simp
    simp only [List.map_cons, List.map_nil, List.prod_cons, List.prod_nil, mul_one] at h7
    rw [r1, r2, div_mul_div_comm, n1] at h7
    refine lt_of_le_of_lt h7 ?_
    rw [div_eq_mul_one_div |gain|]
    apply mul_lt_mul_of_pos_left _ hg
    rw [lt_div_iff₀ hs0]
    have hr : Real.sqrt 2 < 1.5 := by rw [Real.sqrt_lt' (by norm_num)]; norm_num
    have e2 : (3 : ℝ) / (|-(3 / 2)| * |-(3 / 2)|) = 4 / 3 := by rw [abs_mul_abs_self]; norm_num
    rw [e2]
    show 4 / 3 * Real.cos (Real.pi * f' / 2) ^ 2 * Real.sqrt 2 < 1
    nlinarith

/-- A search which approaches from below without passing the solution `σ`. -/
theorem ascend_rate (R : ℝ → ℝ) (s : ℕ → ℝ) (σ c ρ ε m : ℝ) (hρ : 0 ≤ ρ) (hs : Scales (fun x => c - R x) ρ ε s) (hε : ε ≤ 1) (hσ : 1 ≤ σ) (hRσ : R σ = c)
    (hm : 0 ≤ m) (hm1 : ρ * m ≤ 1) (hlow : ∀ y z, 1 ≤ y → y ≤ z → z ≤ σ → m * (z - y) ≤ R z - R y)
    (hover : ∀ y, 1 ≤ y → y ≤ σ → ρ * (R σ - R y) ≤ σ - y) (k : ℕ) :
    1 ≤ s k ∧ s k ≤ σ ∧ 0 ≤ c - R (s k) ∧ c - R (s k) ≤ (c - R 1) * (1 - ρ * m) ^ k := by
  have hnn : ∀ y, 1 ≤ y → y ≤ σ → 0 ≤ c - R y := by
    intro y h1 h2
    have := hlow y σ h1 h2 le_rfl
    have := mul_nonneg hm (sub_nonneg.mpr h2)
    linarith
  induction k with
  | zero => rw [hs.1]; exact ⟨le_rfl, hσ, hnn 1 le_rfl hσ, by simp⟩
  | succ k ih =>
    obtain ⟨i1, i2, i3, i4⟩ := ih
    have hp : 0 ≤ ρ * (c - R (s k)) := mul_nonneg hρ i3
    have hstep : s (k + 1) = s k + ρ * (c - R (s k)) := by
      rw [hs.2 k, max_eq_left]
      simp only
      linarith
    have h1 : 1 ≤ s (k + 1) := by linarith
    have h2 : s (k + 1) ≤ σ := by
      have := hover _ i1 i2
      rw [hRσ] at this
      linarith
    refine ⟨h1, h2, hnn _ h1 h2, ?_⟩
    have h3 := hlow (s k) (s (k + 1)) i1 (by linarith) h2
    rw [hstep] at h3 ⊢
    have h4 : (c - R (s k)) * (1 - ρ * m) ≤ (c - R 1) * (1 - ρ * m) ^ k * (1 - ρ * m) := mul_le_mul_of_nonneg_right i4 (by linarith)
    rw [pow_succ, ← mul_assoc]
    nlinarith

/-- The derivative of `sinh u / (sinh² u + q)^{1/2}`. -/
theorem first_deriv (q u : ℝ) (hq : 0 < q) :
    HasDerivAt (fun u => Real.sinh u / Real.sqrt (Real.sinh u ^ 2 + q)) (Real.cosh u * q / Real.sqrt (Real.sinh u ^ 2 + q) ^ 3) u := by
  have hpos : 0 < Real.sinh u ^ 2 + q := by positivity
  have hsq := Real.sq_sqrt hpos.le
  have hne : Real.sqrt (Real.sinh u ^ 2 + q) ≠ 0 := by positivity
  have h1 := ((Real.hasDerivAt_sinh u).pow 2).add_const q
  have h2 := h1.sqrt hpos.ne'
  have h3 := (Real.hasDerivAt_sinh u).div h2 hne
  refine h3.congr_deriv ?_
  simp only [Pi.pow_apply]
  set w := Real.sqrt (Real.sinh u ^ 2 + q) with hw
  field_simp
  rw [hsq]
  ring

/-- The gain of a first order Bessel candidate with the scale `s`, at its frequency, with `x = πf/2`. -/
noncomputable def bessel1Gain (x s : ℝ) : ℝ := Real.cos x * (Real.sinh (s * x) / Real.sqrt (Real.sinh (s * x) ^ 2 + Real.sin x ^ 2))

theorem bessel1Gain_slope (x y z : ℝ) (hsin : 0 < Real.sin x) (hyz : y < z) :
    ∃ s ∈ Set.Ioo y z, bessel1Gain x z - bessel1Gain x y = Real.cos x * (Real.cosh (s * x) * Real.sin x ^ 2 / Real.sqrt (Real.sinh (s * x) ^ 2 + Real.sin x ^ 2) ^ 3 * x) * (z - y) := by
  have hd : ∀ s, HasDerivAt (bessel1Gain x) (Real.cos x * (Real.cosh (s * x) * Real.sin x ^ 2 / Real.sqrt (Real.sinh (s * x) ^ 2 + Real.sin x ^ 2) ^ 3 * x)) s := by
    intro s
    have h1 := first_deriv (Real.sin x ^ 2) (s * x) (by positivity)
    have h2 : HasDerivAt (fun s : ℝ => s * x) x s := by simpa using (hasDerivAt_id s).mul_const x
    exact (h1.comp s h2).const_mul _
  obtain ⟨s, hs, h⟩ := exists_hasDerivAt_eq_slope (bessel1Gain x) _ hyz (fun s _ => (hd s).continuousAt.continuousWithinAt) (fun s _ => hd s)
  refine ⟨s, hs, ?_⟩
  rw [h]
  field_simp [(sub_pos.mpr hyz).ne']

theorem first_slope (x S c T : ℝ) (hx : 0 < x) (hx2 : x < Real.pi / 2) (hcos : 0.923 ≤ Real.cos x) (hc2 : 0.7071 ≤ Real.cos (2 * x)) (hsin : 0 < Real.sin x)
    (hsx : Real.sin x ≤ x) (hch1 : 1 ≤ c) (hch : c ^ 2 = S ^ 2 + 1) (hTsq : T ^ 2 * Real.cos (2 * x) = Real.sin x ^ 2) (hT1 : T ≤ 1)
    (hS0 : Real.sin x ≤ S) (hS1 : S ≤ T) :
    0.24 ≤ Real.cos x * (c * Real.sin x ^ 2 / Real.sqrt (S ^ 2 + Real.sin x ^ 2) ^ 3 * x) ∧
      Real.cos x * (c * Real.sin x ^ 2 / Real.sqrt (S ^ 2 + Real.sin x ^ 2) ^ 3 * x) ≤ 2 := by
  have hcos0 : 0 < Real.cos x := by linarith
  have hw0 : 0 < S ^ 2 + Real.sin x ^ 2 := by positivity
  have hwsq := Real.sq_sqrt hw0.le
  have hw : 0 < Real.sqrt (S ^ 2 + Real.sin x ^ 2) := by positivity
  generalize Real.sqrt (S ^ 2 + Real.sin x ^ 2) = w at *
  have hST : S ^ 2 ≤ T ^ 2 := pow_le_pow_left₀ (by linarith) hS1 2
  have hT2 : T ^ 2 * 0.7071 ≤ Real.sin x ^ 2 := by
    rw [← hTsq]; exact mul_le_mul_of_nonneg_left hc2 (sq_nonneg _)
  have hr : 0.41 * w ^ 2 ≤ Real.sin x ^ 2 := by
    rw [hwsq]
    linarith [sq_nonneg (Real.sin x)]
  have hr2 : 0.64 * w ≤ Real.sin x := by
    apply le_of_sq_le_sq _ hsin.le
    rw [mul_pow]
    linarith [sq_nonneg w]
  have hw1 : Real.sin x ≤ w := by
    apply le_of_sq_le_sq _ hw.le
    rw [hwsq]
    linarith [sq_nonneg S]
  have hr3 : 0.262 * w ^ 3 ≤ Real.sin x ^ 3 := by
    calc 0.262 * w ^ 3 ≤ (0.64 * w) ^ 3 := by
          rw [mul_pow]
          apply mul_le_mul_of_nonneg_right (by norm_num) (by positivity)
      _ ≤ _ := pow_le_pow_left₀ (by positivity) hr2 3
  have e : Real.cos x * (c * Real.sin x ^ 2 / w ^ 3 * x) = Real.cos x * c * (Real.sin x ^ 2 * x) / w ^ 3 := by field_simp
  rw [e]
  constructor
  · rw [le_div_iff₀ (by positivity)]
    have a0 : 0.923 ≤ Real.cos x * c := by
      have := mul_le_mul_of_nonneg_left hch1 hcos0.le
      linarith
    have a1 : 0.923 * Real.sin x ^ 3 ≤ Real.cos x * c * (Real.sin x ^ 2 * x) := by
      apply mul_le_mul a0
      · rw [pow_succ]; exact mul_le_mul_of_nonneg_left hsx (by positivity)
      · positivity
      · linarith
    linarith [pow_pos hw 3]
  · rw [div_le_iff₀ (by positivity)]
    have a1 : Real.cos x * x ≤ Real.sin x := by
      have := Real.le_tan hx.le hx2
      rw [Real.tan_eq_sin_div_cos, le_div_iff₀ hcos0] at this
      linarith
    have a2 : c ≤ 2 := by
      apply le_of_sq_le_sq _ (by norm_num)
      have : T ^ 2 ≤ 1 := pow_le_one₀ (by linarith) hT1
      linarith
    have a3 : Real.sin x ^ 3 ≤ w ^ 3 := pow_le_pow_left₀ hsin.le hw1 3
    calc Real.cos x * c * (Real.sin x ^ 2 * x) = c * (Real.sin x ^ 2 * (Real.cos x * x)) := by ring
      _ ≤ c * (Real.sin x ^ 2 * Real.sin x) := by
        apply mul_le_mul_of_nonneg_left _ (by linarith)
        exact mul_le_mul_of_nonneg_left a1 (by positivity)
      _ = c * Real.sin x ^ 3 := by ring
      _ ≤ 2 * w ^ 3 := mul_le_mul a2 a3 (by positivity) (by norm_num)

/-- What the convergence of the search of order one rests on, for `x = πf/2` up to `π/8`. -/
theorem bessel1Gain_bounds (x : ℝ) (hx : 0 < x) (hx1 : x ≤ Real.pi / 8) : ∃ σ, 1 ≤ σ ∧ bessel1Gain x σ = 1 / Real.sqrt 2 ∧
    (∀ y z, 1 ≤ y → y ≤ z → z ≤ σ → 0.24 * (z - y) ≤ bessel1Gain x z - bessel1Gain x y) ∧
    (∀ y, 1 ≤ y → y ≤ σ → 0.03 * (bessel1Gain x σ - bessel1Gain x y) ≤ σ - y) ∧ 1 / Real.sqrt 2 - bessel1Gain x 1 ≤ 0.055 := by
  have hpi := Real.pi_pos
  have hpi4 := Real.pi_lt_d2
  have hs2 : Real.sqrt 2 ^ 2 = 2 := Real.sq_sqrt (by norm_num)
  have hs0 : (1.4142 : ℝ) ≤ Real.sqrt 2 := Real.le_sqrt_of_sq_le (by norm_num)
  have hs1 : Real.sqrt 2 ≤ 1.4143 := by rw [Real.sqrt_le_left (by norm_num)]; norm_num
  have hc2 : 0.7071 ≤ Real.cos (2 * x) := by
    have : Real.cos (Real.pi / 4) ≤ Real.cos (2 * x) := Real.cos_le_cos_of_nonneg_of_le_pi (by linarith) (by linarith) (by linarith)
    rw [Real.cos_pi_div_four] at this
    linarith
  have hcc : Real.cos (2 * x) = 2 * Real.cos x ^ 2 - 1 := Real.cos_two_mul x
  have hcos0 : 0 < Real.cos x := Real.cos_pos_of_mem_Ioo ⟨by linarith, by linarith⟩
  have hcos : 0.923 ≤ Real.cos x := by
    by_contra hn
    push Not at hn
    nlinarith
  have hcos1 := Real.cos_le_one x
  have hsin : 0 < Real.sin x := Real.sin_pos_of_pos_of_lt_pi hx (by linarith)
  have hsc := Real.sin_sq_add_cos_sq x
  have hsx : Real.sin x ≤ x := Real.sin_le hx.le
  have hxs : x ≤ Real.sinh x := (Real.self_le_sinh_iff).mpr hx.le
  -- the solution
  set T := Real.sin x / Real.sqrt (Real.cos (2 * x)) with hT
  have hT0 : 0 < T := by positivity
  have hTsq : T ^ 2 * Real.cos (2 * x) = Real.sin x ^ 2 := by
    rw [hT, div_pow, Real.sq_sqrt (by linarith)]
    field_simp
  have hT1 : T ≤ 1 := by nlinarith
  have hTx : Real.sinh x ≤ T := by
    apply le_of_sq_le_sq _ hT0.le
    have h1 : Real.sinh x ^ 2 ≤ x ^ 2 * (1 + x ^ 2) := by
      have e1 := Real.cosh_le_exp_half_sq x
      have e2 : Real.cosh x ^ 2 ≤ Real.exp (x ^ 2) := by
        calc Real.cosh x ^ 2 ≤ Real.exp (x ^ 2 / 2) ^ 2 := pow_le_pow_left₀ (Real.cosh_pos x).le e1 2
          _ = _ := by rw [← Real.exp_nat_mul]; congr 1; push_cast; ring
      have e3 := Real.abs_exp_sub_one_sub_id_le (x := x ^ 2) (by rw [abs_of_nonneg (by positivity)]; nlinarith)
      have e4 := (abs_le.mp e3).2
      have e5 := Real.cosh_sq x
      nlinarith
    have h2 := Real.sin_gt_sub_cube hx
    have h3 : x ^ 2 * (1 - x ^ 2 / 4) ^ 2 ≤ Real.sin x ^ 2 := by
      rw [← mul_pow]
      apply pow_le_pow_left₀ (mul_nonneg hx.le (by nlinarith))
      have := pow_pos hx 3
      linarith
    have ht : x ^ 2 ≤ 0.16 := by nlinarith
    have ht0 : 0 < x ^ 2 := by positivity
    generalize x ^ 2 = t at *
    generalize Real.sinh x ^ 2 = S at *
    generalize Real.sin x ^ 2 = q at *
    have hcq : Real.cos (2 * x) = 1 - 2 * q := by linarith
    rw [hcq] at hTsq hc2
    have h4 : t * (1 + t) * (1 - 2 * q) ≤ q := by
      have a1 : t * (1 - t / 2) ≤ q := by
        refine le_trans ?_ h3
        apply mul_le_mul_of_nonneg_left _ ht0.le
        nlinarith [sq_nonneg t]
      have a2 : t * (1 - t / 2) * (1 + 2 * (t * (1 + t))) ≤ q * (1 + 2 * (t * (1 + t))) := mul_le_mul_of_nonneg_right a1 (by positivity)
      have a3 : t * (1 + t) ≤ t * (1 - t / 2) * (1 + 2 * (t * (1 + t))) := by
        rw [mul_assoc]
        apply mul_le_mul_of_nonneg_left _ ht0.le
        have : t ^ 3 ≤ t ^ 2 := by rw [pow_succ]; exact mul_le_of_le_one_right (by positivity) (by linarith)
        linarith
      linarith
    nlinarith
  set σ := Real.arsinh T / x with hσ
  have hσx : Real.sinh (σ * x) = T := by
    rw [hσ, div_mul_cancel₀ _ hx.ne', Real.sinh_arsinh]
  have hσ1 : 1 ≤ σ := by
    rw [hσ, le_div_iff₀ hx, one_mul, ← Real.sinh_le_sinh, Real.sinh_arsinh]
    exact hTx
  have hsin2 : Real.sin x ^ 2 = (1 - Real.cos (2 * x)) / 2 := by linarith
  have hRσ : bessel1Gain x σ = 1 / Real.sqrt 2 := by
    unfold bessel1Gain
    rw [hσx]
    have e : T ^ 2 + Real.sin x ^ 2 = (Real.sqrt 2 * Real.cos x * T) ^ 2 := by
      rw [mul_pow, mul_pow, hs2]
      linear_combination -hTsq + T ^ 2 * hcc
    rw [e, Real.sqrt_sq (by positivity)]
    field_simp
  -- the slope
  have hslope : ∀ s, 1 ≤ s → s ≤ σ →
      0.24 ≤ Real.cos x * (Real.cosh (s * x) * Real.sin x ^ 2 / Real.sqrt (Real.sinh (s * x) ^ 2 + Real.sin x ^ 2) ^ 3 * x) ∧
      Real.cos x * (Real.cosh (s * x) * Real.sin x ^ 2 / Real.sqrt (Real.sinh (s * x) ^ 2 + Real.sin x ^ 2) ^ 3 * x) ≤ 2 := by
    intro s h1 h2
    have hS1 : Real.sinh (s * x) ≤ T := by
      rw [← hσx, Real.sinh_le_sinh]
      exact mul_le_mul_of_nonneg_right h2 hx.le
    have hS0 : Real.sin x ≤ Real.sinh (s * x) := by
      refine (hsx.trans hxs).trans (Real.sinh_le_sinh.mpr ?_)
      nlinarith
    exact first_slope x _ _ T hx (by linarith) hcos hc2 hsin hsx (Real.one_le_cosh _) (Real.cosh_sq _) hTsq hT1 hS0 hS1
  refine ⟨σ, hσ1, hRσ, ?_, ?_, ?_⟩
  · intro y z h1 h2 h3
    rcases h2.eq_or_lt with rfl | h2
    · simp
    · obtain ⟨s, hs, e⟩ := bessel1Gain_slope x y z hsin h2
      rw [e]
      exact mul_le_mul_of_nonneg_right (hslope s (by linarith [hs.1]) (by linarith [hs.2])).1 (by linarith)
  · intro y h1 h2
    rcases h2.eq_or_lt with h2 | h2
    · rw [h2]; simp
    · obtain ⟨s, hs, e⟩ := bessel1Gain_slope x y σ hsin h2
      rw [e]
      have := mul_le_mul_of_nonneg_right (hslope s (by linarith [hs.1]) (by linarith [hs.2])).2 (sub_nonneg.mpr h2.le)
      linarith
  · have h1 : Real.cos x / Real.sqrt 2 ≤ bessel1Gain x 1 := by
      unfold bessel1Gain
      rw [one_mul, div_eq_mul_one_div]
      apply mul_le_mul_of_nonneg_left _ hcos0.le
      have hS : 0 < Real.sinh x := by linarith
      rw [div_le_div_iff₀ (by positivity) (by positivity), one_mul]
      rw [Real.sqrt_le_left (by positivity), mul_pow, hs2]
      have : Real.sin x ^ 2 ≤ Real.sinh x ^ 2 := pow_le_pow_left₀ hsin.le (hsx.trans hxs) 2
      linarith
    have h2 : 0.923 / Real.sqrt 2 ≤ Real.cos x / Real.sqrt 2 := div_le_div_of_nonneg_right hcos (by positivity)
    have h3 : 1 / Real.sqrt 2 - 0.923 / Real.sqrt 2 ≤ 0.055 := by
      rw [← sub_div, div_le_iff₀ (by positivity)]
      linarith
    linarith

/-- C130: with order one, one instance and a frequency up to a quarter of Nyquist (with complement: from three quarters) the response of a Bessel design at its
frequency is -3 dB within 0.002, and never above. -/
theorem C130_three_db (residue : List ℝ → List ℝ → List ℂ × List ℂ) (hres : ResidueSpec residue) (f : ℝ) (hf : 0 < f)
    (hf1 : f < 1) (complement : Bool) (gain : ℝ) (hq : if complement then 3 / 4 ≤ f else f ≤ 1 / 4) :
    ∃ g, Iir.newDesign residue (some .bessel) f 1 1 complement gain none = .ok g ∧
      |gain| * (1 / Real.sqrt 2 - 0.002) ≤ ‖freqResp g.a g.b f‖ ∧ ‖freqResp g.a g.b f‖ ≤ |gain| / Real.sqrt 2 := by
  have hpi := Real.pi_pos
  obtain ⟨P, -, hP, -, hc⟩ := bessel_candidates residue hres 1 one_pos
  have hperm := bessel_roots_one P hP
  obtain ⟨f', hf'⟩ : ∃ f', f' = if complement then 1 - f else f := ⟨_, rfl⟩
  have e : (if complement = true then 1 - f' else f') = f := by
    rw [hf']; cases complement <;> simp
  have hf0 : 0 < f' := by rw [hf']; split <;> linarith
  have hf4 : f' ≤ 1 / 4 := by
    rw [hf']
    cases complement
    · simpa using hq
    · simp only [if_true] at hq ⊢; linarith
  have hx0 : 0 < Real.pi * f' / 2 := by positivity
  obtain ⟨σ, hσ1, hσ2, hlow, hover, hinit⟩ := bessel1Gain_bounds (Real.pi * f' / 2) hx0 (by nlinarith)
  have hsin : 0 < Real.sin (Real.pi * f' / 2) := Real.sin_pos_of_pos_of_lt_pi hx0 (by nlinarith)
  have hcos : 0 ≤ Real.cos (Real.pi * f' / 2) := Real.cos_nonneg_of_mem_Icc ⟨by nlinarith, by nlinarith⟩
  have hs := scales_exist (fun x => 1 / Real.sqrt 2 - bessel1Gain (Real.pi * f' / 2) x ^ (1 : ℤ).toNat) (if (1 : ℤ) > 8 ∨ ((1 : ℤ) > 6 ∧ (1 : ℤ) > 1) then 0.015 else 0.03)
  have hG : ∀ x a b, 0 < x → iir.evaluate residue .bessel (x * f') (1 : ℤ).toNat = .ok (a, b) → bessel1Gain (Real.pi * f' / 2) x = ‖freqResp a b f'‖ := by
    intro x a b hx h
    have hk : 0 < x * f' := by positivity
    have h1 := (hc (x * f') a b hk h).1 f'
    have hu : x * (Real.pi * f' / 2) = Real.pi * (x * f') / 2 := by ring
    have hsh : 0 < Real.sinh (Real.pi * (x * f') / 2) := Real.sinh_pos_iff.mpr (by positivity)
    rw [besselGainSq_one P hperm _ _ hk] at h1
    unfold bessel1Gain
    rw [hu]
    refine (pow_left_inj₀ (by positivity) (norm_nonneg _) two_ne_zero).mp ?_
    rw [h1, mul_pow, div_pow, Real.sq_sqrt (by positivity)]
    field_simp
  obtain ⟨g, n, k, h1, h2, h3, h4, h5, h6, h7⟩ := design_search residue hres .bessel f hf hf1 1 1 one_pos one_pos complement gain f' hf' _
    (bessel1Gain (Real.pi * f' / 2)) hs hG
  refine ⟨g, h1, ?_⟩
  rw [h7]
  simp only [show (1 : ℤ).toNat = 1 from rfl, pow_one] at hs h4 h5 ⊢
  rw [if_neg (by norm_num)] at hs h4 h5 ⊢
  generalize search.scales (fun x => 1 / Real.sqrt 2 - bessel1Gain (Real.pi * f' / 2) x) 3e-2 = s at *
  have ha := ascend_rate (bessel1Gain (Real.pi * f' / 2)) s σ (1 / Real.sqrt 2) 0.03 (1 / 2 ^ 52) 0.24 (by norm_num) hs (by norm_num) hσ1 hσ2 (by norm_num) (by norm_num) hlow hover
  have hk := ha k
  have hlast : 1 / Real.sqrt 2 - bessel1Gain (Real.pi * f' / 2) (s k) ≤ 0.002 := by
    have hb := (h5.2 (n - 1) (by omega)).1
    rw [abs_of_nonneg hk.2.2.1] at hb
    rcases h4 with rfl | h4
    · have hl := ha 499
      rw [abs_of_nonneg hl.2.2.1] at hb
      refine hb.trans (hl.2.2.2.trans ?_)
      have p1 : (1 - 0.03 * 0.24 : ℝ) ^ 499 ≤ 0.0275 := by
        have q1 : (1 - 0.03 * 0.24 : ℝ) ^ 100 ≤ 0.486 := by norm_num
        have q2 : (1 - 0.03 * 0.24 : ℝ) ^ 99 ≤ 0.49 := by norm_num
        rw [show 499 = 100 * 4 + 99 from rfl, pow_add, pow_mul]
        calc ((1 - 0.03 * 0.24 : ℝ) ^ 100) ^ 4 * (1 - 0.03 * 0.24) ^ 99 ≤ 0.486 ^ 4 * 0.49 := by
              apply mul_le_mul (pow_le_pow_left₀ (by apply pow_nonneg; norm_num) q1 4) q2 (by apply pow_nonneg; norm_num) (by norm_num)
          _ ≤ _ := by norm_num
      calc _ ≤ 0.055 * 0.0275 := mul_le_mul hinit p1 (by apply pow_nonneg; norm_num) (by norm_num)
        _ ≤ _ := by norm_num
    · have : (10e3 / 2 ^ 52 : ℝ) ≤ 0.002 := by norm_num
      linarith
  constructor
  · exact mul_le_mul_of_nonneg_left (by linarith) (abs_nonneg _)
  · rw [div_eq_mul_one_div |gain|]
    exact mul_le_mul_of_nonneg_left (sub_nonneg.mp hk.2.2.1) (abs_nonneg _)

/-- A high pass of order two at 0.25: below -3 dB. -/
example (residue : List ℝ → List ℝ → List ℂ × List ℂ) (hres : ResidueSpec residue) :
    ∃ g, Iir.newDesign residue (some .bessel) 0.25 2 1 true 1 none = .ok g ∧ ‖freqResp g.a g.b 0.25‖ < |1| / Real.sqrt 2 :=
  C130_half residue hres 2 (by norm_num) 0.25 (by norm_num) (by norm_num) 1 (by norm_num) true 1 (by norm_num) (by norm_num)

/-- A low pass of order one at 0.1 with a gain of -2. -/
example (residue : List ℝ → List ℝ → List ℂ × List ℂ) (hres : ResidueSpec residue) :
    ∃ g, Iir.newDesign residue (some .bessel) 0.1 1 1 false (-2) none = .ok g ∧
      |-2| * (1 / Real.sqrt 2 - 0.002) ≤ ‖freqResp g.a g.b 0.1‖ ∧ ‖freqResp g.a g.b 0.1‖ ≤ |-2| / Real.sqrt 2 :=
  C130_three_db residue hres 0.1 (by norm_num) (by norm_num) false (-2) (by norm_num)

/-- The constant of order two is 4/3, and the response at two thirds of Nyquist is at most a third of the gain, whatever the frequency of the design. -/
example (residue : List ℝ → List ℝ → List ℂ × List ℂ) (hres : ResidueSpec residue) :
    ∃ P : List ℂ, P.Perm [-(3 / 2) + (Real.sqrt 3 / 2 : ℝ) * Complex.I, -(3 / 2) - (Real.sqrt 3 / 2 : ℝ) * Complex.I] ∧
      ∃ g, Iir.newDesign residue (some .bessel) 0.1 2 3 false 5 none = .ok g ∧
        ‖freqResp g.a g.b (2 / 3)‖ ≤ |5| * ((P.map fun p => ‖p‖ / |p.re|).prod * Real.cos (Real.pi * (2 / 3) / 2) ^ 2) := by
  obtain ⟨P, -, h2, -, h4⟩ := C130_bound residue hres 2 (by norm_num)
  obtain ⟨g, h5, h6⟩ := h4 0.1 (by norm_num) (by norm_num) 3 (by norm_num) false 5
  exact ⟨P, bessel_roots_two P h2, g, h5, h6 (2 / 3) (by norm_num) (by norm_num)⟩

end Verif.Props
