import Verif.Model.IirDesign
import Verif.Lemmas.ZTransform
import Verif.Lemmas.Search
import Mathlib.Analysis.SpecialFunctions.Trigonometric.Basic

/-
The s-domain denominators of the three styles: length, leading coefficient, and roots in the open left half plane.
-/

namespace Verif

open Polynomial Spec

/-- Length `n + 1` with leading coefficient one and roots in the open left half plane. -/
structure Hurwitz (n : ℕ) (c : List ℝ) : Prop where
  len : c.length = n + 1
  head : c.head? = some 1
  root : ∀ s : ℂ, (np.toPoly (np.complexOf c)).eval s = 0 → s.re < 0

theorem complexOf_append (u v : List ℝ) : np.complexOf (u ++ v) = np.complexOf u ++ np.complexOf v := by simp [np.complexOf]

theorem complexOf_zipWith_add (u v : List ℝ) :
    np.complexOf (List.zipWith (· + ·) u v) = List.zipWith (· + ·) (np.complexOf u) (np.complexOf v) := by
  induction u generalizing v with
  | nil => rfl
  | cons x u ih =>
    cases v with
    | nil => rfl
    | cons y v =>
      have := ih v
      simp only [np.complexOf, List.zipWith_cons_cons, List.map_cons] at this ⊢
      rw [this]; simp

theorem complexOf_map_mul (u : List ℝ) (k : ℝ) : np.complexOf (u.map (k * ·)) = (np.complexOf u).map ((k : ℂ) * ·) := by
  simp [np.complexOf, List.map_map, Function.comp_def]

theorem complexOf_convolve (u v : List ℝ) : np.complexOf (np.convolve u v) = np.convolve (np.complexOf u) (np.complexOf v) := by
  induction u with
  | nil => simp [np.complexOf, np.convolve]
  | cons x u ih =>
    rw [np.convolve, complexOf_zipWith_add, complexOf_append, complexOf_map_mul]
    conv_rhs => rw [show np.complexOf (x :: u) = (x : ℂ) :: np.complexOf u from rfl, np.convolve]
    rw [show np.complexOf (0 :: np.convolve u v) = ((0 : ℝ) : ℂ) :: np.complexOf (np.convolve u v) from rfl, ih]
    simp [np.complexOf]

theorem iir.bessel_spec (n : ℕ) :
    (iir.bessel n).1.length = n + 1 ∧ (iir.bessel n).2.length = n + 2 ∧ (iir.bessel n).1.head? = some 1 ∧ (iir.bessel n).2.head? = some 1 := by
  induction n with
  | zero => simp [iir.bessel]
  | succ n ih =>
    obtain ⟨h1, h2, h3, h4⟩ := ih
    refine ⟨h2, ?_, h4, ?_⟩
    · simp [iir.bessel, h1, h2]
    · simp only [iir.bessel]
      cases h : (iir.bessel n).1 with
      | nil => rw [h] at h1; simp at h1
      | cons x t =>
        rw [h] at h3
        simp at h3
        simp [h3]

theorem iir.bessel_eval (n : ℕ) (s : ℂ) :
    (np.toPoly (np.complexOf (iir.bessel (n + 1)).2)).eval s =
      (np.toPoly (np.complexOf (iir.bessel n).1)).eval s * s ^ 2 + (2 * n + 3) * (np.toPoly (np.complexOf (iir.bessel n).2)).eval s := by
  obtain ⟨h1, h2, -, -⟩ := iir.bessel_spec n
  simp only [iir.bessel]
  rw [complexOf_zipWith_add, np.toPoly_zipWith_add _ _ (by simp [np.complexOf, h1, h2]), complexOf_append]
  rw [show np.complexOf [0, 0] = List.replicate 2 0 by simp [np.complexOf, List.replicate], np.toPoly_append_zeros]
  rw [show np.complexOf (0 :: (iir.bessel n).2.map ((2 * ((n : ℝ) + 2) - 1) * ·)) =
    0 :: np.complexOf ((iir.bessel n).2.map ((2 * ((n : ℝ) + 2) - 1) * ·)) by simp [np.complexOf], complexOf_map_mul]
  simp only [np.toPoly, np.toPoly_map_mul]
  simp
  ring_nf
  tauto

/-- The reverse Bessel polynomials have no root with nonnegative real part: their ratio times `1/s` has positive real part. -/
theorem iir.bessel_positive (n : ℕ) (s : ℂ) (hs : 0 ≤ s.re) (h0 : s ≠ 0) :
    (np.toPoly (np.complexOf (iir.bessel n).1)).eval s ≠ 0 ∧
      0 < ((np.toPoly (np.complexOf (iir.bessel n).2)).eval s / (s * (np.toPoly (np.complexOf (iir.bessel n).1)).eval s)).re := by
  have hinv : 0 ≤ (s⁻¹).re := by
    rw [Complex.inv_re]; exact div_nonneg hs (Complex.normSq_nonneg _)
  induction n with
  | zero =>
    simp only [iir.bessel, np.complexOf, np.toPoly, List.map_cons, List.map_nil, List.length_nil, List.length_cons]
    refine ⟨by simp, ?_⟩
    simp
    rw [add_div, div_self h0, one_div, Complex.add_re, Complex.one_re]
    linarith
  | succ n ih =>
    obtain ⟨hu, hp⟩ := ih
    rw [iir.bessel_eval, show (iir.bessel (n + 1)).1 = (iir.bessel n).2 from rfl]
    set U := (np.toPoly (np.complexOf (iir.bessel n).1)).eval s
    set A := (np.toPoly (np.complexOf (iir.bessel n).2)).eval s
    have hA : A ≠ 0 := by
      intro hA; rw [hA] at hp; simp at hp
    refine ⟨hA, ?_⟩
    have e : (U * s ^ 2 + (2 * n + 3) * A) / (s * A) = ((2 * n + 3 : ℝ) : ℂ) * s⁻¹ + (A / (s * U))⁻¹ := by
      push_cast
      field_simp
      ring
    rw [e, Complex.add_re, Complex.re_ofReal_mul, Complex.inv_re (A / (s * U))]
    have h1 : 0 < (A / (s * U)).re / Complex.normSq (A / (s * U)) := by
      apply div_pos hp
      apply Complex.normSq_pos.mpr
      intro h; rw [h] at hp; simp at hp
    have h2 : 0 ≤ (2 * (n : ℝ) + 3) * (s⁻¹).re := mul_nonneg (by positivity) hinv
    linarith

theorem iir.bessel_zero (n : ℕ) : (np.toPoly (np.complexOf (iir.bessel n).2)).eval 0 ≠ 0 := by
  induction n with
  | zero => simp [iir.bessel, np.complexOf, np.toPoly]
  | succ n ih =>
    rw [iir.bessel_eval]
    simp only [ne_eq, OfNat.ofNat_ne_zero, not_false_eq_true, zero_pow, mul_zero, zero_add, mul_eq_zero, not_or]
    refine ⟨?_, ih⟩
    exact_mod_cast (by omega : 2 * n + 3 ≠ 0)

theorem iir.bessel_hurwitz (n : ℕ) : Hurwitz (n + 1) (iir.bessel n).2 := by
  obtain ⟨-, h2, -, h4⟩ := iir.bessel_spec n
  refine ⟨h2, h4, ?_⟩
  intro s hs
  by_contra hn
  push Not at hn
  by_cases h0 : s = 0
  · subst h0; exact iir.bessel_zero n hs
  · have := (iir.bessel_positive n s hn h0).2
    rw [hs] at this
    simp at this

theorem convolve_head (u v : List ℝ) (hu : u.head? = some 1) (hv : v.head? = some 1) : (np.convolve u v).head? = some 1 := by
  cases u with
  | nil => simp at hu
  | cons x u =>
    cases v with
    | nil => simp at hv
    | cons y v =>
      simp at hu hv
      subst hu; subst hv
      simp [np.convolve]

theorem Hurwitz.convolve {m n : ℕ} {u v : List ℝ} (hu : Hurwitz m u) (hv : Hurwitz n v) : Hurwitz (m + n) (np.convolve u v) := by
  have hvn : v ≠ [] := by intro h; have := hv.len; rw [h] at this; simp at this
  refine ⟨?_, convolve_head u v hu.head hv.head, ?_⟩
  · rw [np.convolve_length _ _ hvn, hu.len, hv.len]; omega
  · intro s hs
    rw [complexOf_convolve, np.toPoly_convolve _ _ (by simpa [np.complexOf] using hvn), eval_mul, mul_eq_zero] at hs
    rcases hs with h | h
    · exact hu.root s h
    · exact hv.root s h

theorem hurwitz_one : Hurwitz 0 [1] := ⟨rfl, rfl, by intro s hs; simp [np.complexOf, np.toPoly] at hs⟩

theorem hurwitz_linear : Hurwitz 1 [1, 1] := by
  refine ⟨rfl, rfl, ?_⟩
  intro s hs
  simp [np.complexOf, np.toPoly] at hs
  have := congrArg Complex.re hs
  simp at this
  linarith

theorem hurwitz_quadratic (c : ℝ) (hc : 0 < c) : Hurwitz 2 [1, c, 1] := by
  refine ⟨rfl, rfl, ?_⟩
  intro s hs
  have h : s * s + c * s + 1 = 0 := by
    simp [np.complexOf, np.toPoly] at hs
    linear_combination hs
  have hr := congrArg Complex.re h
  have hi := congrArg Complex.im h
  simp at hr hi
  by_contra hn
  push Not at hn
  have : s.im * (2 * s.re + c) = 0 := by linarith
  rcases mul_eq_zero.mp this with h0 | h0
  · rw [h0] at hr; nlinarith
  · linarith

theorem hurwitz_fold (l : List (List ℝ)) (h : ∀ q ∈ l, Hurwitz 2 q) (c : List ℝ) (m : ℕ) (hc : Hurwitz m c) :
    Hurwitz (m + 2 * l.length) (l.foldl np.convolve c) := by
  induction l generalizing c m with
  | nil => simpa using hc
  | cons q l ih =>
    rw [List.foldl_cons, List.length_cons, show m + 2 * (l.length + 1) = m + 2 + 2 * l.length by ring]
    exact ih (fun q' hq' => h q' (by simp [hq'])) _ _ (hc.convolve (h q (by simp)))

theorem iir.butterworth_hurwitz (order : ℕ) : Hurwitz order (iir.butterworth order) := by
  unfold iir.butterworth
  have h := hurwitz_fold ((List.range' 1 (order / 2)).map fun ii : ℕ =>
    [1, -2 * Real.cos ((2 * (ii : ℝ) + order - 1) / (2 * order) * Real.pi), 1]) ?_ [1] 0 hurwitz_one
  · simp only [List.length_map, List.length_range', zero_add] at h
    simp only
    split
    · have h' := h.convolve hurwitz_linear
      rw [show 2 * (order / 2) + 1 = order by omega] at h'
      exact h'
    · rw [show 2 * (order / 2) = order by omega] at h
      exact h
  · intro q hq
    obtain ⟨ii, hii, rfl⟩ := List.mem_map.mp hq
    rw [List.mem_range'_1] at hii
    apply hurwitz_quadratic
    have ho : (0 : ℝ) < order := by exact_mod_cast (by omega : 0 < order)
    have h1 : (1 : ℝ) ≤ ii := by exact_mod_cast hii.1
    have h2 : 2 * (ii : ℝ) ≤ order := by exact_mod_cast (by omega : 2 * ii ≤ order)
    have hcos : Real.cos ((2 * (ii : ℝ) + order - 1) / (2 * order) * Real.pi) < 0 := by
      apply Real.cos_neg_of_pi_div_two_lt_of_lt
      · have : 1 / 2 < (2 * (ii : ℝ) + order - 1) / (2 * order) := by
          rw [div_lt_div_iff₀ (by norm_num) (by linarith)]; linarith
        have := mul_lt_mul_of_pos_right this Real.pi_pos
        linarith
      · have : (2 * (ii : ℝ) + order - 1) / (2 * order) < 1 := by
          rw [div_lt_one (by linarith)]; linarith
        have := mul_lt_mul_of_pos_right this Real.pi_pos
        have hp := Real.pi_pos
        linarith
    linarith

theorem iir.chebyshev_mem (order : ℕ) (ho : 0 < order) (p : ℂ) (hp : p ∈ iir.chebyshevPoles order) : p.re < 0 := by
  unfold iir.chebyshevPoles at hp
  simp only [List.map_map, List.mem_map, List.mem_range, Function.comp_apply] at hp
  obtain ⟨k, hk, rfl⟩ := hp
  have hbase : 0 < (10 : ℝ) ^ (0.1 * 0.125 : ℝ) - 1 := by
    have := Real.one_lt_rpow (by norm_num : (1 : ℝ) < 10) (by norm_num : (0 : ℝ) < 0.1 * 0.125)
    linarith
  have hv : 0 < Real.arsinh (1 / ((10 : ℝ) ^ (0.1 * 0.125 : ℝ) - 1) ^ (0.5 : ℝ)) / order := by
    apply div_pos
    · rw [Real.arsinh_pos_iff]; positivity
    · exact_mod_cast ho
  set v := Real.arsinh (1 / ((10 : ℝ) ^ (0.1 * 0.125 : ℝ) - 1) ^ (0.5 : ℝ)) / order
  have hsv : 0 < Real.sinh v := Real.sinh_pos_iff.mpr hv
  set θ : ℝ := Real.pi * (2 * k + 1) / (2 * order) with hθ
  have hu : Complex.exp (Complex.I * Real.pi * (2 * k + 1) / (2 * order)) = Complex.exp ((θ : ℂ) * Complex.I) := by
    congr 1; rw [hθ]; push_cast; ring
  rw [hu, Complex.exp_ofReal_mul_I_im, Complex.exp_ofReal_mul_I_re]
  have hsin : 0 < Real.sin θ := by
    have ho' : (0 : ℝ) < order := by exact_mod_cast ho
    apply Real.sin_pos_of_pos_of_lt_pi
    · rw [hθ]; have := Real.pi_pos; positivity
    · rw [hθ, div_lt_iff₀ (by linarith)]
      apply mul_lt_mul_of_pos_left _ Real.pi_pos
      have : (k : ℝ) + 1 ≤ order := by exact_mod_cast hk
      linarith
  have e : ((-(Real.sinh v : ℂ) * (Real.sin θ : ℝ) + Complex.I * (Real.cosh v : ℂ) * (Real.cos θ : ℝ)) * 2 * Real.pi).re =
      -(Real.sinh v * Real.sin θ) * (2 * Real.pi) := by
    rw [show ((-(Real.sinh v : ℂ) * (Real.sin θ : ℝ) + Complex.I * (Real.cosh v : ℂ) * (Real.cos θ : ℝ)) * 2 * Real.pi) =
      ((-(Real.sinh v * Real.sin θ) * (2 * Real.pi) : ℝ) : ℂ) + ((Real.cosh v * Real.cos θ * (2 * Real.pi) : ℝ) : ℂ) * Complex.I by
      push_cast; ring]
    rw [Complex.add_re, Complex.ofReal_re, Complex.re_ofReal_mul, Complex.I_re]; ring
  rw [e]
  have := mul_pos (mul_pos hsv hsin) (mul_pos two_pos Real.pi_pos)
  linarith

theorem iir.chebyshev_conj (order : ℕ) (ho : 0 < order) :
    ((iir.chebyshevPoles order).map (starRingEnd ℂ)).Perm (iir.chebyshevPoles order) := by
  have ho' : (order : ℂ) ≠ 0 := by exact_mod_cast ho.ne'
  unfold iir.chebyshevPoles
  simp only [List.map_map]
  have h : ∀ g : ℕ → ℂ, ((List.range order).map fun k => g (order - 1 - k)).Perm ((List.range order).map g) := by
    intro g
    have : ((List.range order).map fun k => g (order - 1 - k)) = ((List.range order).map g).reverse := by
      apply List.ext_getElem (by simp)
      intro i h1 h2
      simp
    rw [this]
    exact List.reverse_perm _
  refine List.Perm.trans (List.Perm.of_eq ?_) (h _)
  apply List.map_congr_left
  intro k hk
  rw [List.mem_range] at hk
  simp only [Function.comp_apply]
  have e1 : ∀ θ : ℝ, ∀ w : ℂ, w = (θ : ℂ) * Complex.I → (Complex.exp w).im = Real.sin θ ∧ (Complex.exp w).re = Real.cos θ := by
    rintro θ w rfl
    exact ⟨Complex.exp_ofReal_mul_I_im θ, Complex.exp_ofReal_mul_I_re θ⟩
  obtain ⟨a1, a2⟩ := e1 (Real.pi * (2 * k + 1) / (2 * order)) (Complex.I * Real.pi * (2 * k + 1) / (2 * order)) (by push_cast; ring)
  obtain ⟨b1, b2⟩ := e1 (Real.pi - Real.pi * (2 * k + 1) / (2 * order))
    (Complex.I * Real.pi * (2 * ((order - 1 - k : ℕ) : ℂ) + 1) / (2 * order)) (by
      rw [Nat.cast_sub (by omega), Nat.cast_sub (by omega)]
      push_cast
      field_simp
      ring)
  rw [a1, a2, b1, b2, Real.sin_pi_sub, Real.cos_pi_sub]
  simp only [map_mul, map_add, map_neg, Complex.conj_ofReal, Complex.conj_I, map_ofNat, Complex.ofReal_neg]
  ring

theorem iir.chebyshev_hurwitz (order : ℕ) (ho : 0 < order) : Hurwitz order ((np.poly (iir.chebyshevPoles order)).map Complex.re) := by
  have hr := np.poly_real _ (iir.chebyshev_conj order ho)
  have hl : (np.poly (iir.chebyshevPoles order)).length = order + 1 := by
    rw [np.poly_length]; simp [iir.chebyshevPoles]
  refine ⟨by rw [List.length_map, hl], ?_, ?_⟩
  · have h0 := np.poly_head (iir.chebyshevPoles order)
    cases h : np.poly (iir.chebyshevPoles order) with
    | nil => rw [h] at hl; simp at hl
    | cons x t =>
      rw [h] at h0
      simp [at0] at h0
      simp [h0]
  · intro s hs
    rw [show np.complexOf ((np.poly (iir.chebyshevPoles order)).map Complex.re) = np.poly (iir.chebyshevPoles order) from hr,
      np.toPoly_poly, Polynomial.eval_list_prod, List.prod_eq_zero_iff] at hs
    simp only [List.map_map, List.mem_map, Function.comp_apply, eval_sub, eval_X, eval_C] at hs
    obtain ⟨p, hp, h0⟩ := hs
    rw [sub_eq_zero.mp h0]
    exact iir.chebyshev_mem order ho p hp

theorem iir.denominator_hurwitz (style : IStyle) (order : ℕ) (ho : 0 < order) : Hurwitz order (iir.denominator style order) := by
  cases style
  · have := iir.bessel_hurwitz (order - 1)
    rw [show order - 1 + 1 = order by omega] at this
    exact this
  · exact iir.butterworth_hurwitz order
  · exact iir.chebyshev_hurwitz order ho

end Verif
