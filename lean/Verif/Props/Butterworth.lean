import Verif.Props.Bilinear
import Verif.Props.IirDesign
import Verif.Lemmas.Cutoff
import Mathlib.Analysis.Convex.Deriv
import Mathlib.Analysis.SpecialFunctions.Trigonometric.ArctanDeriv
import Mathlib.Analysis.SpecialFunctions.Trigonometric.Bounds
import Mathlib.Analysis.Real.Pi.Bounds
import Mathlib.FieldTheory.KummerExtension
import Mathlib.RingTheory.RootsOfUnity.Complex

/- Property C88: the magnitude response of the Butterworth designs of IirFilter (diamondback/filters/iir_filter.py:160-254). -/

namespace Verif.Props

open Finset Spec

/-- The recursive coefficients of the bilinear transform, whatever the forward coefficients. -/
theorem bilinear_recursive (residue : List ℝ → List ℝ → List ℂ × List ℂ) (u v : List ℝ) (f : ℝ) (a : List ℝ) (ob : Option (List ℝ)) (hu : u.head? ≠ some 0)
    (h : zt.transform residue u v f true = .ok (some a, ob)) :
    sAt u 0 ≠ 0 ∧ 1 - zAt a 1 ≠ 0 ∧ ∀ z : ℂ, z ≠ 0 → z ≠ -1 →
      (1 - zAt a z) * sAt u 0 = (1 - zAt a 1) * sAt u (2 / (Real.pi * f) * ((z - 1) / (z + 1))) * ((1 + z⁻¹) / 2) ^ (u.length - 1) := by
  classical
  obtain ⟨hf, n1, n2, n3, n4⟩ := zt.ok_cases _ _ _ _ _ _ h
  obtain ⟨x, t, hsu, hx⟩ := zt.strip_cons u n1
  have eu : u = x :: t := by rw [← hsu, strip_of_head u hu]
  set d := (zt.strip u).getLastD 0 with hd
  set H : ℂ := 2 * ((1 / (Real.pi * f) : ℝ) : ℂ) with hH
  have hH0 : H ≠ 0 := by
    rw [hH, two_t_eq]
    have := div_pos two_pos (mul_pos Real.pi_pos hf)
    exact_mod_cast this.ne'
  have hHs : ∀ z : ℂ, H * (z - 1) / (z + 1) = 2 / (Real.pi * f) * ((z - 1) / (z + 1)) := by
    intro z; rw [hH]; push_cast; ring
  unfold zt.transform at h
  simp only [n1, n2, not_le.mpr hf, if_false] at h
  rw [← hd, ← hH] at h
  simp only [n3, n4, if_false, if_true] at h
  split at h
  · simp at h
  rename_i hp0
  simp only [Except.ok.injEq, Prod.mk.injEq, Option.some.injEq] at h
  obtain ⟨ha, -⟩ := h
  set p0 := np.roots (np.complexOf ((zt.strip u).map (· / d))) with hp0d
  have hbc : ∀ p, (starRingEnd ℂ) (zt.bilinear H p) = zt.bilinear H ((starRingEnd ℂ) p) := by
    intro p; rw [hH, two_t_eq]; exact zt.bilinear_conj _ p
  have hpc : ((p0.map (zt.bilinear H)).map (starRingEnd ℂ)).Perm (p0.map (zt.bilinear H)) := zt.map_conj_perm _ _ hbc (np.roots_conj _)
  have hd' : (d : ℂ) ≠ 0 := by exact_mod_cast n3
  have hU : ∀ s, sAt u s = x * (p0.map (s - ·)).prod := by
    intro s
    have h1 := sAt_div (x :: t) d s
    rw [List.map_cons, sAt_roots _ _ (div_ne_zero hx n3), ← List.map_cons (f := (· / d)), ← hsu, ← hp0d, hsu, ← eu] at h1
    push_cast at h1
    rw [eq_div_iff hd'] at h1
    rw [← h1]; field_simp
  have hlp : p0.length = u.length - 1 := by
    rw [hp0d, hsu, eu]; simp only [List.map_cons, np.complexOf]
    rw [np.roots_length _ _ (by simp [hx, n3])]; simp
  have hUH : sAt u H ≠ 0 := by
    rw [hU]
    refine mul_ne_zero (by exact_mod_cast hx) (List.prod_ne_zero ?_)
    intro h0
    obtain ⟨c, hc, e⟩ := List.mem_map.mp h0
    exact hp0 (by rw [sub_eq_zero.mp e]; exact hc)
  have hP : ∀ w, w ≠ -1 → sAt u H * ((p0.map (zt.bilinear H)).map (w - ·)).prod = (w + 1) ^ (u.length - 1) * sAt u (H * (w - 1) / (w + 1)) := by
    intro w hw
    have e := bilinear_prod H w hH0 hw p0 hp0
    rw [hU, hU, ← hlp, mul_assoc, e]; ring
  have hA : ∀ w, w ≠ 0 → (1 - zAt a w) * w ^ (u.length - 1) = ((p0.map (zt.bilinear H)).map (w - ·)).prod := by
    intro w hw
    rw [← ha, recursive_zAt _ hpc, ← hlp, ← poly_eval _ hpc, ← zAt_eval _ _ hw]
    congr 2
    simp [np.poly_length]
  have hU0 : sAt u 0 ≠ 0 := by
    rw [sAt_zero, ← strip_of_head u hu]
    exact_mod_cast n3
  have p1 := hP 1 (by norm_num)
  have a1 := hA 1 one_ne_zero
  rw [show H * (1 - 1) / (1 + 1) = 0 by simp, ← a1, one_pow, mul_one, show (1 : ℂ) + 1 = 2 by norm_num] at p1
  refine ⟨hU0, ?_, ?_⟩
  · intro e
    rw [e, mul_zero] at p1
    exact (mul_ne_zero (pow_ne_zero _ (by norm_num)) hU0) p1.symm
  · intro z hz0 hz1
    have pz := hP z hz1
    rw [hHs, ← hA z hz0] at pz
    generalize sAt u (2 / (Real.pi * f) * ((z - 1) / (z + 1))) = Us at *
    generalize u.length - 1 = n at *
    have hzn : z ^ n ≠ 0 := pow_ne_zero _ hz0
    have h2 : (2 : ℂ) ^ n ≠ 0 := pow_ne_zero _ two_ne_zero
    have e : ((1 + z⁻¹) / 2) ^ n = (z + 1) ^ n / (2 ^ n * z ^ n) := by
      rw [← mul_pow, ← div_pow]; congr 1; field_simp
    rw [e]
    have key : sAt u H * ((1 - zAt a z) * sAt u 0 * (2 ^ n * z ^ n)) = sAt u H * ((1 - zAt a 1) * Us * (z + 1) ^ n) := by
      linear_combination (2 ^ n * sAt u 0) * pz - (z + 1) ^ n * Us * p1
    have key' := mul_left_cancel₀ hUH key
    field_simp
    linear_combination key'

/-- The forward coefficients of a design: all zeros at `z = -1`. -/
theorem zeros_zAt (n : ℕ) (z : ℂ) (hz : z ≠ 0) : zAt (np.poly (List.replicate n (-1 : ℝ))) z = (1 + z⁻¹) ^ n := by
  have e := zAt_eval (np.poly (List.replicate n (-1 : ℝ))) z hz
  rw [np.poly_length, List.length_replicate, Nat.add_sub_cancel, sAt_eval, show np.complexOf (np.poly (List.replicate n (-1 : ℝ))) = (np.poly (List.replicate n (-1 : ℝ))).map Complex.ofRealHom from rfl,
    np.toPoly_map Complex.ofRealHom, np.toPoly_poly] at e
  simp only [List.map_replicate, List.prod_replicate, Polynomial.map_pow, Polynomial.eval_pow] at e
  simp only [Polynomial.map_sub, Polynomial.map_X, Polynomial.map_C, Polynomial.eval_sub, Polynomial.eval_X, Polynomial.eval_C] at e
  have hzn : z ^ n ≠ 0 := pow_ne_zero _ hz
  apply mul_right_cancel₀ hzn
  rw [e, ← mul_pow]
  congr 1
  field_simp
  simp

theorem hurwitz_sAt (n : ℕ) (c : List ℝ) (h : Hurwitz n c) (s : ℂ) (hs : 0 ≤ s.re) : sAt c s ≠ 0 := by
  intro e
  rw [sAt_eval] at e
  linarith [h.root s e]

/-- The response of a design by the bilinear transform, before the search. -/
theorem evaluate_response (residue : List ℝ → List ℝ → List ℂ × List ℂ) (style : IStyle) (hst : style ≠ .bessel) (f : ℝ) (hf : 0 < f) (order : ℕ) (ho : 0 < order) (a b : List ℝ)
    (h : iir.evaluate residue style f order = .ok (a, b)) (ω : ℝ) :
    freqResp a b (2 / Real.pi * Real.arctan (Real.pi * f * ω / 2)) = sAt (iir.denominator style order) 0 / sAt (iir.denominator style order) (Complex.I * ω) := by
  have hH := iir.denominator_hurwitz style order ho
  unfold iir.evaluate at h
  set c := iir.denominator style order with hc
  have hd : c.getLastD 0 ≠ 0 := by
    intro e
    have := hurwitz_sAt order c hH 0 (by simp)
    rw [sAt_zero, e] at this
    simp at this
  have hdc : ((c.getLastD 0 : ℝ) : ℂ) ≠ 0 := by exact_mod_cast hd
  simp only [hst, ne_eq, not_false_eq_true, decide_true] at h
  set d := c.getLastD 0 with hdd
  have hhead : (c.map (· / d)).head? ≠ some 0 := by
    rw [List.head?_map, hH.head]
    simp [hd]
  have hlen : (c.map (· / d)).length - 1 = order := by rw [List.length_map, hH.len]; rfl
  split at h
  · cases h
  · cases h
  rename_i a' ob ht
  simp only [Except.ok.injEq, Prod.mk.injEq] at h
  obtain ⟨rfl, hb⟩ := h
  obtain ⟨r1, r2, r3⟩ := bilinear_recursive residue _ _ f a' ob hhead ht
  rw [hlen] at r3
  simp only [sAt_div] at r1 r3
  set x := Real.pi * f * ω / 2 with hx
  have hpi : (Real.pi : ℂ) ≠ 0 := by exact_mod_cast Real.pi_ne_zero
  have hfc : (f : ℂ) ≠ 0 := by exact_mod_cast hf.ne'
  have hm : (1 : ℂ) - Complex.I * x ≠ 0 := by
    intro e; have := congrArg Complex.re e; simp at this
  have hz := exp_arctan x
  have he : Complex.I * (2 * Real.arctan x : ℝ) = Complex.I * Real.pi * ((2 / Real.pi * Real.arctan x : ℝ) : ℂ) := by
    push_cast; field_simp
  rw [he] at hz
  unfold freqResp
  rw [← zAt_exp, ← zAt_exp]
  set z := Complex.exp (Complex.I * Real.pi * ((2 / Real.pi * Real.arctan x : ℝ) : ℂ)) with hzd
  have hz' : z = (1 + Complex.I * x) / (1 - Complex.I * x) := by rw [← hz]; field_simp
  have hz0 : z ≠ 0 := Complex.exp_ne_zero _
  have hz1 : z + 1 ≠ 0 := by
    rw [hz', div_add_one hm]
    exact div_ne_zero (by ring_nf; norm_num) hm
  have hS : 2 / (Real.pi * f) * ((z - 1) / (z + 1)) = Complex.I * (ω : ℂ) := by
    have : (z - 1) / (z + 1) = Complex.I * x := by
      rw [div_eq_iff hz1]; linear_combination hz
    rw [this, hx]; push_cast; field_simp
  have r4 := r3 z hz0 (fun e => hz1 (by rw [e]; ring))
  rw [hS] at r4
  have hU : sAt c (Complex.I * ω) ≠ 0 := hurwitz_sAt order c hH _ (by simp)
  have hU0 : sAt c 0 ≠ 0 := hurwitz_sAt order c hH 0 (by simp)
  have hg : (1 + z⁻¹) ≠ 0 := by
    intro e
    apply hz1
    have := congrArg (· * z) e
    simp only [add_mul, inv_mul_cancel₀ hz0, zero_mul, one_mul] at this
    exact this
  have one_at : zAt a' 1 = ((a'.sum : ℝ) : ℂ) := by
    rw [sum_eq_range]; simp [zAt]
  have hsum : (np.poly (List.replicate order (-1 : ℝ))).sum = 2 ^ order := by
    rw [real_sum_poly]; simp; norm_num
  rw [← hb, zAt_map_mul, zeros_zAt order z hz0, hsum]
  rw [one_at] at r2 r4
  rw [div_pow] at r4
  have h2 : (2 : ℂ) ^ order ≠ 0 := pow_ne_zero _ two_ne_zero
  have hgn : (1 + z⁻¹) ^ order ≠ 0 := pow_ne_zero _ hg
  generalize (1 + z⁻¹) ^ order = G at *
  generalize sAt c (Complex.I * ω) = Us at *
  generalize sAt c 0 = U0 at *
  have hA : 1 - zAt a' z ≠ 0 := by
    intro e
    rw [e, zero_mul] at r4
    exact mul_ne_zero (mul_ne_zero r2 (div_ne_zero hU hdc)) (div_ne_zero hgn h2) r4.symm
  push_cast
  rw [div_eq_div_iff hA hU]
  field_simp at r4 ⊢
  linear_combination -r4

theorem list_range_prod {M : Type*} [CommMonoid M] (n : ℕ) (g : ℕ → M) : ((List.range n).map g).prod = ∏ j ∈ range n, g j := by
  induction n with
  | zero => simp
  | succ n ih => rw [List.range_succ, List.map_append, List.prod_append, ih, prod_range_succ]; simp

theorem prod_pairs (n : ℕ) (F : ℕ → ℂ) : ∏ i ∈ range n, F i = (∏ i ∈ range (n / 2), F i * F (n - 1 - i)) * if n % 2 = 1 then F (n / 2) else 1 := by
  obtain ⟨m, hm⟩ : ∃ m, m = n / 2 := ⟨_, rfl⟩
  rw [← hm, prod_mul_distrib]
  by_cases h : n % 2 = 1
  · have e : n = m + 1 + m := by omega
    rw [if_pos h]
    conv_lhs => rw [e, prod_range_add, prod_range_succ]
    rw [← prod_range_reflect (fun i => F (n - 1 - i))]
    have : ∀ i ∈ range m, F (m + 1 + i) = F (n - 1 - (m - 1 - i)) := by
      intro i hi
      have := mem_range.mp hi
      congr 1; omega
    rw [prod_congr rfl this]; ring
  · have e : n = m + m := by omega
    rw [if_neg h]
    conv_lhs => rw [e, prod_range_add]
    rw [← prod_range_reflect (fun i => F (n - 1 - i))]
    have : ∀ i ∈ range m, F (m + i) = F (n - 1 - (m - 1 - i)) := by
      intro i hi
      have := mem_range.mp hi
      congr 1; omega
    rw [prod_congr rfl this]; ring

/-- The factors of `x ^ n + 1`. -/
theorem pow_add_one (n : ℕ) (hn : 0 < n) (x : ℝ) :
    x ^ n + 1 = (∏ i ∈ range (n / 2), (x ^ 2 - 2 * x * Real.cos ((2 * i + 1) * Real.pi / n) + 1)) * if n % 2 = 1 then x + 1 else 1 := by
  have hnc : (n : ℂ) ≠ 0 := by exact_mod_cast hn.ne'
  have hα : Complex.exp (Real.pi * Complex.I / n) ^ n = -1 := by
    rw [← Complex.exp_nat_mul, mul_div_cancel₀ _ hnc, Complex.exp_pi_mul_I]
  have hp := X_pow_sub_C_eq_prod (Complex.isPrimitiveRoot_exp n hn.ne') hn hα
  have hp := congrArg (Polynomial.eval (x : ℂ)) hp
  simp only [Polynomial.eval_prod, Polynomial.eval_sub, Polynomial.eval_pow, Polynomial.eval_X, Polynomial.eval_C] at hp
  have hF : ∀ i : ℕ, Complex.exp (2 * Real.pi * Complex.I / n) ^ i * Complex.exp (Real.pi * Complex.I / n) =
      Complex.exp (((2 * i + 1) * Real.pi / n : ℝ) * Complex.I) := by
    intro i
    rw [← Complex.exp_nat_mul, ← Complex.exp_add]
    congr 1
    push_cast
    field_simp
  simp only [hF] at hp
  rw [prod_pairs] at hp
  have : ((x ^ n + 1 : ℝ) : ℂ) = (((∏ i ∈ range (n / 2), (x ^ 2 - 2 * x * Real.cos ((2 * i + 1) * Real.pi / n) + 1)) * if n % 2 = 1 then x + 1 else 1 : ℝ) : ℂ) := by
    push_cast
    rw [sub_neg_eq_add] at hp
    rw [hp]
    congr 1
    · apply prod_congr rfl
      intro i hi
      have hi := mem_range.mp hi
      have e : (((2 * ((n - 1 - i : ℕ) : ℝ) + 1) * Real.pi / n : ℝ) : ℂ) * Complex.I = -(((2 * (i : ℝ) + 1) * Real.pi / n : ℝ) * Complex.I) + 2 * Real.pi * Complex.I := by
        have : ((n - 1 - i : ℕ) : ℝ) = n - 1 - i := by
          rw [Nat.cast_sub (by omega), Nat.cast_sub (by omega)]; simp
        rw [this]
        push_cast
        field_simp
        ring
      rw [e, Complex.exp_add, Complex.exp_two_pi_mul_I, mul_one]
      have hc := Complex.two_cos (((2 * (i : ℝ) + 1) * Real.pi / n : ℝ) : ℂ)
      have h1 : Complex.exp ((((2 * (i : ℝ) + 1) * Real.pi / n : ℝ) : ℂ) * Complex.I) * Complex.exp (-((((2 * (i : ℝ) + 1) * Real.pi / n : ℝ) : ℂ) * Complex.I)) = 1 := by
        rw [← Complex.exp_add, add_neg_cancel, Complex.exp_zero]
      rw [neg_mul] at hc
      push_cast at hc h1 ⊢
      linear_combination h1 + (x : ℂ) * hc
    · split
      · rename_i h
        have e : (((2 * ((n / 2 : ℕ) : ℝ) + 1) * Real.pi / n : ℝ) : ℂ) * Complex.I = Real.pi * Complex.I := by
          have : (2 * ((n / 2 : ℕ) : ℝ) + 1) = n := by
            have : 2 * (n / 2) + 1 = n := by omega
            exact_mod_cast this
          rw [this]
          push_cast
          field_simp
        rw [e, Complex.exp_pi_mul_I]
        push_cast
        ring
      · simp
  exact_mod_cast this

theorem eval_fold_convolve (l : List (List ℝ)) (hl : ∀ q ∈ l, q ≠ []) (c : List ℝ) (s : ℂ) : sAt (l.foldl np.convolve c) s = sAt c s * (l.map (sAt · s)).prod := by
  induction l generalizing c with
  | nil => simp
  | cons q l ih =>
    rw [List.foldl_cons, ih (fun q hq => hl q (List.mem_cons_of_mem _ hq)), List.map_cons, List.prod_cons]
    rw [sAt_eval (np.convolve c q), complexOf_convolve, np.toPoly_convolve _ _ (by simpa [np.complexOf] using hl q (by simp)), Polynomial.eval_mul, ← sAt_eval, ← sAt_eval]
    ring

/-- The polynomial of Butterworth on the imaginary axis. -/
theorem butterworth_norm (n : ℕ) (hn : 0 < n) (ω : ℝ) : Complex.normSq (sAt (iir.butterworth n) (Complex.I * ω)) = 1 + ω ^ (2 * n) := by
  have hnr : (n : ℝ) ≠ 0 := by exact_mod_cast hn.ne'
  have hq : ∀ i : ℕ, Complex.normSq (sAt [1, -2 * Real.cos ((2 * ((i + 1 : ℕ) : ℝ) + n - 1) / (2 * n) * Real.pi), 1] (Complex.I * ω)) =
      (ω ^ 2) ^ 2 - 2 * ω ^ 2 * Real.cos ((2 * i + 1) * Real.pi / n) + 1 := by
    intro i
    have e : (2 * ((i + 1 : ℕ) : ℝ) + n - 1) / (2 * n) * Real.pi = (2 * i + 1) * Real.pi / n / 2 + Real.pi / 2 := by
      push_cast; field_simp; ring
    rw [e, Real.cos_add_pi_div_two]
    have hc : Real.cos ((2 * i + 1) * Real.pi / n) = 1 - 2 * Real.sin ((2 * i + 1) * Real.pi / n / 2) ^ 2 := by
      have := Real.cos_two_mul ((2 * i + 1) * Real.pi / n / 2)
      rw [show 2 * ((2 * i + 1) * Real.pi / n / 2) = (2 * i + 1) * Real.pi / n by ring] at this
      rw [this, Real.cos_sq']; ring
    rw [hc]
    generalize Real.sin ((2 * i + 1) * Real.pi / n / 2) = t
    have : sAt [1, -2 * -t, 1] (Complex.I * ω) = ((1 - ω ^ 2 : ℝ) : ℂ) + ((2 * t * ω : ℝ) : ℂ) * Complex.I := by
      simp [sAt, sum_range_succ, at0, mul_pow]
      ring
    rw [this, Complex.normSq_add_mul_I]
    ring
  have hone : sAt [1] (Complex.I * ω) = 1 := by simp [sAt, at0]
  have hfold : Complex.normSq (sAt (((List.range' 1 (n / 2)).map fun ii : ℕ => [1, -2 * Real.cos ((2 * (ii : ℝ) + n - 1) / (2 * n) * Real.pi), 1]).foldl np.convolve [1]) (Complex.I * ω)) =
      ∏ i ∈ range (n / 2), ((ω ^ 2) ^ 2 - 2 * ω ^ 2 * Real.cos ((2 * i + 1) * Real.pi / n) + 1) := by
    rw [eval_fold_convolve _ (by intro q hq; obtain ⟨i, -, rfl⟩ := List.mem_map.mp hq; simp), hone, one_mul, List.map_map, map_list_prod, List.map_map]
    rw [List.range'_eq_map_range, List.map_map, list_range_prod]
    apply prod_congr rfl
    intro i _
    simp only [Function.comp_apply]
    rw [← hq i]
    congr 3
    simp [add_comm]
  rw [show ω ^ (2 * n) = (ω ^ 2) ^ n by rw [pow_mul], add_comm, pow_add_one n hn, ← hfold]
  unfold iir.butterworth
  simp only
  split
  · rename_i h
    have := eval_fold_convolve [[1, 1]] (by simp) (((List.range' 1 (n / 2)).map fun ii : ℕ => [1, -2 * Real.cos ((2 * (ii : ℝ) + n - 1) / (2 * n) * Real.pi), 1]).foldl np.convolve [1]) (Complex.I * ω)
    simp only [List.foldl_cons, List.foldl_nil] at this
    rw [this, map_mul]
    congr 1
    have : sAt [1, 1] (Complex.I * ω) = ((1 : ℝ) : ℂ) + (ω : ℂ) * Complex.I := by
      simp [sAt, sum_range_succ, at0]; ring
    simp only [List.map_cons, List.map_nil, List.prod_cons, List.prod_nil, mul_one, this, Complex.normSq_add_mul_I]
    ring
  · rw [mul_one]

theorem butterworth_zero (n : ℕ) (hn : 0 < n) : Complex.normSq (sAt (iir.butterworth n) 0) = 1 := by
  have := butterworth_norm n hn 0
  rw [Complex.ofReal_zero, mul_zero, zero_pow (by omega), add_zero] at this
  exact this

/-- C88.  The gain of one evaluation of the Butterworth design, between zero frequency and Nyquist. -/
theorem C88_evaluate (residue : List ℝ → List ℝ → List ℂ × List ℂ) (f : ℝ) (hf : 0 < f) (n : ℕ) (hn : 0 < n) (a b : List ℝ)
    (h : iir.evaluate residue .butterworth f n = .ok (a, b)) (θ : ℝ) (h1 : -1 < θ) (h2 : θ < 1) :
    ‖freqResp a b θ‖ = 1 / Real.sqrt (1 + (2 / (Real.pi * f) * Real.tan (Real.pi * θ / 2)) ^ (2 * n)) := by
  have hpi := Real.pi_pos
  have e := evaluate_response residue .butterworth (by simp) f hf n hn a b h (2 / (Real.pi * f) * Real.tan (Real.pi * θ / 2))
  have e1 : Real.pi * f * (2 / (Real.pi * f) * Real.tan (Real.pi * θ / 2)) / 2 = Real.tan (Real.pi * θ / 2) := by field_simp
  rw [e1, Real.arctan_tan (by nlinarith) (by nlinarith), show 2 / Real.pi * (Real.pi * θ / 2) = θ by field_simp] at e
  rw [e, norm_div]
  simp only [iir.denominator]
  rw [Complex.norm_def, Complex.norm_def, butterworth_zero n hn, butterworth_norm n hn, Real.sqrt_one]

example (residue : List ℝ → List ℝ → List ℂ × List ℂ) (hres : ResidueSpec residue) : ∃ a b, iir.evaluate residue .butterworth (1 / 10) 4 = .ok (a, b) := by
  obtain ⟨a, b, h, -⟩ := C11_evaluate_stable residue hres .butterworth (1 / 10) (by norm_num) 4 (by norm_num)
  exact ⟨a, b, h⟩

theorem evaluate_pos (residue : List ℝ → List ℝ → List ℂ × List ℂ) (style : IStyle) (f : ℝ) (n : ℕ) (a b : List ℝ)
    (h : iir.evaluate residue style f n = .ok (a, b)) : 0 < f := by
  by_contra hn
  push Not at hn
  unfold iir.evaluate at h
  simp only [zt.transform, hn, if_true] at h
  split at h <;> rename_i h'
  · cases h
  · split at h' <;> first | cases h' | (split at h' <;> cases h')
  · split at h' <;> first | cases h' | (split at h' <;> cases h')

theorem dtft_alternate (c : List ℝ) (θ : ℝ) : dtft (alternate c) (1 - θ) = dtft c (-θ) := by
  unfold dtft
  rw [alternate_length]
  apply sum_congr rfl
  intro n _
  rw [at0_alternate]
  have e : Complex.exp (-(Complex.I * Real.pi * ((1 - θ : ℝ) : ℂ) * n)) = Complex.exp (-(Real.pi * Complex.I)) ^ n * Complex.exp (-(Complex.I * Real.pi * ((-θ : ℝ) : ℂ) * n)) := by
    rw [← Complex.exp_nat_mul, ← Complex.exp_add]
    congr 1
    push_cast
    ring
  have e2 : ((-1 : ℂ) ^ n) * (-1) ^ n = 1 := by rw [← mul_pow]; simp
  rw [e, Complex.exp_neg, Complex.exp_pi_mul_I]
  push_cast
  rw [show ((-1 : ℂ))⁻¹ = -1 by norm_num]
  linear_combination ((at0 c n : ℝ) : ℂ) * Complex.exp (-(Complex.I * Real.pi * (-θ : ℂ) * n)) * e2

theorem dtft_scale (c : List ℝ) (g θ : ℝ) : dtft (c.map (· * g)) θ = g * dtft c θ := by
  unfold dtft
  rw [List.length_map, mul_sum]
  apply sum_congr rfl
  intro n hn
  have : at0 (c.map (· * g)) n = at0 c n * g := by
    simp only [at0, List.getD_eq_getElem?_getD, List.getElem?_map]
    cases c[n]? <;> simp
  rw [this]
  push_cast
  ring

/-- The outcome of the search for a Butterworth design. -/
theorem butterworth_design (residue : List ℝ → List ℝ → List ℂ × List ℂ) (hres : ResidueSpec residue) (f : ℝ) (hf : 0 < f)
    (hf1 : f < 1) (order count : ℤ) (ho : 0 < order) (hcount : 0 < count) (complement : Bool) (gain f' ρ K : ℝ) (hf' : f' = if complement then 1 - f else f)
    (hρ : ρ = if order > 8 ∨ (order > 6 ∧ count > 1) then 0.015 else 0.03) (hK : K = 2 / (Real.pi * f') * Real.tan (Real.pi * f' / 2))
    (s : ℕ → ℝ) (hs : Scales (fun x => 1 / Real.sqrt 2 - bw.gain K order.toNat count.toNat x) ρ (1 / 2 ^ 52) s) :
    ∃ g n k, Iir.newDesign residue (some .butterworth) f order count complement gain none = .ok g ∧ 1 ≤ n ∧ n ≤ 500 ∧
      (n = 500 ∨ |1 / Real.sqrt 2 - bw.gain K order.toNat count.toNat (s (n - 1))| < 10e3 / 2 ^ 52) ∧
      FirstBest (fun x => 1 / Real.sqrt 2 - bw.gain K order.toNat count.toNat x) s n k ∧ 0 < s k ∧
      ∀ θ, -1 < θ → θ < 1 → ‖freqResp g.a g.b (if complement then 1 - θ else θ)‖ =
        |gain| / Real.sqrt (1 + (2 / (Real.pi * (s k * f')) * Real.tan (Real.pi * θ / 2)) ^ (2 * order.toNat)) := by
  have hf0 : 0 < f' := by rw [hf']; split <;> linarith
  have hf'1 : f' < 1 := by rw [hf']; split <;> linarith
  have hon : 0 < order.toNat := by omega
  obtain ⟨n, k, a, b, h1, h2, h3, -, h5, h6, h7⟩ := C15_iir_design_best residue hres .butterworth f hf hf1 order count ho hcount complement gain s _
    (hρ ▸ hs) (by
      intro x a b h
      rw [← hf'] at h ⊢
      have hx : 0 < x * f' := evaluate_pos residue _ _ _ a b h
      rw [C88_evaluate residue (x * f') hx order.toNat hon a b h f' (by linarith) hf'1]
      have e : 2 / (Real.pi * (x * f')) * Real.tan (Real.pi * f' / 2) = K / x := by
        rw [hK]
        have := Real.pi_pos
        have hx' : x ≠ 0 := by rintro rfl; simp at hx
        field_simp
      rw [e, bw.gain])
  rw [← hf'] at h6
  have hsk : 0 < s k * f' := evaluate_pos residue _ _ _ a b h6
  have hskp : 0 < s k := by
    by_contra hn
    push Not at hn
    nlinarith
  obtain ⟨g, g1, -, -, -, -, -, -, -⟩ := Iir.newDesign_spec residue hres .butterworth f hf hf1 order count ho hcount complement gain
  obtain ⟨a'', b'', q1, q2, q3, q4, -⟩ := iir.design_spec residue hres .butterworth f hf hf1 order count ho hcount complement gain
  rw [h7] at q1
  simp only [Except.ok.injEq, Prod.mk.injEq] at q1
  obtain ⟨q5, q6⟩ := q1
  have hane : a'' ≠ [] := by intro h; rw [h] at q3; simp at q3; omega
  obtain ⟨g', p1, p2, p3, p4, p5⟩ := Iir.new_spec (id : ℝ → ℝ) a'' b'' none (Or.inl hane) q2
  have hl : a''.length = b''.length := by omega
  have ha : g'.a = a'' := by rw [p3, hl]; simp [padTo, hl]
  have hb : g'.b = b'' := by rw [p4, hl]; simp [padTo]
  refine ⟨g', n, k, ?_, h1, h2, h3, h5, hskp, ?_⟩
  · unfold Iir.newDesign
    rw [h7]
    simp only
    rw [q5, q6]
    convert p1
  · intro θ t1 t2
    rw [ha, hb, ← q5, ← q6]
    cases complement with
    | false =>
      simp only [Bool.false_eq_true, if_false]
      unfold freqResp
      rw [dtft_scale, mul_div_assoc, norm_mul, Complex.norm_real, Real.norm_eq_abs]
      have := C88_evaluate residue (s k * f') hsk order.toNat hon a b h6 θ t1 t2
      unfold freqResp at this
      rw [this, mul_one_div]
    | true =>
      simp only [if_true]
      unfold freqResp
      rw [dtft_scale, dtft_alternate, dtft_alternate, mul_div_assoc, norm_mul, Complex.norm_real, Real.norm_eq_abs]
      have := C88_evaluate residue (s k * f') hsk order.toNat hon a b h6 (-θ) (by linarith) (by linarith)
      unfold freqResp at this
      rw [this, mul_one_div]
      congr 3
      rw [mul_neg, neg_div, Real.tan_neg, mul_neg, pow_mul, neg_sq, ← pow_mul]

theorem scales_exist (D : ℝ → ℝ) (rate : ℝ) : Scales D rate (1 / 2 ^ 52) (search.scales D rate) := by
  refine ⟨rfl, fun k => ?_⟩
  show max _ search.eps = _
  unfold search.eps
  norm_num

/-- C88.  A Butterworth design of any valid frequency, order and count has the maximally flat response `|gain| / √(1 + (κ tan(πθ/2))^{2·order})`
for some κ > 0, at the frequency θ or, with complement, the frequency 1 - θ. -/
theorem C88_shape (residue : List ℝ → List ℝ → List ℂ × List ℂ) (hres : ResidueSpec residue) (f : ℝ) (hf : 0 < f)
    (hf1 : f < 1) (order count : ℤ) (ho : 0 < order) (hcount : 0 < count) (complement : Bool) (gain : ℝ) :
    ∃ g κ, Iir.newDesign residue (some .butterworth) f order count complement gain none = .ok g ∧ 0 < κ ∧
      ∀ θ, -1 < θ → θ < 1 → ‖freqResp g.a g.b (if complement then 1 - θ else θ)‖ =
        |gain| / Real.sqrt (1 + (κ * Real.tan (Real.pi * θ / 2)) ^ (2 * order.toNat)) := by
  obtain ⟨g, n, k, h1, -, -, -, -, h5, h6⟩ := butterworth_design residue hres f hf hf1 order count ho hcount complement gain _ _ _ rfl rfl rfl _ (scales_exist _ _)
  refine ⟨g, _, h1, ?_, h6⟩
  have : 0 < (if complement then 1 - f else f) := by split <;> linarith
  have := Real.pi_pos
  positivity

/-- The hypotheses hold: a low pass filter of order 4, used twice. -/
example (residue : List ℝ → List ℝ → List ℂ × List ℂ) (hres : ResidueSpec residue) :=
  C88_shape residue hres 0.1 (by norm_num) (by norm_num) 4 2 (by norm_num) (by norm_num) false 5

/-- C88.  The response of a Butterworth design falls strictly with the distance from zero frequency, or with complement from Nyquist. -/
theorem C88_monotone (residue : List ℝ → List ℝ → List ℂ × List ℂ) (hres : ResidueSpec residue) (f : ℝ) (hf : 0 < f)
    (hf1 : f < 1) (order count : ℤ) (ho : 0 < order) (hcount : 0 < count) (complement : Bool) (gain : ℝ) (hg : gain ≠ 0) :
    ∃ g, Iir.newDesign residue (some .butterworth) f order count complement gain none = .ok g ∧
      StrictAntiOn (fun θ => ‖freqResp g.a g.b (if complement then 1 - θ else θ)‖) (Set.Ico 0 1) := by
  obtain ⟨g, κ, h1, h2, h3⟩ := C88_shape residue hres f hf hf1 order count ho hcount complement gain
  refine ⟨g, h1, ?_⟩
  intro x hx y hy hxy
  have hpi := Real.pi_pos
  simp only
  rw [h3 x (by linarith [hx.1]) hx.2, h3 y (by linarith [hy.1]) hy.2]
  have ht : Real.tan (Real.pi * x / 2) < Real.tan (Real.pi * y / 2) :=
    Real.tan_lt_tan_of_nonneg_of_lt_pi_div_two (by have := hx.1; positivity) (by have := hy.2; nlinarith) (by nlinarith)
  have h0 : 0 ≤ Real.tan (Real.pi * x / 2) := Real.tan_nonneg_of_nonneg_of_le_pi_div_two (by have := hx.1; positivity) (by have := hx.2; nlinarith)
  have hp : (κ * Real.tan (Real.pi * x / 2)) ^ (2 * order.toNat) < (κ * Real.tan (Real.pi * y / 2)) ^ (2 * order.toNat) :=
    pow_lt_pow_left₀ (mul_lt_mul_of_pos_left ht h2) (by positivity) (by omega)
  apply div_lt_div_of_pos_left (abs_pos.mpr hg)
  · exact Real.sqrt_pos.mpr (by have : 0 ≤ (κ * Real.tan (Real.pi * x / 2)) ^ (2 * order.toNat) := by positivity
                                linarith)
  · exact Real.sqrt_lt_sqrt (by positivity) (by linarith)

/-- The response at one half of Nyquist is below that at one tenth. -/
example (residue : List ℝ → List ℝ → List ℂ × List ℂ) (hres : ResidueSpec residue) :
    ∃ g, Iir.newDesign residue (some .butterworth) (1 / 10) 4 1 false 1 none = .ok g ∧ ‖freqResp g.a g.b (1 / 2)‖ < ‖freqResp g.a g.b (1 / 10)‖ := by
  obtain ⟨g, h1, h2⟩ := C88_monotone residue hres (1 / 10) (by norm_num) (by norm_num) 4 1 (by norm_num) (by norm_num) false 1 (by norm_num)
  refine ⟨g, h1, ?_⟩
  have := h2 (a := 1 / 10) (b := 1 / 2) ⟨by norm_num, by norm_num⟩ ⟨by norm_num, by norm_num⟩ (by norm_num)
  simpa using this

/-- C88.  Orders up to 66: the response at the design frequency.  With γ the response of one instance divided by the gain, γ^count is at most
2^{-1/2} apart from the tolerance of the search, and approaches it geometrically in the 500 steps of the search. -/
theorem C88_cutoff (residue : List ℝ → List ℝ → List ℂ × List ℂ) (hres : ResidueSpec residue) (f : ℝ) (hf : 0 < f)
    (hf1 : f < 1) (order count : ℤ) (ho : 0 < order) (ho' : order ≤ 66) (hcount : 0 < count) (complement : Bool) (gain f' ρ K p σ : ℝ)
    (hf' : f' = if complement then 1 - f else f)
    (hρ : ρ = if order > 8 ∨ (order > 6 ∧ count > 1) then 0.015 else 0.03)
    (hK : K = 2 / (Real.pi * f') * Real.tan (Real.pi * f' / 2))
    (hp : p = (1 / Real.sqrt (1 + K ^ (2 * order.toNat))) ^ count.toNat)
    (hσ : 1 ≤ σ) (hσc : (1 + 1 / σ ^ (2 * order.toNat)) ^ count.toNat ≤ 2) :
    ∃ g γ, Iir.newDesign residue (some .butterworth) f order count complement gain none = .ok g ∧ ‖freqResp g.a g.b f‖ = |gain| * γ ∧ 0 < γ ∧
      γ ^ count.toNat ≤ 1 / Real.sqrt 2 ∧
      1 / Real.sqrt 2 - γ ^ count.toNat ≤ max (10e3 / 2 ^ 52) ((1 / Real.sqrt 2 - p) * (1 - ρ * order * p / (2 * σ * K)) ^ 499) := by
  have hf0 : 0 < f' := by rw [hf']; split <;> linarith
  have hf'1 : f' < 1 := by rw [hf']; split <;> linarith
  have hpi := Real.pi_pos
  have hs := scales_exist (fun x => 1 / Real.sqrt 2 - bw.gain K order.toNat count.toNat x) ρ
  set s := search.scales (fun x => 1 / Real.sqrt 2 - bw.gain K order.toNat count.toNat x) ρ with hsd
  obtain ⟨g, n, k, h1, h2, h3, h4, h5, h6, h7⟩ := butterworth_design residue hres f hf hf1 order count ho hcount complement gain f' ρ K hf' hρ hK s hs
  have hK1 : 1 ≤ K := by
    have := (Real.lt_tan (x := Real.pi * f' / 2) (by positivity) (by nlinarith)).le
    rw [hK, div_mul_eq_mul_div, le_div_iff₀ (by positivity)]
    linarith
  have hon : ((order.toNat : ℕ) : ℝ) = order := by
    have : ((order.toNat : ℤ)) = order := Int.toNat_of_nonneg ho.le
    exact_mod_cast this
  have hρ0 : 0 < ρ := by rw [hρ]; split <;> norm_num
  have hρn : ρ * (order.toNat : ℝ) ≤ 1 := by
    rw [hon, hρ]
    split
    · have : (order : ℝ) ≤ 66 := by exact_mod_cast ho'
      linarith
    · rename_i hh
      have : order ≤ 8 := by omega
      have : (order : ℝ) ≤ 8 := by exact_mod_cast this
      linarith
  have hconv := bw.converges K σ ρ (1 / 2 ^ 52) order.toNat count.toNat (by omega) (by omega) hK1 hσ hσc hρ0 hρn (by norm_num) s hs.1 hs.2
  have hp1 : bw.gain K order.toNat count.toNat 1 = p := by rw [hp, bw.gain, div_one]
  have hgk : ‖freqResp g.a g.b f‖ = |gain| * (1 / Real.sqrt (1 + (K / s k) ^ (2 * order.toNat))) := by
    have := h7 f' (by linarith) hf'1
    have e : (if complement then 1 - f' else f') = f := by rw [hf']; cases complement <;> simp
    rw [e] at this
    rw [this, mul_one_div]
    congr 4
    rw [hK]
    field_simp
  refine ⟨g, _, h1, hgk, (bw.unit K (s k) order.toNat).1, ?_, ?_⟩
  · have := (hconv k).1
    unfold bw.gain at this
    linarith
  · have hk := (h5.2 (n - 1) (by omega)).1
    simp only at hk
    rw [abs_of_nonneg (hconv k).1, abs_of_nonneg (hconv _).1] at hk
    change 1 / Real.sqrt 2 - bw.gain K order.toNat count.toNat (s k) ≤ _
    rcases h4 with h4 | h4
    · apply le_max_of_le_right
      have h8 := (hconv (n - 1)).2
      rw [h4, hp1, hon] at h8
      rw [h4] at hk
      refine hk.trans (h8.trans (le_of_eq ?_))
      rw [mul_comm]
      congr 2
      ring
    · apply le_max_of_le_left
      rw [abs_of_nonneg (hconv _).1] at h4
      linarith

/-- Two instances of order 8. -/
example : (1 : ℝ) ≤ 2 ∧ (1 + 1 / (2 : ℝ) ^ (2 * (8 : ℤ).toNat)) ^ (2 : ℤ).toNat ≤ 2 := by
  rw [show (8 : ℤ).toNat = 8 from rfl, show (2 : ℤ).toNat = 2 from rfl]
  norm_num

theorem tan_le_linear (x : ℝ) (h0 : 0 ≤ x) (h1 : x ≤ 1) : Real.tan (Real.pi / 4 * x) ≤ x := by
  have hpi := Real.pi_pos
  have hcos : ∀ y ∈ Set.Icc 0 (Real.pi / 4), 0 < Real.cos y := fun y hy => Real.cos_pos_of_mem_Ioo ⟨by linarith [hy.1], by linarith [hy.2]⟩
  have hc : ConvexOn ℝ (Set.Icc 0 (Real.pi / 4)) Real.tan := by
    apply MonotoneOn.convexOn_of_deriv (convex_Icc _ _)
    · intro y hy
      exact (Real.differentiableAt_tan.mpr (hcos y hy).ne').continuousAt.continuousWithinAt
    · intro y hy
      exact (Real.differentiableAt_tan.mpr (hcos y (interior_subset hy)).ne').differentiableWithinAt
    · intro y hy z hz hyz
      rw [Real.deriv_tan, Real.deriv_tan]
      have c1 := hcos z (interior_subset hz)
      apply one_div_le_one_div_of_le (by positivity)
      apply pow_le_pow_left₀ c1.le
      have := interior_subset hz
      exact Real.cos_le_cos_of_nonneg_of_le_pi (interior_subset hy).1 (by linarith [this.2]) hyz
  have := hc.2 (show (0 : ℝ) ∈ Set.Icc 0 (Real.pi / 4) from ⟨le_rfl, by positivity⟩) (show Real.pi / 4 ∈ Set.Icc 0 (Real.pi / 4) from ⟨by positivity, le_rfl⟩)
    (show 0 ≤ 1 - x by linarith) h0 (by ring)
  simp only [smul_eq_mul, mul_zero, zero_add, Real.tan_zero, Real.tan_pi_div_four, mul_one] at this
  rwa [mul_comm] at this

theorem cutoff_numeric (N n : ℕ) (P p K g B : ℝ) (hP0 : 0 < P) (hP : P ≤ p) (hp : p ≤ g) (hg : g ≤ 0.70711) (hK1 : 1 ≤ K) (hK2 : K ≤ 1.27328) (hn8 : (n : ℝ) ≤ 8)
    (hB : (0.70711 - P) * (1 - 0.03 * n * P / (2 * 1.27328)) ^ N ≤ B) : (g - p) * (1 - 0.03 * n * p / (2 * 1 * K)) ^ N ≤ B := by
  have hp0 : 0 < p := lt_of_lt_of_le hP0 hP
  have hle : (0.03 : ℝ) * n * P / (2 * 1.27328) ≤ 0.03 * n * p / (2 * 1 * K) := by
    apply div_le_div₀ (by positivity)
    · exact mul_le_mul_of_nonneg_left hP (by positivity)
    · positivity
    · linarith
  have hnn : 0 ≤ 1 - 0.03 * n * p / (2 * 1 * K) := by
    have : 0.03 * n * p / (2 * 1 * K) ≤ 1 := by
      rw [div_le_one (by positivity)]
      nlinarith
    linarith
  refine le_trans ?_ hB
  exact mul_le_mul (by linarith) (pow_le_pow_left₀ hnn (by linarith) N) (pow_nonneg hnn _) (by linarith)

/-- C88.  For a design frequency up to one half of Nyquist, order up to 8 and one instance, the response at the design frequency is 2^{-1/2} (-3 dB)
within 0.0024. -/
theorem C88_three_db (residue : List ℝ → List ℝ → List ℂ × List ℂ) (hres : ResidueSpec residue) (f : ℝ) (complement : Bool) (order : ℤ)
    (hf : 0 < (if complement then 1 - f else f)) (hf1 : (if complement then 1 - f else f) ≤ 1 / 2) (ho : 0 < order) (ho' : order ≤ 8) :
    ∃ g, Iir.newDesign residue (some .butterworth) f order 1 complement 1 none = .ok g ∧ |‖freqResp g.a g.b f‖ - 1 / Real.sqrt 2| ≤ 0.0024 := by
  have hpi := Real.pi_pos
  have hpi2 := Real.pi_gt_d4
  have hf2 : 0 < f ∧ f < 1 := by cases complement <;> simp at hf hf1 ⊢ <;> constructor <;> linarith
  set f' := if complement then 1 - f else f with hf'
  set K := 2 / (Real.pi * f') * Real.tan (Real.pi * f' / 2) with hK
  obtain ⟨g, γ, h1, h2, h3, h4, h5⟩ := C88_cutoff residue hres f hf2.1 hf2.2 order 1 ho (by omega) one_pos complement 1 f' _ K _ 1 hf' rfl hK rfl le_rfl (by norm_num)
  refine ⟨g, h1, ?_⟩
  rw [h2, abs_one, one_mul]
  have e1 : (1 : ℤ).toNat = 1 := rfl
  rw [e1, pow_one] at h4 h5
  rw [abs_of_nonpos (by linarith)]
  have hrate : ¬ (order > 8 ∨ (order > 6 ∧ (1 : ℤ) > 1)) := by omega
  rw [if_neg hrate, pow_one] at h5
  generalize hN : 499 = N at h5
  -- the bounds of the prewarping factor
  have hK1 : 1 ≤ K := by
    have := (Real.lt_tan (x := Real.pi * f' / 2) (by positivity) (by nlinarith)).le
    rw [hK, div_mul_eq_mul_div, le_div_iff₀ (by positivity)]
    linarith
  have hK2 : K ≤ 1.27328 := by
    have := tan_le_linear (2 * f') (by linarith) (by linarith)
    rw [show Real.pi / 4 * (2 * f') = Real.pi * f' / 2 by ring] at this
    rw [hK, div_mul_eq_mul_div, div_le_iff₀ (by positivity)]
    nlinarith
  have hsq2 : Real.sqrt 2 ≥ 1.41421 := Real.le_sqrt_of_sq_le (by norm_num)
  have hg0 : 1 / Real.sqrt 2 ≤ 0.70711 := by
    rw [div_le_iff₀ (by positivity)]; linarith
  have key : ∀ (n : ℕ) (P : ℝ), order = n → 0 < P → P ^ 2 * (1 + 1.27328 ^ (2 * n)) ≤ 1 → 
      (0.70711 - P) * (1 - 0.03 * n * P / (2 * 1.27328)) ^ N ≤ 0.0024 → -(γ - 1 / Real.sqrt 2) ≤ 0.0024 := by
    intro n P hn hP hP2 hP5
    have hon : order.toNat = n := by omega
    rw [hon] at h5
    set p := 1 / Real.sqrt (1 + K ^ (2 * n)) with hp
    have hpP : P ≤ p := by
      have hw : 0 < Real.sqrt (1 + K ^ (2 * n)) := Real.sqrt_pos.mpr (by positivity)
      rw [hp, le_div_iff₀ hw]
      have : P ^ 2 * (1 + K ^ (2 * n)) ≤ 1 := by
        refine le_trans (mul_le_mul_of_nonneg_left ?_ (by positivity)) hP2
        have := pow_le_pow_left₀ (by linarith) hK2 (2 * n)
        linarith
      have h6 : (P * Real.sqrt (1 + K ^ (2 * n))) ^ 2 ≤ 1 ^ 2 := by
        rw [mul_pow, Real.sq_sqrt (by positivity), one_pow]; exact this
      exact (pow_le_pow_iff_left₀ (by positivity) (by norm_num) two_ne_zero).mp h6
    have hp1 : p ≤ 1 / Real.sqrt 2 := by
      apply one_div_le_one_div_of_le (by positivity)
      apply Real.sqrt_le_sqrt
      have := one_le_pow₀ hK1 (n := 2 * n)
      linarith
    have hor : (order : ℝ) = n := by rw [hn]; simp
    rw [hor] at h5
    have hn8 : (n : ℝ) ≤ 8 := by
      have : n ≤ 8 := by omega
      exact_mod_cast this
    have hfin : max (10e3 / 2 ^ 52) ((1 / Real.sqrt 2 - p) * (1 - 0.03 * n * p / (2 * 1 * K)) ^ N) ≤ (0.0024 : ℝ) :=
      max_le (by norm_num) (cutoff_numeric N n P p K _ _ hP hpP hp1 hg0 hK1 hK2 hn8 hP5)
    linarith
  have hcases : order = 1 ∨ order = 2 ∨ order = 3 ∨ order = 4 ∨ order = 5 ∨ order = 6 ∨ order = 7 ∨ order = 8 := by omega
  rcases hcases with h | h | h | h | h | h | h | h
  · exact key 1 0.617 h (by norm_num) (by norm_num) (by rw [← hN, show 499 = 249 + 250 from rfl, pow_add]; norm_num)
  · exact key 2 0.524 h (by norm_num) (by norm_num) (by rw [← hN, show 499 = 249 + 250 from rfl, pow_add]; norm_num)
  · exact key 3 0.435 h (by norm_num) (by norm_num) (by rw [← hN, show 499 = 249 + 250 from rfl, pow_add]; norm_num)
  · exact key 4 0.355 h (by norm_num) (by norm_num) (by rw [← hN, show 499 = 249 + 250 from rfl, pow_add]; norm_num)
  · exact key 5 0.286 h (by norm_num) (by norm_num) (by rw [← hN, show 499 = 249 + 250 from rfl, pow_add]; norm_num)
  · exact key 6 0.228 h (by norm_num) (by norm_num) (by rw [← hN, show 499 = 249 + 250 from rfl, pow_add]; norm_num)
  · exact key 7 0.181 h (by norm_num) (by norm_num) (by rw [← hN, show 499 = 249 + 250 from rfl, pow_add]; norm_num)
  · exact key 8 0.143 h (by norm_num) (by norm_num) (by rw [← hN, show 499 = 249 + 250 from rfl, pow_add]; norm_num)

example : (0 : ℝ) < (if true then 1 - 0.75 else 0.75) ∧ (if true then 1 - 0.75 else 0.75) ≤ (1 / 2 : ℝ) := by norm_num

/-- C88.  The scale factors of the search stay below 12, so that the response at a design frequency near Nyquist, or with complement near zero frequency,
is far below 2^{-1/2}, whatever the order and the count. -/
theorem C88_nyquist (residue : List ℝ → List ℝ → List ℂ × List ℂ) (hres : ResidueSpec residue) (f : ℝ) (hf : 0 < f) (hf1 : f < 1)
    (order count : ℤ) (ho : 0 < order) (hcount : 0 < count) (complement : Bool) (gain : ℝ) (δ : ℝ) (hδ : δ = if complement then f else 1 - f) (hδ2 : δ ≤ 1 / 2) :
    ∃ g, Iir.newDesign residue (some .butterworth) f order count complement gain none = .ok g ∧ ‖freqResp g.a g.b f‖ ≤ |gain| * (38 * δ) ^ order.toNat := by
  have hpi := Real.pi_pos
  set f' := if complement then 1 - f else f with hf'
  have hδf : f' = 1 - δ := by rw [hf', hδ]; cases complement <;> simp
  have hδ0 : 0 < δ := by rw [hδ]; cases complement <;> simp <;> linarith
  set K := 2 / (Real.pi * f') * Real.tan (Real.pi * f' / 2) with hK
  set ρ : ℝ := if order > 8 ∨ (order > 6 ∧ count > 1) then 0.015 else 0.03 with hρ
  have hs := scales_exist (fun x => 1 / Real.sqrt 2 - bw.gain K order.toNat count.toNat x) ρ
  set s := search.scales (fun x => 1 / Real.sqrt 2 - bw.gain K order.toNat count.toNat x) ρ with hsd
  obtain ⟨g, n, k, h1, h2, h3, h4, h5, h6, h7⟩ := butterworth_design residue hres f hf hf1 order count ho hcount complement gain f' ρ K hf' hρ hK s hs
  refine ⟨g, h1, ?_⟩
  have hsq2 : Real.sqrt 2 ≥ 1.41421 := Real.le_sqrt_of_sq_le (by norm_num)
  have hg0 : 1 / Real.sqrt 2 ≤ 0.70711 := by
    rw [div_le_iff₀ (by positivity)]; linarith
  have hρ1 : 0 < ρ ∧ ρ ≤ 0.03 := by rw [hρ]; split <;> norm_num
  have hsk : ∀ j, s j ≤ 1 + j * 0.022 := by
    intro j
    induction j with
    | zero => rw [hs.1]; simp
    | succ j ih =>
      rw [hs.2 j]
      apply max_le
      · have hgp := bw.gain_pos K order.toNat count.toNat (s j)
        have : ρ * (1 / Real.sqrt 2 - bw.gain K order.toNat count.toNat (s j)) ≤ 0.022 := by nlinarith
        push_cast
        linarith
      · push_cast
        have : (0 : ℝ) ≤ j := Nat.cast_nonneg j
        norm_num
        linarith
  have hsk12 : s k ≤ 12 := by
    have hk : k ≤ 499 := by have := h5.1; omega
    have : (k : ℝ) ≤ 499 := by exact_mod_cast hk
    have := hsk k
    linarith
  have htan : Real.tan (Real.pi * f' / 2) ≥ 1 / (2 * δ) := by
    rw [hδf, show Real.pi * (1 - δ) / 2 = Real.pi / 2 - Real.pi / 4 * (2 * δ) by ring, Real.tan_pi_div_two_sub, ← one_div]
    apply one_div_le_one_div_of_le
    · apply Real.tan_pos_of_pos_of_lt_pi_div_two (by positivity)
      nlinarith
    · exact tan_le_linear (2 * δ) (by linarith) (by linarith)
  have hf'0 : 0 < f' := by rw [hδf]; linarith
  have hKs : 1 / (38 * δ) ≤ 2 / (Real.pi * (s k * f')) * Real.tan (Real.pi * f' / 2) := by
    have e1 : 2 / (Real.pi * (s k * f')) * (1 / (2 * δ)) ≤ 2 / (Real.pi * (s k * f')) * Real.tan (Real.pi * f' / 2) :=
      mul_le_mul_of_nonneg_left htan (by positivity)
    refine le_trans ?_ e1
    rw [show 2 / (Real.pi * (s k * f')) * (1 / (2 * δ)) = 1 / (Real.pi * s k * f' * δ) by field_simp]
    apply one_div_le_one_div_of_le (by positivity)
    apply mul_le_mul_of_nonneg_right _ hδ0.le
    have hpi3 := Real.pi_lt_d4
    have : f' ≤ 1 := by rw [hδf]; linarith
    calc Real.pi * s k * f' ≤ Real.pi * s k * 1 := mul_le_mul_of_nonneg_left this (by positivity)
      _ ≤ 3.1416 * 12 := by rw [mul_one]; exact mul_le_mul hpi3.le hsk12 h6.le (by norm_num)
      _ ≤ 38 := by norm_num
  have := h7 f' (by linarith) (by rw [hδf]; linarith)
  have e : (if complement then 1 - f' else f') = f := by rw [hf']; cases complement <;> simp
  rw [e] at this
  rw [this, div_eq_mul_one_div]
  apply mul_le_mul_of_nonneg_left _ (abs_nonneg _)
  set w := 2 / (Real.pi * (s k * f')) * Real.tan (Real.pi * f' / 2) with hw
  have hw0 : 0 < w := lt_of_lt_of_le (by positivity) hKs
  have hsqrt : w ^ order.toNat ≤ Real.sqrt (1 + w ^ (2 * order.toNat)) := by
    apply Real.le_sqrt_of_sq_le
    rw [← pow_mul, mul_comm order.toNat 2]
    linarith
  calc 1 / Real.sqrt (1 + w ^ (2 * order.toNat)) ≤ 1 / w ^ order.toNat := one_div_le_one_div_of_le (by positivity) hsqrt
    _ = (1 / w) ^ order.toNat := by rw [one_div_pow]
    _ ≤ (38 * δ) ^ order.toNat := by
      apply pow_le_pow_left₀ (by positivity)
      rw [div_le_iff₀ hw0]
      rw [div_le_iff₀ (by positivity)] at hKs
      linarith

/-- The hypotheses hold: a low pass filter with a cut-off near the Nyquist frequency. -/
example (residue : List ℝ → List ℝ → List ℂ × List ℂ) (hres : ResidueSpec residue) :=
  C88_nyquist residue hres 0.99 (by norm_num) (by norm_num) 4 2 (by norm_num) (by norm_num) false 5 0.01 (by norm_num) (by norm_num)

/-- C88.  A witness: a high pass of order 4 at one hundredth of Nyquist has a response below 0.021 at the design frequency, in place of 2^{-1/2}. -/
theorem C88_witness (residue : List ℝ → List ℝ → List ℂ × List ℂ) (hres : ResidueSpec residue) :
    ∃ g, Iir.newDesign residue (some .butterworth) 0.01 4 1 true 1 none = .ok g ∧ ‖freqResp g.a g.b 0.01‖ < 0.021 := by
  obtain ⟨g, h1, h2⟩ := C88_nyquist residue hres 0.01 (by norm_num) (by norm_num) 4 1 (by norm_num) (by norm_num) true 1 0.01 (by simp) (by norm_num)
  refine ⟨g, h1, lt_of_le_of_lt h2 ?_⟩
  rw [show (4 : ℤ).toNat = 4 from rfl]
  norm_num

end Verif.Props
