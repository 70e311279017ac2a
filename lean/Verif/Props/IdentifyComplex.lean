import Verif.Props.Energy
import Verif.Props.SpectrumFilter
import Mathlib.LinearAlgebra.Lagrange

/-
C174 of filters with complex coefficients: with at least as many samples as unknown products of coefficients the reported response determines the filter.
-/

namespace Verif.Props

open Finset Spec

private noncomputable def toPC (c : List ℂ) : Polynomial ℂ := ∑ i ∈ range c.length, Polynomial.C (at0 c i) * Polynomial.X ^ i

private theorem toPC_eval (c : List ℂ) (u : ℝ) : (toPC c).eval (Complex.exp (-(Complex.I * Real.pi * u))) = dtftC c u := by
  unfold toPC dtftC
  rw [Polynomial.eval_finsetSum]
  refine sum_congr rfl fun i _ => ?_
  rw [Polynomial.eval_mul, Polynomial.eval_C, Polynomial.eval_pow, Polynomial.eval_X, ← Complex.exp_nat_mul]
  congr 2
  ring

private theorem toPC_coeff (c : List ℂ) (i : ℕ) : (toPC c).coeff i = at0 c i := by
  unfold toPC
  rw [Polynomial.finsetSum_coeff]
  simp only [Polynomial.coeff_C_mul_X_pow]
  rw [sum_ite_eq]
  split
  · rfl
  · next h => rw [at0_of_le _ _ (by simpa using h)]

private theorem toPC_degree (c : List ℂ) : (toPC c).natDegree ≤ c.length - 1 := by
  unfold toPC
  refine Polynomial.natDegree_sum_le_of_forall_le _ _ fun i hi => (Polynomial.natDegree_C_mul_X_pow_le _ _).trans ?_
  have := mem_range.mp hi
  omega

private theorem toPC_series (c : List ℂ) : ((toPC c : Polynomial ℂ) : PowerSeries ℂ) = ser c := by
  ext i
  rw [Polynomial.coeff_coe, toPC_coeff, coeff_ser]

private theorem axis_inj (N : ℕ) (hN : 0 < N) (e : ℝ) : Set.InjOn (fun k : ℕ => Complex.exp (-(Complex.I * Real.pi * ((axis N k - e : ℝ) : ℂ)))) (range N : Finset ℕ) := by
  intro i hi j hj h
  have hi : i < N := by simpa using hi
  have hj : j < N := by simpa using hj
  simp only at h
  rw [Complex.exp_eq_exp_iff_exists_int] at h
  obtain ⟨n, hn⟩ := h
  have hNc : (N : ℂ) ≠ 0 := by exact_mod_cast hN.ne'
  have hpi : (Real.pi : ℂ) ≠ 0 := by exact_mod_cast Real.pi_ne_zero
  have h1 : (j : ℂ) - i = n * N := by
    have e : Complex.I * Real.pi * (((axis N j - e : ℝ) : ℂ) - ((axis N i - e : ℝ) : ℂ)) = Complex.I * Real.pi * (2 * n) := by linear_combination hn
    rw [mul_right_inj' (mul_ne_zero Complex.I_ne_zero hpi)] at e
    unfold axis at e
    push_cast at e
    field_simp at e
    linear_combination e / 2
  have h2 : (j : ℤ) - i = n * N := by exact_mod_cast h1
  have h3 : n = 0 := by
    by_contra hne
    rcases lt_or_gt_of_ne hne with h | h
    · have : n * (N : ℤ) ≤ -1 * N := mul_le_mul_of_nonneg_right (by omega) (by omega)
      omega
    · have : 1 * (N : ℤ) ≤ n * N := mul_le_mul_of_nonneg_right (by omega) (by omega)
      omega
  rw [h3] at h2
  omega

private theorem crossC (b a d c : List ℂ) (N : ℕ) (hN : 0 < N) (e : ℝ) (he : Even (N : ℤ) ∧ e = 0 ∨ Odd (N : ℤ) ∧ e = 1 / (N : ℤ))
    (h : np.responseC b a N 1 = np.responseC d c N 1) (k : ℕ) (hk : k < N) :
    dtftC b (axis N k - e) * dtftC c (axis N k - e) = dtftC d (axis N k - e) * dtftC a (axis N k - e) := by
  classical
  obtain ⟨y, f, h1, -, -, h4⟩ := response_generalC b a N 1 (by omega) one_pos e he
  obtain ⟨z, e', k1, -, -, k4⟩ := response_generalC d c N 1 (by omega) one_pos e he
  rw [h1, k1] at h
  have hy : y = z := by injection h with h; exact (Prod.mk.inj h).1
  have := (h4 k (by simpa using hk)).2
  rw [hy, (k4 k (by simpa using hk)).2, Option.some.injEq] at this
  simp only [Int.toNat_one, pow_one] at this
  by_cases hc : dtftC c (axis N k - e) = 0
  · by_cases ha : dtftC a (axis N k - e) = 0
    · rw [ha, hc]; ring
    · rw [if_pos hc, if_neg ha] at this; simp at this
  · by_cases ha : dtftC a (axis N k - e) = 0
    · rw [if_neg hc, if_pos ha] at this; simp at this
    · rw [if_neg hc, if_neg ha, Option.some.injEq, div_eq_div_iff hc ha] at this
      exact this.symm

private theorem cross_polyC (b a d c : List ℂ) (hb : b ≠ []) (ha : a ≠ []) (hd : d ≠ []) (hc : c ≠ []) (N : ℕ) (hbc : b.length + c.length ≤ N + 1)
    (hda : d.length + a.length ≤ N + 1) (h : np.responseC b a N 1 = np.responseC d c N 1) : toPC b * toPC c = toPC d * toPC a := by
  have hbl := List.length_pos_of_ne_nil hb
  have hal := List.length_pos_of_ne_nil ha
  have hcl := List.length_pos_of_ne_nil hc
  have hdl := List.length_pos_of_ne_nil hd
  obtain ⟨e, he⟩ := period_parity N
  have hdeg : ∀ p q : List ℂ, p ≠ [] → q ≠ [] → p.length + q.length ≤ N + 1 → (toPC p * toPC q).degree < ((range N).card : ℕ) := by
    intro p q hp hq hpq
    have := List.length_pos_of_ne_nil hp
    have := List.length_pos_of_ne_nil hq
    rw [card_range]
    refine lt_of_le_of_lt (Polynomial.degree_le_natDegree) ?_
    have h1 := toPC_degree p
    have h2 := toPC_degree q
    have h3 : (toPC p * toPC q).natDegree ≤ _ := Polynomial.natDegree_mul_le
    exact_mod_cast (show (toPC p * toPC q).natDegree < N by omega)
  refine Polynomial.eq_of_degrees_lt_of_eval_index_eq (range N) (axis_inj N (by omega) e) (hdeg b c hb hc hbc) (hdeg d a hd ha hda) fun k hk => ?_
  rw [Polynomial.eval_mul, Polynomial.eval_mul, toPC_eval, toPC_eval, toPC_eval, toPC_eval]
  exact crossC b a d c N (by omega) e he h k (by simpa using hk)

/-- C174.  Two FirFilters with complex coefficients which report the same response, of a length not less than their own, have the same coefficients, but for zeros
at the end. -/
theorem C174_fir_complex (g h : Fir ℂ) (length : ℤ) (hg : g.b ≠ []) (hh : h.b ≠ []) (h1 : (g.b.length : ℤ) ≤ length) (h2 : (h.b.length : ℤ) ≤ length)
    (hr : g.responseC length 1 = h.responseC length 1) (i : ℕ) : at0 g.b i = at0 h.b i := by
  have hgl := List.length_pos_of_ne_nil hg
  have hhl := List.length_pos_of_ne_nil hh
  have hone : toPC [1, 0] = 1 := by simp [toPC, sum_range_succ, at0]
  have he : toPC g.b = toPC h.b := by
    obtain ⟨M, rfl⟩ : ∃ M : ℕ, length = M := ⟨length.toNat, by omega⟩
    obtain ⟨e, he⟩ := period_parity M
    have hdeg : ∀ p : List ℂ, p ≠ [] → p.length ≤ M → (toPC p).degree < ((range M).card : ℕ) := by
      intro p hp hpM
      have := List.length_pos_of_ne_nil hp
      rw [card_range]
      refine lt_of_le_of_lt (Polynomial.degree_le_natDegree) ?_
      have h1 := toPC_degree p
      exact_mod_cast (show (toPC p).natDegree < M by omega)
    refine Polynomial.eq_of_degrees_lt_of_eval_index_eq (range M) (axis_inj M (by omega) e) (hdeg _ hg (by omega)) (hdeg _ hh (by omega)) fun k hk => ?_
    have := crossC g.b [1, 0] h.b [1, 0] M (by omega) e he hr k (by simpa using hk)
    rw [← toPC_eval [1, 0], hone] at this
    rw [toPC_eval, toPC_eval]
    simpa using this
  have := congrArg (fun p : Polynomial ℂ => p.coeff i) he
  simpa only [toPC_coeff] using this

/-- Filters of two and three coefficients, the last of which is zero, and a response of four samples. -/
example : (⟨id, [1, Complex.I], [0, 0]⟩ : Fir ℂ).responseC 4 1 = (⟨id, [1, Complex.I, 0], [0, 0, 0]⟩ : Fir ℂ).responseC 4 1 := by
  unfold Fir.responseC np.responseC np.freqzC
  simp [np.polyval]

/-- C174.  Two IirFilters with complex coefficients and without a past which report the same response, of a length not less than the sum of their lengths less
one, give the same output for every signal. -/
theorem C174_iir_complex (g h : Iir ℂ) (hc : g.cast = id) (hwf : g.WF) (hz : ∀ v ∈ g.s, v = 0) (h0 : at0 g.a 0 = 0)
    (kc : h.cast = id) (kwf : h.WF) (kz : ∀ v ∈ h.s, v = 0) (k0 : at0 h.a 0 = 0) (length : ℤ) (hl : (g.b.length + h.b.length : ℤ) ≤ length + 1)
    (hr : g.responseC length 1 = h.responseC length 1) (x : List ℂ) (hx : x ≠ []) :
    ∃ y g' h', g.filter x = (.ok y, g') ∧ h.filter x = (.ok y, h') := by
  obtain ⟨y, g', h1, h2, h3⟩ := filter_conv g hwf hc h0 hz x hx
  obtain ⟨z, h', k1, k2, k3⟩ := filter_conv h kwf kc k0 kz x hx
  have hga := wf_ne hwf
  have hha := wf_ne kwf
  have hser : ser g.b * recip g.a = ser h.b * recip h.a := by
    have hgl := List.length_pos_of_ne_nil hga
    have hhl := List.length_pos_of_ne_nil hha
    have hw := hwf.1
    have kw := kwf.1
    have hw2 := hwf.2.2
    obtain ⟨M, rfl⟩ : ∃ M : ℕ, length = M := ⟨length.toNat, by omega⟩
    have hs := congrArg (fun p : Polynomial ℂ => (p : PowerSeries ℂ)) (cross_polyC g.b (1 :: g.a.tail.map (- ·)) h.b (1 :: h.a.tail.map (- ·)) (List.ne_nil_of_length_pos hwf.2.2) (by simp)
      (List.ne_nil_of_length_pos kwf.2.2) (by simp) M (by simp; omega) (by simp; omega) hr)
    simp only [Polynomial.coe_mul, toPC_series, ser_denominator _ h0 hga, ser_denominator _ k0 hha] at hs
    have r1 : (1 - ser g.a) * recip g.a = 1 := mul_recip g.a h0
    have r2 : (1 - ser h.a) * recip h.a = 1 := mul_recip h.a k0
    calc ser g.b * recip g.a = ser g.b * (1 - ser h.a) * recip h.a * recip g.a := by rw [mul_assoc (ser g.b), r2, mul_one]
      _ = ser h.b * recip h.a * ((1 - ser g.a) * recip g.a) := by rw [hs]; ring
      _ = ser h.b * recip h.a := by rw [r1, mul_one]
  refine ⟨y, g', h', h1, ?_⟩
  rw [k1]
  congr 2
  apply List.ext_getElem?
  intro k
  by_cases hk : k < x.length
  · have e := h3 k hk
    rw [hser, ← k3 k hk, at0_of_lt _ _ (by omega), at0_of_lt _ _ (by omega)] at e
    rw [List.getElem?_eq_getElem (by omega), List.getElem?_eq_getElem (by omega), e]
  · rw [List.getElem?_eq_none (by omega), List.getElem?_eq_none (by omega)]

/-- Different coefficients with a common factor: `1 / (1 - j/2 z⁻¹)` twice, once with numerator and denominator multiplied by `1 - z⁻¹/2`. -/
example : (⟨id, [0, Complex.I / 2, 0], [1, 0, 0], [0, 0, 0]⟩ : Iir ℂ).WF ∧
    (⟨id, [0, 1 / 2 + Complex.I / 2, -(Complex.I / 4)], [1, -(1 / 2), 0], [0, 0, 0]⟩ : Iir ℂ).WF ∧
    (⟨id, [0, Complex.I / 2, 0], [1, 0, 0], [0, 0, 0]⟩ : Iir ℂ).responseC 5 1 =
      (⟨id, [0, 1 / 2 + Complex.I / 2, -(Complex.I / 4)], [1, -(1 / 2), 0], [0, 0, 0]⟩ : Iir ℂ).responseC 5 1 := by
  classical
  refine ⟨⟨rfl, rfl, by simp⟩, ⟨rfl, rfl, by simp⟩, ?_⟩
  obtain ⟨y, f, h1, h2, h3, h4⟩ := response_generalC [1, 0, 0] [1, -(Complex.I / 2), -0] 5 1 (by norm_num) one_pos _ (.inr ⟨by decide, rfl⟩)
  obtain ⟨z, e, k1, k2, k3, k4⟩ := response_generalC [1, -(1 / 2), 0] [1, -(1 / 2 + Complex.I / 2), - -(Complex.I / 4)] 5 1 (by norm_num) one_pos _ (.inr ⟨by decide, rfl⟩)
  have hf : f = e := by
    apply List.ext_getElem? fun k => ?_
    by_cases hk : k < (5 : ℤ).toNat
    · rw [(h4 k hk).1, (k4 k hk).1]
    · rw [List.getElem?_eq_none (by omega), List.getElem?_eq_none (by omega)]
  have hy : y = z := by
    apply List.ext_getElem? fun k => ?_
    by_cases hk : k < (5 : ℤ).toNat
    · rw [(h4 k hk).2, (k4 k hk).2]
      generalize axis 5 k - 1 / ((5 : ℤ) : ℝ) = u
      have hw : ‖Complex.exp (-(Complex.I * Real.pi * u))‖ = 1 := by
        rw [show -(Complex.I * Real.pi * u) = ((-(Real.pi * u) : ℝ) : ℂ) * Complex.I by push_cast; ring, Complex.norm_exp_ofReal_mul_I]
      simp only [← toPC_eval]
      generalize Complex.exp (-(Complex.I * Real.pi * u)) = w at hw
      have e1 : (toPC [1, 0, 0]).eval w = 1 := by simp [toPC, sum_range_succ, at0]
      have e2 : (toPC [1, -(Complex.I / 2), -0]).eval w = 1 - Complex.I / 2 * w := by simp [toPC, sum_range_succ, at0]; ring
      have e3 : (toPC [1, -(1 / 2), 0]).eval w = 1 - 1 / 2 * w := by simp [toPC, sum_range_succ, at0]; ring
      have e4 : (toPC [1, -(1 / 2 + Complex.I / 2), - -(Complex.I / 4)]).eval w = (1 - 1 / 2 * w) * (1 - Complex.I / 2 * w) := by
        simp [toPC, sum_range_succ, at0]; ring
      have hne : 1 - 1 / 2 * w ≠ 0 := fun h => by
        have := congrArg norm (show w = 2 by linear_combination -2 * h)
        rw [hw] at this
        norm_num at this
      rw [e1, e2, e3, e4]
      by_cases hd : 1 - Complex.I / 2 * w = 0
      · rw [if_pos hd, if_pos (by rw [hd, mul_zero])]
      · rw [if_neg hd, if_neg (mul_ne_zero hne hd), div_mul_cancel_left₀ hne, one_div]
    · rw [List.getElem?_eq_none (by omega), List.getElem?_eq_none (by omega)]
  have h1' : Iir.responseC ⟨id, [0, Complex.I / 2, 0], [1, 0, 0], [0, 0, 0]⟩ 5 1 = .ok (y, f) := h1
  have k1' : Iir.responseC ⟨id, [0, 1 / 2 + Complex.I / 2, -(Complex.I / 4)], [1, -(1 / 2), 0], [0, 0, 0]⟩ 5 1 = .ok (z, e) := k1
  rw [h1', k1', hf, hy]

/-- C174.  Conversely, stable IirFilters with complex coefficients which give the same answer to an impulse of any length report the same response. -/
theorem C174_iir_complex_converse (g h : Iir ℂ) (hc : g.cast = id) (hwf : g.WF) (hz : ∀ v ∈ g.s, v = 0) (h0 : at0 g.a 0 = 0) (hst : StableC g.a)
    (kc : h.cast = id) (kwf : h.WF) (kz : ∀ v ∈ h.s, v = 0) (k0 : at0 h.a 0 = 0) (kst : StableC h.a)
    (hx : ∀ n : ℕ, (g.filter (1 :: List.replicate n 0)).1 = (h.filter (1 :: List.replicate n 0)).1) (length count : ℤ) :
    g.responseC length count = h.responseC length count := by
  classical
  have hga := wf_ne hwf
  have hha := wf_ne kwf
  have hser : ser g.b * recip g.a = ser h.b * recip h.a := by
    ext n
    obtain ⟨y, g', h1, h2, h3⟩ := filter_conv g hwf hc h0 hz (1 :: List.replicate n 0) (by simp)
    obtain ⟨z, h', k1, k2, k3⟩ := filter_conv h kwf kc k0 kz (1 :: List.replicate n 0) (by simp)
    have hyz := hx n
    rw [h1, k1] at hyz
    have hyz : y = z := by injection hyz
    have imp : ∀ φ : PowerSeries ℂ, ∑ i ∈ range (n + 1), PowerSeries.coeff i φ * at0 (1 :: List.replicate n (0 : ℂ)) (n - i) = PowerSeries.coeff n φ := by
      intro φ
      rw [sum_range_succ, sum_eq_zero, zero_add, Nat.sub_self]
      · simp [at0]
      · intro i hi
        have := mem_range.mp hi
        obtain ⟨m, hm⟩ : ∃ m, n - i = m + 1 := ⟨n - i - 1, by omega⟩
        rw [hm]
        by_cases hmn : m < n <;> simp [at0, hmn]
    have e1 := h3 n (by simp)
    have e2 := k3 n (by simp)
    rw [imp] at e1 e2
    rw [← e1, ← e2, hyz]
  have hresp : ∀ u, freqRespC g.a g.b u = freqRespC h.a h.b u := by
    intro u
    have t1 := (impulse_sumC g.a g.b h0 hga hst u).2
    have t2 := (impulse_sumC h.a h.b k0 hha kst u).2
    rw [hser] at t1
    exact tendsto_nhds_unique t1 t2
  by_cases hbad : length ≤ 0 ∨ count ≤ 0
  · rw [(C133_response_rejects ⟨id, [], []⟩ g length count hbad).2.1, (C133_response_rejects ⟨id, [], []⟩ h length count hbad).2.1]
  push Not at hbad
  obtain ⟨M, rfl⟩ : ∃ M : ℕ, length = M := ⟨length.toNat, by omega⟩
  obtain ⟨p, hp⟩ := period_parity M
  obtain ⟨y, f, h1, h2, h3, h4⟩ := C133_iir_response g hga h0 M count hbad.1 hbad.2 p hp
  obtain ⟨z, e, k1, k2, k3, k4⟩ := C133_iir_response h hha k0 M count hbad.1 hbad.2 p hp
  rw [h1, k1]
  congr 2
  · apply List.ext_getElem?
    intro k
    by_cases hk : k < (M : ℤ).toNat
    · rw [(h4 k hk).2.1 (impulse_sumC g.a g.b h0 hga hst _).1, (k4 k hk).2.1 (impulse_sumC h.a h.b k0 hha kst _).1, hresp]
    · rw [List.getElem?_eq_none (by rw [h2]; omega), List.getElem?_eq_none (by rw [k2]; omega)]
  · apply List.ext_getElem?
    intro k
    by_cases hk : k < (M : ℤ).toNat
    · rw [(h4 k hk).1, (k4 k hk).1]
    · rw [List.getElem?_eq_none (by rw [h3]; omega), List.getElem?_eq_none (by rw [k3]; omega)]

/-- A pole at `j/2`, and the same filter with zeros added to both lists. -/
example (length count : ℤ) :=
  C174_iir_complex_converse ⟨id, [0, Complex.I / 2], [1, 0], [0, 0]⟩ ⟨id, [0, Complex.I / 2, 0], [1, 0, 0], [0, 0, 0]⟩ rfl ⟨rfl, rfl, by simp⟩ (by simp) rfl (by
    intro z hz
    have h : z = Complex.I / 2 := by
      simp [poleValue, at0] at hz
      linear_combination hz
    rw [h]
    norm_num) rfl ⟨rfl, rfl, by simp⟩ (by simp) rfl (by
    intro z hz
    have h : z * (z - Complex.I / 2) = 0 := by
      simp [poleValue, at0, sum_Icc_succ_top] at hz
      linear_combination hz
    rcases mul_eq_zero.mp h with h | h
    · rw [h]; simp
    · rw [sub_eq_zero.mp h]; norm_num) (fun n => by
    obtain ⟨y, g', h', h1, h2⟩ := C174_iir_complex ⟨id, [0, Complex.I / 2], [1, 0], [0, 0]⟩ ⟨id, [0, Complex.I / 2, 0], [1, 0, 0], [0, 0, 0]⟩ rfl ⟨rfl, rfl, by simp⟩ (by simp) rfl
      rfl ⟨rfl, rfl, by simp⟩ (by simp) rfl 4 (by simp) (by unfold Iir.responseC np.responseC np.freqzC; simp [np.polyval]) (1 :: List.replicate n 0) (by simp)
    rw [h1, h2]) length count

end Verif.Props
