import Verif.Props.Energy
import Mathlib.LinearAlgebra.Lagrange

/-
C174.  What the reported response tells about a filter: with at least as many samples as unknown products of coefficients it determines the filter.
-/

namespace Verif.Props

open Finset Spec

private noncomputable def toP (c : List ℝ) : Polynomial ℂ := ∑ i ∈ range c.length, Polynomial.C ((at0 c i : ℝ) : ℂ) * Polynomial.X ^ i

private theorem toP_eval (c : List ℝ) (u : ℝ) : (toP c).eval (Complex.exp (-(Complex.I * Real.pi * u))) = dtft c u := by
  unfold toP dtft
  rw [Polynomial.eval_finsetSum]
  refine sum_congr rfl fun i _ => ?_
  rw [Polynomial.eval_mul, Polynomial.eval_C, Polynomial.eval_pow, Polynomial.eval_X, circle_pow]

private theorem toP_coeff (c : List ℝ) (i : ℕ) : (toP c).coeff i = ((at0 c i : ℝ) : ℂ) := by
  unfold toP
  rw [Polynomial.finsetSum_coeff]
  simp only [Polynomial.coeff_C_mul_X_pow]
  rw [sum_ite_eq]
  split
  · rfl
  · next h => rw [at0_of_le _ _ (by simpa using h)]; simp

private theorem toP_degree (c : List ℝ) : (toP c).natDegree ≤ c.length - 1 := by
  unfold toP
  refine Polynomial.natDegree_sum_le_of_forall_le _ _ fun i hi => (Polynomial.natDegree_C_mul_X_pow_le _ _).trans ?_
  have := mem_range.mp hi
  omega

private theorem toP_series (c : List ℝ) : ((toP c : Polynomial ℂ) : PowerSeries ℂ) = (ser c).map Complex.ofRealHom := by
  ext i
  rw [Polynomial.coeff_coe, toP_coeff, PowerSeries.coeff_map, coeff_ser]
  rfl

/-- The frequency of sample `k` of a response. -/
private noncomputable def freq (N : ℤ) (k : ℕ) : ℝ := 2 * (((N / 2 : ℤ) : ℝ) + (k : ℝ)) / (N : ℝ) - 2

private theorem freq_inj (N : ℕ) (hN : 0 < N) : Set.InjOn (fun k : ℕ => Complex.exp (-(Complex.I * Real.pi * freq N k))) (range N : Finset ℕ) := by
  intro i hi j hj h
  have hi : i < N := by simpa using hi
  have hj : j < N := by simpa using hj
  simp only at h
  rw [Complex.exp_eq_exp_iff_exists_int] at h
  obtain ⟨n, hn⟩ := h
  have hN0 : (0 : ℝ) < N := by exact_mod_cast hN
  have hNc : (N : ℂ) ≠ 0 := by exact_mod_cast hN.ne'
  have hpi : (Real.pi : ℂ) ≠ 0 := by exact_mod_cast Real.pi_ne_zero
  have h1 : (j : ℂ) - i = n * N := by
    have e : Complex.I * Real.pi * ((freq N j : ℝ) - (freq N i : ℝ)) = Complex.I * Real.pi * (2 * n) := by linear_combination hn
    rw [mul_right_inj' (mul_ne_zero Complex.I_ne_zero hpi)] at e
    unfold freq at e
    push_cast at e
    field_simp at e
    linear_combination e
  have h2 : (j : ℤ) - i = n * N := by exact_mod_cast h1
  have h3 : n = 0 := by
    by_contra hne
    rcases lt_or_gt_of_ne hne with h | h
    · have : n * (N : ℤ) ≤ -1 * N := mul_le_mul_of_nonneg_right (by omega) (by omega)
      omega
    · have : 1 * (N : ℤ) ≤ n * N := mul_le_mul_of_nonneg_right (by omega) (by omega)
      omega
  rw [h3] at h2
  omega

/-- Equal responses: the cross products of the polynomials agree on the points of the circle. -/
private theorem cross (b a d c : List ℝ) (N : ℤ) (hN : 0 < N) (h : np.response b a N 1 = np.response d c N 1) (k : ℕ) (hk : k < N.toNat) :
    dtft b (freq N k) * dtft c (freq N k) = dtft d (freq N k) * dtft a (freq N k) := by
  classical
  obtain ⟨y, f, h1, -, -, h4⟩ := response_general b a N 1 hN one_pos
  obtain ⟨z, e, k1, -, -, k4⟩ := response_general d c N 1 hN one_pos
  rw [h1, k1] at h
  have hy : y = z := by injection h with h; exact (Prod.mk.inj h).1
  have := (h4 k hk).2
  rw [hy, (k4 k hk).2, Option.some.injEq] at this
  simp only at this
  change (if dtft c (freq N k) = 0 then none else some ((dtft d (freq N k) / dtft c (freq N k)) ^ (1 : ℤ).toNat)) =
    (if dtft a (freq N k) = 0 then none else some ((dtft b (freq N k) / dtft a (freq N k)) ^ (1 : ℤ).toNat)) at this
  by_cases hc : dtft c (freq N k) = 0
  · by_cases ha : dtft a (freq N k) = 0
    · rw [ha, hc]; ring
    · rw [if_pos hc, if_neg ha] at this; simp at this
  · by_cases ha : dtft a (freq N k) = 0
    · rw [if_neg hc, if_pos ha] at this; simp at this
    · rw [if_neg hc, if_neg ha, Option.some.injEq, show (1 : ℤ).toNat = 1 from rfl, pow_one, pow_one, div_eq_div_iff hc ha] at this
      exact this.symm

private theorem cross_poly (b a d c : List ℝ) (hb : b ≠ []) (ha : a ≠ []) (hd : d ≠ []) (hc : c ≠ []) (N : ℤ) (hbc : (b.length + c.length : ℤ) ≤ N + 1)
    (hda : (d.length + a.length : ℤ) ≤ N + 1) (h : np.response b a N 1 = np.response d c N 1) : toP b * toP c = toP d * toP a := by
  have hbl := List.length_pos_of_ne_nil hb
  have hal := List.length_pos_of_ne_nil ha
  have hcl := List.length_pos_of_ne_nil hc
  have hdl := List.length_pos_of_ne_nil hd
  obtain ⟨M, rfl⟩ : ∃ M : ℕ, N = M := ⟨N.toNat, by omega⟩
  have hdeg : ∀ p q : List ℝ, p ≠ [] → q ≠ [] → p.length + q.length ≤ M + 1 → (toP p * toP q).degree < ((range M).card : ℕ) := by
    intro p q hp hq hpq
    have := List.length_pos_of_ne_nil hp
    have := List.length_pos_of_ne_nil hq
    rw [card_range]
    refine lt_of_le_of_lt (Polynomial.degree_le_natDegree) ?_
    have h1 := toP_degree p
    have h2 := toP_degree q
    have h3 : (toP p * toP q).natDegree ≤ _ := Polynomial.natDegree_mul_le
    exact_mod_cast (show (toP p * toP q).natDegree < M by omega)
  refine Polynomial.eq_of_degrees_lt_of_eval_index_eq (range M) (freq_inj M (by omega)) (hdeg b c hb hc (by omega)) (hdeg d a hd ha (by omega)) fun k hk => ?_
  rw [Polynomial.eval_mul, Polynomial.eval_mul, toP_eval, toP_eval, toP_eval, toP_eval]
  exact cross b a d c M (by omega) h k (by simpa using hk)

/-! ### FirFilter -/

/-- C174.  Two FirFilters which report the same response, of a length not less than their own, have the same coefficients, but for zeros at the end. -/
theorem C174_fir (g h : Fir ℝ) (length : ℤ) (hg : g.b ≠ []) (hh : h.b ≠ []) (h1 : (g.b.length : ℤ) ≤ length) (h2 : (h.b.length : ℤ) ≤ length)
    (hr : g.response length 1 = h.response length 1) (i : ℕ) : at0 g.b i = at0 h.b i := by
  have hgl := List.length_pos_of_ne_nil hg
  have hhl := List.length_pos_of_ne_nil hh
  have hone : toP [1, 0] = 1 := by simp [toP, sum_range_succ, at0]
  have he : toP g.b = toP h.b := by
    obtain ⟨M, rfl⟩ : ∃ M : ℕ, length = M := ⟨length.toNat, by omega⟩
    have hdeg : ∀ p : List ℝ, p ≠ [] → p.length ≤ M → (toP p).degree < ((range M).card : ℕ) := by
      intro p hp hpM
      have := List.length_pos_of_ne_nil hp
      rw [card_range]
      refine lt_of_le_of_lt (Polynomial.degree_le_natDegree) ?_
      have h1 := toP_degree p
      exact_mod_cast (show (toP p).natDegree < M by omega)
    refine Polynomial.eq_of_degrees_lt_of_eval_index_eq (range M) (freq_inj M (by omega)) (hdeg _ hg (by omega)) (hdeg _ hh (by omega)) fun k hk => ?_
    have := cross g.b [1, 0] h.b [1, 0] M (by omega) hr k (by simpa using hk)
    rw [← toP_eval [1, 0], hone] at this
    simpa [toP_eval] using this
  have := congrArg (fun p : Polynomial ℂ => p.coeff i) he
  simp only [toP_coeff] at this
  exact_mod_cast this

/-- The hypotheses hold: filters of two and three coefficients, the last of which is zero, and a response of four samples. -/
example : (⟨id, [1, 2], [0, 0]⟩ : Fir ℝ).response 4 1 = (⟨id, [1, 2, 0], [0, 0, 0]⟩ : Fir ℝ).response 4 1 := by
  unfold Fir.response np.response np.freqz
  simp [np.polyval, np.complexOf]

/-- C174.  Fewer samples will not do: a filter which delays by `length` reports the same response of that length as one which does nothing. -/
theorem C174_fir_alias (length : ℤ) (hl : 0 < length) :
    ∃ g h : Fir ℝ, Fir.new id [1] none = .ok g ∧ Fir.new id (List.replicate length.toNat 0 ++ [1]) none = .ok h ∧ h.b.length = length.toNat + 1 ∧
      g.response length 1 = h.response length 1 ∧ at0 g.b 0 ≠ at0 h.b 0 := by
  classical
  obtain ⟨M, rfl⟩ : ∃ M : ℕ, length = M := ⟨length.toNat, by omega⟩
  have hM : 0 < M := by omega
  have hMc : (M : ℂ) ≠ 0 := by exact_mod_cast hM.ne'
  simp only [Int.toNat_natCast]
  refine ⟨⟨id, [1], [0]⟩, ⟨id, List.replicate M 0 ++ [1], List.replicate (M + 1) 0⟩, ?_, ?_, by simp, ?_, ?_⟩
  · rfl
  · simp [Fir.new, padTo]
  · unfold Fir.response
    obtain ⟨y, f, h1, h2, h3, h4⟩ := response_general [1] [1, 0] M 1 hl one_pos
    obtain ⟨z, e, k1, k2, k3, k4⟩ := response_general (List.replicate M 0 ++ [1]) [1, 0] M 1 hl one_pos
    rw [h1, k1]
    have hd : ∀ k : ℕ, dtft (List.replicate M 0 ++ [1]) (freq M k) = dtft [1] (freq M k) := by
      intro k
      have e1 : dtft (List.replicate M 0 ++ [1]) (freq M k) = Complex.exp (-(Complex.I * Real.pi * freq M k * M)) := by
        unfold dtft
        rw [List.length_append, List.length_replicate, List.length_singleton, sum_range_succ, sum_eq_zero, zero_add]
        · simp [at0]
        · intro i hi
          have := mem_range.mp hi
          simp [at0, List.getElem?_append, this]
      have e2 : Complex.exp (-(Complex.I * Real.pi * freq M k * M)) = 1 := by
        rw [Complex.exp_eq_one_iff]
        refine ⟨-(((M : ℤ) / 2 : ℤ) + k - M), ?_⟩
        unfold freq
        push_cast
        field_simp
      rw [e1, e2]
      simp [dtft, at0]
    congr 2
    · apply List.ext_getElem?
      intro k
      by_cases hk : k < M
      · rw [(h4 k hk).2, (k4 k hk).2]
        have := hd k
        unfold freq at this
        simp only [this]
      · rw [List.getElem?_eq_none (by rw [h2]; simp; omega), List.getElem?_eq_none (by rw [k2]; simp; omega)]
    · apply List.ext_getElem?
      intro k
      by_cases hk : k < M
      · rw [(h4 k hk).1, (k4 k hk).1]
      · rw [List.getElem?_eq_none (by rw [h3]; simp; omega), List.getElem?_eq_none (by rw [k3]; simp; omega)]
  · rw [at0_of_lt _ _ (by simp), at0_of_lt _ _ (by simp), List.getElem_append_left (by simpa using hM)]; simp

example := C174_fir_alias 8 (by norm_num)

/-! ### IirFilter -/

/-- C174.  Two IirFilters without a past which report the same response, of a length not less than that of a cross product, give the same answer to every signal,
although their coefficients may differ.  The poles need not be inside the circle. -/
theorem C174_iir (g h : Iir ℝ) (hc : g.cast = id) (hwf : g.WF) (hz : ∀ v ∈ g.s, v = 0) (h0 : at0 g.a 0 = 0)
    (kc : h.cast = id) (kwf : h.WF) (kz : ∀ v ∈ h.s, v = 0) (k0 : at0 h.a 0 = 0) (length : ℤ) (hl : (g.b.length + h.b.length : ℤ) ≤ length + 1)
    (hr : g.response length 1 = h.response length 1) (x : List ℝ) (hx : x ≠ []) :
    ∃ y g' h', g.filter x = (.ok y, g') ∧ h.filter x = (.ok y, h') := by
  obtain ⟨y, g', h1, h2, h3⟩ := filter_conv g hwf hc h0 hz x hx
  obtain ⟨z, h', k1, k2, k3⟩ := filter_conv h kwf kc k0 kz x hx
  have hga := wf_ne hwf
  have hha := wf_ne kwf
  have hser : ser g.b * recip g.a = ser h.b * recip h.a := by
    have hgl := List.length_pos_of_ne_nil hga
    have hhl := List.length_pos_of_ne_nil hha
    have hp := cross_poly g.b (1 :: g.a.tail.map (- ·)) h.b (1 :: h.a.tail.map (- ·)) (List.ne_nil_of_length_pos hwf.2.2) (by simp)
      (List.ne_nil_of_length_pos kwf.2.2) (by simp) length (by have := kwf.1; simp; omega) (by have := hwf.1; simp; omega) hr
    have hs := congrArg (fun p : Polynomial ℂ => (p : PowerSeries ℂ)) hp
    simp only [Polynomial.coe_mul, toP_series, ser_denominator _ h0 hga, ser_denominator _ k0 hha, ← map_mul] at hs
    have hs' : ser g.b * (1 - ser h.a) = ser h.b * (1 - ser g.a) := PowerSeries.map_injective _ Complex.ofReal_injective hs
    have r1 : (1 - ser g.a) * recip g.a = 1 := mul_recip g.a h0
    have r2 : (1 - ser h.a) * recip h.a = 1 := mul_recip h.a k0
    calc ser g.b * recip g.a = ser g.b * (1 - ser h.a) * recip h.a * recip g.a := by rw [mul_assoc (ser g.b), r2, mul_one]
      _ = ser h.b * recip h.a * ((1 - ser g.a) * recip g.a) := by rw [hs']; ring
      _ = ser h.b * recip h.a := by rw [r1, mul_one]
  refine ⟨y, g', h', h1, ?_⟩
  rw [k1]
  congr 2
  apply List.ext_getElem?
  intro k
  by_cases hk : k < x.length
  · have e := h3 k hk
    rw [hser, ← k3 k hk, at0_of_lt _ _ (by omega), at0_of_lt _ _ (by omega)] at e
    rw [List.getElem?_eq_getElem (by omega), List.getElem?_eq_getElem (by omega), e]
  · rw [List.getElem?_eq_none (by omega), List.getElem?_eq_none (by omega)]

/-- C174.  Conversely, stable IirFilters which give the same answer to an impulse of any length report the same response. -/
theorem C174_iir_converse (g h : Iir ℝ) (hc : g.cast = id) (hwf : g.WF) (hz : ∀ v ∈ g.s, v = 0) (h0 : at0 g.a 0 = 0) (hst : Stable g.a)
    (kc : h.cast = id) (kwf : h.WF) (kz : ∀ v ∈ h.s, v = 0) (k0 : at0 h.a 0 = 0) (kst : Stable h.a)
    (hx : ∀ n : ℕ, (g.filter (1 :: List.replicate n 0)).1 = (h.filter (1 :: List.replicate n 0)).1) (length count : ℤ) :
    g.response length count = h.response length count := by
  classical
  have hga := wf_ne hwf
  have hha := wf_ne kwf
  have hser : ser g.b * recip g.a = ser h.b * recip h.a := by
    ext n
    obtain ⟨y, g', h1, h2, h3⟩ := filter_conv g hwf hc h0 hz (1 :: List.replicate n 0) (by simp)
    obtain ⟨z, h', k1, k2, k3⟩ := filter_conv h kwf kc k0 kz (1 :: List.replicate n 0) (by simp)
    have hyz := hx n
    rw [h1, k1] at hyz
    have hyz : y = z := by injection hyz
    have imp : ∀ φ : PowerSeries ℝ, ∑ i ∈ range (n + 1), PowerSeries.coeff i φ * at0 (1 :: List.replicate n (0 : ℝ)) (n - i) = PowerSeries.coeff n φ := by
      intro φ
      rw [sum_range_succ, sum_eq_zero, zero_add, Nat.sub_self]
      · simp [at0]
      · intro i hi
        have := mem_range.mp hi
        obtain ⟨m, hm⟩ : ∃ m, n - i = m + 1 := ⟨n - i - 1, by omega⟩
        rw [hm]
        by_cases hmn : m < n <;> simp [at0, hmn]
    have e1 := h3 n (by simp)
    have e2 := k3 n (by simp)
    rw [imp] at e1 e2
    rw [← e1, ← e2, hyz]
  have hresp : ∀ u, freqResp g.a g.b u = freqResp h.a h.b u := by
    intro u
    have t1 := (impulse_sum g.a g.b h0 hga hst u).2
    have t2 := (impulse_sum h.a h.b k0 hha kst u).2
    rw [← ser_map_ofReal, ← recip_map _ h0, ← map_mul, hser] at t1
    rw [← ser_map_ofReal, ← recip_map _ k0, ← map_mul] at t2
    exact tendsto_nhds_unique t1 t2
  unfold Iir.response
  by_cases hbad : length ≤ 0 ∨ count ≤ 0
  · rw [response_rejects _ _ _ _ hbad, response_rejects _ _ _ _ hbad]
  push Not at hbad
  obtain ⟨y, f, h1, h2, h3, h4⟩ := response_general g.b (1 :: g.a.tail.map (- ·)) length count hbad.1 hbad.2
  obtain ⟨z, e, k1, k2, k3, k4⟩ := response_general h.b (1 :: h.a.tail.map (- ·)) length count hbad.1 hbad.2
  rw [h1, k1]
  congr 2
  · apply List.ext_getElem?
    intro k
    by_cases hk : k < length.toNat
    · rw [(h4 k hk).2, (k4 k hk).2]
      simp only [dtft_one_sub _ hga h0, dtft_one_sub _ hha k0]
      rw [if_neg (impulse_sum g.a g.b h0 hga hst _).1, if_neg (impulse_sum h.a h.b k0 hha kst _).1]
      have := hresp (2 * (((length / 2 : ℤ) : ℝ) + (k : ℝ)) / (length : ℝ) - 2)
      unfold freqResp at this
      rw [this]
    · rw [List.getElem?_eq_none (by rw [h2]; omega), List.getElem?_eq_none (by rw [k2]; omega)]
  · apply List.ext_getElem?
    intro k
    by_cases hk : k < length.toNat
    · rw [(h4 k hk).1, (k4 k hk).1]
    · rw [List.getElem?_eq_none (by rw [h3]; omega), List.getElem?_eq_none (by rw [k3]; omega)]

/-- Two different filters with the same response: the pole 1/2 of the second one is cancelled by a zero. -/
private theorem same_response : (⟨id, [0, 0], [1, 0], [0, 0]⟩ : Iir ℝ).response 4 1 = (⟨id, [0, 1 / 2], [1, -1 / 2], [0, 0]⟩ : Iir ℝ).response 4 1 := by
  unfold Iir.response np.response np.freqz
  have h : ∀ z : ℂ, ‖z‖ = 1 → -(2⁻¹ * z) + 1 ≠ 0 := by
    intro z hz h
    have : z = 2 := by linear_combination (-2) * h
    rw [this] at hz
    norm_num at hz
  have e : ∀ k : ℕ, ‖Complex.exp (-(Complex.I * (2 * Real.pi * k / 4)))‖ = 1 := by
    intro k
    rw [show -(Complex.I * (2 * Real.pi * k / 4)) = ((-(2 * Real.pi * k / 4) : ℝ) : ℂ) * Complex.I by push_cast; ring, Complex.norm_exp_ofReal_mul_I]
  simp [np.polyval, np.complexOf]
  congr 1
  rw [show [some (1 : ℂ), some 1, some 1, some 1] = (List.range 4).map fun _ => some 1 from rfl]
  refine List.map_congr_left fun k _ => ?_
  rw [if_neg (h _ (e k)), Option.some.injEq, eq_div_iff (h _ (e k))]
  ring

/-- The hypotheses hold for them, and so both do nothing to any signal. -/
example (x : List ℝ) (hx : x ≠ []) :=
  C174_iir (⟨id, [0, 0], [1, 0], [0, 0]⟩ : Iir ℝ) ⟨id, [0, 1 / 2], [1, -1 / 2], [0, 0]⟩ rfl ⟨rfl, rfl, by simp⟩ (by simp) rfl rfl ⟨rfl, rfl, by simp⟩ (by simp) rfl 4
    (by simp) same_response x hx

/-- Both are stable, so that the converse gives responses of every length. -/
example (length count : ℤ) :=
  C174_iir_converse (⟨id, [0, 0], [1, 0], [0, 0]⟩ : Iir ℝ) ⟨id, [0, 1 / 2], [1, -1 / 2], [0, 0]⟩ rfl ⟨rfl, rfl, by simp⟩ (by simp) rfl
    (by intro z hz; simp [Pole, at0] at hz; rw [hz]; norm_num) rfl ⟨rfl, rfl, by simp⟩ (by simp) rfl (by intro z hz; simp [Pole, at0] at hz; rw [hz]; norm_num)
    (fun n => by
      obtain ⟨y, g', h', h1, h2⟩ := C174_iir (⟨id, [0, 0], [1, 0], [0, 0]⟩ : Iir ℝ) ⟨id, [0, 1 / 2], [1, -1 / 2], [0, 0]⟩ rfl ⟨rfl, rfl, by simp⟩ (by simp) rfl rfl
        ⟨rfl, rfl, by simp⟩ (by simp) rfl 4 (by simp) same_response (1 :: List.replicate n 0) (by simp)
      rw [h1, h2]) length count

end Verif.Props
