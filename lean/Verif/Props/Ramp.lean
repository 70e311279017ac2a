import Verif.Lemmas.Ramp
import Verif.Spec.Ramp
import Verif.Props.ComplexFilter
import Verif.Props.IirDelay
import Verif.Props.Energy

/-
C171: what the group delay of a filter delays.  A tone whose amplitude grows linearly comes out of the filter with its tone scaled by the response and
its amplitude late by the group delay.
-/

namespace Verif.Props

open Finset Spec

theorem stable_complexOf (a : List ℝ) (h : Stable a) : StableC (np.complexOf a) := by
  intro z hz
  refine h z ?_
  unfold poleValue at hz
  rw [sub_eq_zero] at hz
  simp only [at0_complexOf] at hz
  simpa [Pole, np.complexOf] using hz

theorem freqRespC_complexOf (a b : List ℝ) : freqRespC (np.complexOf a) (np.complexOf b) = freqResp a b := by
  funext f
  rw [freqRespC, freqResp, dtftC_complexOf, dtftC_complexOf]

/-- The kernel of a stable filter answers a growing tone late. -/
theorem ramp_answer (a b : List ℂ) (h0 : at0 a 0 = 0) (ha : a ≠ []) (hst : StableC a) (u : ℝ) (hH : freqRespC a b u ≠ 0) (c d : ℂ) :
    Filter.Tendsto (fun n : ℕ => ∑ i ∈ range (n + 1), PowerSeries.coeff i (ser b * recip a) * ((c + d * ((n - i : ℕ) : ℂ)) * Complex.exp (Complex.I * Real.pi * u * ((n - i : ℕ) : ℂ))) -
      freqRespC a b u * Complex.exp (Complex.I * Real.pi * u * n) * (c + d * (n - Complex.I * deriv (freqRespC a b) u / (Real.pi * freqRespC a b u))))
      Filter.atTop (nhds 0) := by
  obtain ⟨K, hK⟩ := stableC_impulse a b h0 ha hst
  have hs := hK.summable
  have hm := stableC_moment a b h0 ha hst
  have hz : ∀ (v : ℝ) (i : ℕ), ‖Complex.exp (-(Complex.I * Real.pi * v * i))‖ = 1 := by
    intro v i
    rw [show -(Complex.I * Real.pi * v * i) = ((-(Real.pi * v * i) : ℝ) : ℂ) * Complex.I by push_cast; ring, Complex.norm_exp_ofReal_mul_I]
  have hfun : freqRespC a b = fun v : ℝ => ∑' i : ℕ, PowerSeries.coeff i (ser b * recip a) * Complex.exp (-(Complex.I * Real.pi * v * i)) := by
    funext v
    have h1 := (impulse_sumC a b h0 ha hst v).2
    have h2 : Summable fun i : ℕ => PowerSeries.coeff i (ser b * recip a) * Complex.exp (-(Complex.I * Real.pi * v * i)) := by
      apply Summable.of_norm
      simpa only [norm_mul, hz, mul_one] using hs
    exact tendsto_nhds_unique h1 h2.hasSum.tendsto_sum_nat
  have hd := (kernel_deriv _ hs hm u).deriv
  rw [← hfun] at hd
  set Q := ∑' i : ℕ, (i : ℂ) * (PowerSeries.coeff i (ser b * recip a) * Complex.exp (-(Complex.I * Real.pi * u * i))) with hQ
  have := ramp_limit _ hs hm c d u (freqRespC a b u) Q (congrFun hfun u) hQ
  refine this.congr fun n => ?_
  congr 1
  have hpi : (Real.pi : ℂ) ≠ 0 := by exact_mod_cast Real.pi_ne_zero
  have e : Complex.I * deriv (freqRespC a b) u / (Real.pi * freqRespC a b u) = Q / freqRespC a b u := by
    rw [hd, div_eq_div_iff (mul_ne_zero hpi hH) hH]
    linear_combination (-(Real.pi : ℂ) * Q * freqRespC a b u) * Complex.I_mul_I
  rw [e]
  field_simp
  ring

/-- C171.  IirFilter with complex coefficients, stable, in any state: fed the tone of frequency `u` with the linearly growing amplitude `c + d n`,
the output becomes the tone times the response, with the amplitude `c + d (n - τ)`; the real part of τ is the group delay at `u`. -/
theorem C171_iir_complex (g : Iir ℂ) (hc : g.cast = id) (hwf : g.WF) (h0 : at0 g.a 0 = 0) (hst : StableC g.a) (u : ℝ) (hH : freqRespC g.a g.b u ≠ 0) :
    ∃ τ : ℂ, τ.re = groupDelay (freqRespC g.a g.b) u ∧ ∀ (c d : ℂ) (ε : ℝ), 0 < ε →
      ∃ N, ∀ L, 0 < L → ∃ y g', g.filter ((List.range L).map fun n : ℕ => (c + d * n) * Complex.exp (Complex.I * Real.pi * u * n)) = (.ok y, g') ∧ y.length = L ∧
        ∀ n, N ≤ n → n < L → ‖at0 y n - freqRespC g.a g.b u * Complex.exp (Complex.I * Real.pi * u * n) * (c + d * (n - τ))‖ < ε := by
  refine ⟨_, lag_re _ u, fun c d ε hε => ?_⟩
  have hane : g.a ≠ [] := wf_ne hwf
  obtain ⟨K, hK⟩ := stableC_impulse g.a g.b h0 hane hst
  obtain ⟨p, hpl, hp⟩ := Iir.filter_split g hwf hc h0
  have hlim := (ramp_answer g.a g.b h0 hane hst u hH c d).add (fade hK p)
  rw [add_zero, Metric.tendsto_atTop] at hlim
  obtain ⟨N, hN⟩ := hlim ε hε
  refine ⟨N, fun L hL => ?_⟩
  obtain ⟨y, g', y1, y2, y3⟩ := hp ((List.range L).map fun n : ℕ => (c + d * n) * Complex.exp (Complex.I * Real.pi * u * n)) (by simp; omega)
  rw [List.length_map, List.length_range] at y2 y3
  refine ⟨y, g', y1, y2, fun n hn hnL => ?_⟩
  have := hN n hn
  rw [dist_zero_right] at this
  refine lt_of_eq_of_lt ?_ this
  rw [y3 n hnL]
  congr 1
  rw [add_sub_right_comm]
  congr 2
  refine sum_congr rfl fun i hi => ?_
  rw [at0_sampled _ _ _ (by omega)]

theorem dtft_zero_real (b : List ℝ) : dtft b 0 = ((∑ i ∈ range b.length, at0 b i : ℝ) : ℂ) := by
  unfold dtft
  push_cast
  refine sum_congr rfl fun i _ => ?_
  simp

theorem dtftRamp_zero_real (b : List ℝ) : dtftRamp b 0 = ((∑ i ∈ range b.length, at0 b i * i : ℝ) : ℂ) := by
  unfold dtftRamp
  push_cast
  refine sum_congr rfl fun i _ => ?_
  simp

theorem deriv_freqResp (a b : List ℝ) (u : ℝ) (ha : 1 - dtft a u ≠ 0) (hb : dtft b u ≠ 0) :
    Complex.I * deriv (freqResp a b) u / (Real.pi * freqResp a b u) = dtftRamp b u / dtft b u + dtftRamp a u / (1 - dtft a u) := by
  have h := ((hasDerivAt_dtft b u).fun_div ((hasDerivAt_dtft a u).const_sub 1) ha).deriv
  have e : freqResp a b = fun f => dtft b f / (1 - dtft a f) := rfl
  rw [e, h]
  have hpi : (Real.pi : ℂ) ≠ 0 := by exact_mod_cast Real.pi_ne_zero
  field_simp
  linear_combination (-(dtftRamp b u * (1 - dtft a u) + dtft b u * dtftRamp a u)) * Complex.I_sq

/-- C171.  The same with real coefficients and the real part of the growing tone. -/
theorem C171_iir (g : Iir ℝ) (hc : g.cast = id) (hwf : g.WF) (h0 : at0 g.a 0 = 0) (hst : Stable g.a) (u : ℝ) (hH : freqResp g.a g.b u ≠ 0) :
    ∃ τ : ℂ, τ.re = groupDelay (freqResp g.a g.b) u ∧ (u = 0 → τ.im = 0) ∧ ∀ (c d : ℂ) (ε : ℝ), 0 < ε →
      ∃ N, ∀ L, 0 < L → ∃ y g', g.filter ((List.range L).map fun n : ℕ => ((c + d * n) * Complex.exp (Complex.I * Real.pi * u * n)).re) = (.ok y, g') ∧ y.length = L ∧
        ∀ n, N ≤ n → n < L → |at0 y n - (freqResp g.a g.b u * Complex.exp (Complex.I * Real.pi * u * n) * (c + d * (n - τ))).re| < ε := by
  have hane : g.a ≠ [] := wf_ne hwf
  have hden := (impulse_sum g.a g.b h0 hane hst u).1
  have hnum : dtft g.b u ≠ 0 := fun q => hH (by rw [freqResp, q, zero_div])
  refine ⟨_, lag_re _ u, fun hu => ?_, fun c d ε hε => ?_⟩
  · rw [deriv_freqResp _ _ _ hden hnum]
    subst hu
    rw [dtft_zero_real, dtft_zero_real, dtftRamp_zero_real, dtftRamp_zero_real]
    norm_cast
  obtain ⟨K, hK⟩ := stable_impulse g.a g.b h0 hane hst
  obtain ⟨p, hpl, hp⟩ := Iir.filter_split g hwf hc h0
  have hans := ramp_answer (np.complexOf g.a) (np.complexOf g.b) (by rw [at0_complexOf, h0]; simp) (by simpa [np.complexOf] using hane) (stable_complexOf _ hst) u
    (by rw [freqRespC_complexOf]; exact hH) c d
  rw [freqRespC_complexOf] at hans
  have hmap : ser (np.complexOf g.b) * recip (np.complexOf g.a) = (ser g.b * recip g.a).map Complex.ofRealHom := by rw [map_mul, recip_map _ h0, ser_map_ofReal]
  rw [hmap] at hans
  have hlim := hans.add (fade hK (np.complexOf p))
  rw [add_zero, Metric.tendsto_atTop] at hlim
  obtain ⟨N, hN⟩ := hlim ε hε
  refine ⟨N, fun L hL => ?_⟩
  obtain ⟨y, g', y1, y2, y3⟩ := hp ((List.range L).map fun n : ℕ => ((c + d * n) * Complex.exp (Complex.I * Real.pi * u * n)).re) (by simp; omega)
  rw [List.length_map, List.length_range] at y2 y3
  refine ⟨y, g', y1, y2, fun n hn hnL => ?_⟩
  have := hN n hn
  rw [dist_zero_right] at this
  refine lt_of_le_of_lt ?_ this
  refine le_trans (le_of_eq ?_) (Complex.abs_re_le_norm _)
  congr 1
  rw [Complex.add_re, Complex.sub_re, Complex.re_sum, Complex.re_sum, y3 n hnL, add_sub_right_comm]
  congr 1
  · congr 1
    refine sum_congr rfl fun i hi => ?_
    rw [at0_sampled _ _ _ (by omega), PowerSeries.coeff_map, Complex.ofRealHom_eq_coe, Complex.re_ofReal_mul]
  · rw [show (np.complexOf p).length = p.length by simp [np.complexOf]]
    refine sum_congr rfl fun i hi => ?_
    rw [PowerSeries.coeff_map, Complex.ofRealHom_eq_coe, at0_complexOf, ← Complex.ofReal_mul, Complex.ofReal_re]

theorem axis_middle (m : ℤ) (h : 0 < m) : axis (m + m) m.toNat = 0 := by
  unfold axis
  have : ((m.toNat : ℕ) : ℝ) = (m : ℝ) := by
    have : ((m.toNat : ℤ)) = m := by omega
    exact_mod_cast this
  have hm0 : (m : ℝ) ≠ 0 := by
    have : m ≠ 0 := by omega
    exact_mod_cast this
  rw [this]
  push_cast
  field_simp
  ring

theorem rampDelay_eq (a b : List ℝ) (ha : 1 - ∑ i ∈ range a.length, at0 a i ≠ 0) (hb : ∑ i ∈ range b.length, at0 b i ≠ 0) :
    groupDelay (freqResp a b) 0 = rampDelay a b := by
  rw [← lag_re, deriv_freqResp, dtft_zero_real, dtft_zero_real, dtftRamp_zero_real, dtftRamp_zero_real]
  · unfold rampDelay
    norm_cast
  · rw [dtft_zero_real]; exact_mod_cast ha
  · rw [dtft_zero_real]; exact_mod_cast hb

/-- C171, ramps.  A stable IirFilter in any state, fed the ramp `c + d n`, settles on the ramp times the gain at frequency zero and late by `τ` samples;
at the middle of the frequency axis, which is frequency zero, delay() reports that `τ` times count, whenever it is asked for an even number of more than 12 frequencies. -/
theorem C171_ramp (g : Iir ℝ) (hc : g.cast = id) (hwf : g.WF) (h0 : at0 g.a 0 = 0) (hst : Stable g.a) (hb : ∑ i ∈ range g.b.length, at0 g.b i ≠ 0) :
    1 - ∑ i ∈ range g.a.length, at0 g.a i ≠ 0 ∧
    (∀ (c d ε : ℝ), 0 < ε → ∃ N, ∀ L, 0 < L → ∃ y g', g.filter ((List.range L).map fun n : ℕ => c + d * n) = (.ok y, g') ∧ y.length = L ∧
      ∀ n, N ≤ n → n < L →
        |at0 y n - (∑ i ∈ range g.b.length, at0 g.b i) / (1 - ∑ i ∈ range g.a.length, at0 g.a i) * (c + d * (n - rampDelay g.a g.b))| < ε) ∧
    ∀ (length count : ℤ), 12 < length → Even length → 0 < count →
      ∃ y f, g.delay length count = .ok (y, f) ∧ f[(length / 2).toNat]? = some 0 ∧ y[(length / 2).toNat]? = some (count * rampDelay g.a g.b) := by
  have hane : g.a ≠ [] := wf_ne hwf
  have hden := (impulse_sum g.a g.b h0 hane hst 0).1
  have hA : 1 - ∑ i ∈ range g.a.length, at0 g.a i ≠ 0 := by
    intro q
    apply hden
    rw [dtft_zero_real]
    exact_mod_cast q
  have hH : freqResp g.a g.b 0 = (((∑ i ∈ range g.b.length, at0 g.b i) / (1 - ∑ i ∈ range g.a.length, at0 g.a i) : ℝ) : ℂ) := by
    rw [freqResp, dtft_zero_real, dtft_zero_real]
    norm_cast
  have hH0 : freqResp g.a g.b 0 ≠ 0 := by
    rw [hH]
    exact_mod_cast div_ne_zero hb hA
  refine ⟨hA, fun c d ε hε => ?_, fun length count hl he hcount => ?_⟩
  · obtain ⟨τ, t1, t2, t3⟩ := C171_iir g hc hwf h0 hst 0 hH0
    have hτ : τ = ((rampDelay g.a g.b : ℝ) : ℂ) := by
      apply Complex.ext
      · rw [t1, rampDelay_eq _ _ hA hb, Complex.ofReal_re]
      · rw [t2 rfl, Complex.ofReal_im]
    obtain ⟨N, hN⟩ := t3 c d ε hε
    refine ⟨N, fun L hL => ?_⟩
    have ein : (fun n : ℕ => (((c : ℂ) + d * n) * Complex.exp (Complex.I * Real.pi * (0 : ℝ) * n)).re) = fun n : ℕ => c + d * n := by
      funext n
      simp
    have := hN L hL
    rw [ein] at this
    obtain ⟨y, g', y1, y2, y3⟩ := this
    refine ⟨y, g', y1, y2, fun n h1 h2 => ?_⟩
    have := y3 n h1 h2
    rw [hH, hτ] at this
    refine lt_of_eq_of_lt ?_ this
    congr 2
    rw [show Complex.exp (Complex.I * Real.pi * (0 : ℝ) * n) = ((1 : ℝ) : ℂ) by simp, ← Complex.ofReal_natCast]
    rw [← Complex.ofReal_mul, ← Complex.ofReal_sub, ← Complex.ofReal_mul, ← Complex.ofReal_add, ← Complex.ofReal_mul, Complex.ofReal_re, mul_one]
  · obtain ⟨y, f, d1, d2, d3, d4, d5, _⟩ := C71_iir_delay g hane h0 (by
      intro q
      rw [q] at hb
      simp at hb) length count (by omega) he hcount
    obtain ⟨m, rfl⟩ := he
    have hm : ((m + m) / 2).toNat = m.toNat := by congr 1; omega
    have hax : axis (m + m) m.toNat = 0 := axis_middle m (by omega)
    have h5 := d5 m.toNat (by omega) (by rw [hax, dtft_zero_real]; exact_mod_cast hb) (by rw [hax]; exact hden)
    refine ⟨y, f, d1, by rw [hm, d4 _ (by omega), hax], ?_⟩
    rw [hm, h5.2.1 (by omega), hax, rampDelay_eq _ _ hA hb]

/-- C171, steps.  What the answer of a new stable IirFilter to a unit step falls short of the gain, added up over all samples, is the gain times the delay. -/
theorem C171_step (g : Iir ℝ) (hc : g.cast = id) (hwf : g.WF) (hz : ∀ v ∈ g.s, v = 0) (h0 : at0 g.a 0 = 0) (hst : Stable g.a) (hb : ∑ i ∈ range g.b.length, at0 g.b i ≠ 0)
    (ε : ℝ) (hε : 0 < ε) :
    ∃ N, ∀ L, 0 < L → ∃ y g', g.filter (List.replicate L 1) = (.ok y, g') ∧ y.length = L ∧ ∀ n, N ≤ n → n < L →
      |∑ k ∈ range n, ((∑ i ∈ range g.b.length, at0 g.b i) / (1 - ∑ i ∈ range g.a.length, at0 g.a i) - at0 y k) -
        (∑ i ∈ range g.b.length, at0 g.b i) / (1 - ∑ i ∈ range g.a.length, at0 g.a i) * rampDelay g.a g.b| < ε := by
  obtain ⟨N, hN⟩ := (C171_ramp g hc hwf h0 hst hb).2.1 0 1 ε hε
  set G := (∑ i ∈ range g.b.length, at0 g.b i) / (1 - ∑ i ∈ range g.a.length, at0 g.a i) with hG
  refine ⟨N, fun L hL => ?_⟩
  obtain ⟨w, g', w1, w2, w3⟩ := hN L hL
  obtain ⟨w', g'', v1, v2, v3⟩ := filter_conv g hwf hc h0 hz ((List.range L).map fun n : ℕ => (0 : ℝ) + 1 * n) (by simp; omega)
  rw [w1] at v1
  cases v1
  obtain ⟨y, g3, y1, y2, y3⟩ := filter_conv g hwf hc h0 hz (List.replicate L (1 : ℝ)) (by simp; omega)
  rw [List.length_map, List.length_range] at v3
  rw [List.length_replicate] at y2 y3
  refine ⟨y, g3, y1, y2, fun n n1 n2 => ?_⟩
  have hone : ∀ k < L, at0 (List.replicate L (1 : ℝ)) k = 1 := fun k hk => by rw [at0_of_lt _ _ (by simpa using hk)]; simp
  have hsum : ∀ n < L, ∑ k ∈ range n, at0 y k = ∑ i ∈ range (n + 1), PowerSeries.coeff i (ser g.b * recip g.a) * ((n - i : ℕ) : ℝ) := by
    intro n
    induction n with
    | zero => simp
    | succ n ih =>
      intro hn
      rw [sum_range_succ, ih (by omega), y3 n (by omega), sum_range_succ (n := n + 1), Nat.sub_self, Nat.cast_zero, mul_zero, add_zero, ← sum_add_distrib]
      refine sum_congr rfl fun i hi => ?_
      have := mem_range.mp hi
      rw [hone _ (by omega), show n + 1 - i = (n - i) + 1 by omega]
      push_cast
      ring
  have hw : at0 w n = ∑ k ∈ range n, at0 y k := by
    rw [v3 n n2, hsum n n2]
    refine sum_congr rfl fun i hi => ?_
    rw [at0_sampled _ _ _ (by omega)]
    ring
  have := w3 n n1 n2
  rw [hw, abs_sub_comm] at this
  refine lt_of_eq_of_lt ?_ this
  congr 1
  rw [sum_sub_distrib, sum_const, card_range, nsmul_eq_mul]
  ring

/-! ### FirFilter -/

/-- C171.  FirFilter in any state answers a growing tone, once `len(b) - 1` samples have passed, exactly: the tone times the response, the amplitude late by `τ`. -/
theorem C171_fir (b : List ℝ) (s : Option (List ℝ)) (u : ℝ) (hH : dtft b u ≠ 0) :
    ∃ τ : ℂ, τ.re = groupDelay (freqResp [] b) u ∧ ∀ (c d : ℂ) (L : ℕ), 0 < L →
      ∃ f y f', Fir.new id b s = .ok f ∧ f.filter ((List.range L).map fun n : ℕ => ((c + d * n) * Complex.exp (Complex.I * Real.pi * u * n)).re) = (.ok y, f') ∧ y.length = L ∧
        ∀ n, b.length - 1 ≤ n → n < L → y[n]? = some (dtft b u * Complex.exp (Complex.I * Real.pi * u * n) * (c + d * (n - τ))).re := by
  have hb : b ≠ [] := by
    rintro rfl
    simp [dtft] at hH
  refine ⟨_, lag_re _ u, fun c d L hL => ?_⟩
  obtain ⟨f, y, f', h1, h2, h3, h4⟩ := C01_fir_difference_equation b s ((List.range L).map fun n : ℕ => ((c + d * n) * Complex.exp (Complex.I * Real.pi * u * n)).re) hb
    (by simp; omega)
  rw [List.length_map, List.length_range] at h3 h4
  refine ⟨f, y, f', h1, h2, h3, fun n hn hnL => ?_⟩
  rw [h4 n hnL]
  have ht : tail b (s.getD []) n = 0 := by
    unfold tail
    apply sum_eq_zero
    intro i hi
    have := mem_range.mp hi
    rw [if_neg (by omega)]
  rw [ht, add_zero, conv, deriv_freqResp _ _ _ (by simp [dtft]) hH]
  have hs : ∑ i ∈ range (n + 1), at0 b i * at0 ((List.range L).map fun n : ℕ => ((c + d * n) * Complex.exp (Complex.I * Real.pi * u * n)).re) (n - i) =
      ∑ i ∈ range b.length, (((at0 b i : ℝ) : ℂ) * ((c + d * (n - i : ℂ)) * Complex.exp (Complex.I * Real.pi * u * (n - i : ℂ)))).re := by
    symm
    rw [← sum_subset (s₁ := range b.length) (s₂ := range (n + 1))]
    · refine sum_congr rfl fun i hi => ?_
      have := mem_range.mp hi
      rw [at0_sampled _ _ _ (by omega), Complex.re_ofReal_mul, Nat.cast_sub (by omega)]
    · intro i hi; have := mem_range.mp hi; exact mem_range.mpr (by omega)
    · intro i _ hi
      rw [at0_of_le _ _ (by simpa using hi), zero_mul]
  rw [hs, ← Complex.re_sum]
  congr 2
  have e : dtft b u * Complex.exp (Complex.I * Real.pi * u * n) * (c + d * (n - (dtftRamp b u / dtft b u + dtftRamp [] u / (1 - dtft [] u)))) =
      Complex.exp (Complex.I * Real.pi * u * n) * ((c + d * n) * dtft b u - d * dtftRamp b u) := by
    have : dtftRamp [] u = 0 := by simp [dtftRamp]
    rw [this]
    field_simp
    ring
  rw [e, dtft, dtftRamp, mul_sum, mul_sum, ← sum_sub_distrib, mul_sum]
  refine sum_congr rfl fun i _ => ?_
  rw [show Complex.I * Real.pi * u * ((n : ℂ) - i) = -(Complex.I * Real.pi * u * i) + Complex.I * Real.pi * u * n by ring, Complex.exp_add]
  push_cast
  ring

/-- C171, ramps.  FirFilter in any state delays a ramp, once `len(b) - 1` samples have passed, by the mean index of its coefficients; symmetric coefficients
delay it by half their order. -/
theorem C171_fir_ramp (b : List ℝ) (s : Option (List ℝ)) (hb : ∑ i ∈ range b.length, at0 b i ≠ 0) (c d : ℝ) (L : ℕ) (hL : 0 < L) :
    (∃ f y f', Fir.new id b s = .ok f ∧ f.filter ((List.range L).map fun n : ℕ => c + d * n) = (.ok y, f') ∧ y.length = L ∧
      ∀ n, b.length - 1 ≤ n → n < L → y[n]? = some ((∑ i ∈ range b.length, at0 b i) * (c + d * (n - (∑ i ∈ range b.length, at0 b i * i) / ∑ i ∈ range b.length, at0 b i)))) ∧
    ((∀ n < b.length, at0 b n = at0 b (b.length - 1 - n)) → (∑ i ∈ range b.length, at0 b i * i) / (∑ i ∈ range b.length, at0 b i) = ((b.length - 1 : ℕ) : ℝ) / 2) := by
  have hne : b ≠ [] := by
    rintro rfl
    simp at hb
  constructor
  · obtain ⟨f, y, f', h1, h2, h3, h4⟩ := C01_fir_difference_equation b s ((List.range L).map fun n : ℕ => c + d * n) hne (by simp; omega)
    rw [List.length_map, List.length_range] at h3 h4
    refine ⟨f, y, f', h1, h2, h3, fun n hn hnL => ?_⟩
    rw [h4 n hnL]
    have ht : tail b (s.getD []) n = 0 := by
      unfold tail
      apply sum_eq_zero
      intro i hi
      have := mem_range.mp hi
      rw [if_neg (by omega)]
    rw [ht, add_zero, conv]
    have hs : ∑ i ∈ range (n + 1), at0 b i * at0 ((List.range L).map fun n : ℕ => c + d * n) (n - i) = ∑ i ∈ range b.length, at0 b i * (c + d * (n - i : ℝ)) := by
      symm
      rw [← sum_subset (s₁ := range b.length) (s₂ := range (n + 1))]
      · refine sum_congr rfl fun i hi => ?_
        have := mem_range.mp hi
        rw [at0_sampled _ _ _ (by omega), Nat.cast_sub (by omega)]
      · intro i hi; have := mem_range.mp hi; exact mem_range.mpr (by omega)
      · intro i _ hi
        rw [at0_of_le _ _ (by simpa using hi), zero_mul]
    rw [hs]
    congr 1
    have e : ∑ i ∈ range b.length, at0 b i * (c + d * (n - i : ℝ)) = (c + d * n) * (∑ i ∈ range b.length, at0 b i) - d * ∑ i ∈ range b.length, at0 b i * i := by
      rw [mul_sum, mul_sum, ← sum_sub_distrib]
      refine sum_congr rfl fun i _ => ?_
      ring
    rw [e]
    field_simp
    ring
  · intro hs
    have hl : 0 < b.length := List.length_pos_iff.mpr hne
    have hr := sum_range_reflect (fun i => at0 b i * (i : ℝ)) b.length
    have e : ∑ i ∈ range b.length, at0 b (b.length - 1 - i) * ((b.length - 1 - i : ℕ) : ℝ) = ∑ i ∈ range b.length, at0 b i * (((b.length - 1 : ℕ) : ℝ) - i) := by
      refine sum_congr rfl fun i hi => ?_
      have := mem_range.mp hi
      rw [← hs i this, Nat.cast_sub (by omega)]
    rw [e] at hr
    simp only [mul_sub, sum_sub_distrib, ← sum_mul] at hr
    rw [div_eq_div_iff hb two_ne_zero]
    linarith

/-- C171.  FirFilter.delay reports the delay of a ramp at the middle of the frequency axis, which is frequency zero. -/
theorem C171_fir_reported (g : Fir ℝ) (hb : ∑ i ∈ range g.b.length, at0 g.b i ≠ 0) (length count : ℤ) (hl : 0 < length) (he : Even length) (hc : 0 < count) :
    ∃ y f, g.delay length count = .ok (y, f) ∧ f[(length / 2).toNat]? = some 0 ∧
      y[(length / 2).toNat]? = some (count * ((∑ i ∈ range g.b.length, at0 g.b i * i) / ∑ i ∈ range g.b.length, at0 g.b i)) := by
  obtain ⟨y, f, d1, d2, d3, d4, d5, _⟩ := C71_fir_delay g length count hl he hc
  obtain ⟨m, rfl⟩ := he
  have hm : ((m + m) / 2).toNat = m.toNat := by congr 1; omega
  have hax : axis (m + m) m.toNat = 0 := axis_middle m (by omega)
  refine ⟨y, f, d1, by rw [hm, d4 _ (by omega), hax], ?_⟩
  rw [hm, d5 m.toNat (by omega) (by omega) (by rw [hax, dtft_zero_real]; exact_mod_cast hb), hax, rampDelay_eq _ _ (by simp) hb]
  simp [rampDelay]

/-! ### Concrete cases -/

private theorem half_stable : Stable [0, 1 / 2] := by
  intro z hz
  simp [Pole, at0] at hz
  rw [hz]
  norm_num

/-- `y_n = y_{n-1} / 2 + x_n`: gain 2, and a ramp comes out one sample late. -/
example : rampDelay [0, 1 / 2] [1, 0] = 1 := by
  simp [rampDelay, at0, sum_range_succ]
  norm_num

example := C171_ramp ⟨id, [0, 1 / 2], [1, 0], [3, -1]⟩ rfl ⟨rfl, rfl, by norm_num⟩ (by simp [at0]) half_stable (by simp [at0, sum_range_succ])

/-- The step is answered by 1, 3/2, 7/4, ...: what is missing, 1 + 1/2 + 1/4 + ..., adds up to 2. -/
example := C171_step ⟨id, [0, 1 / 2], [1, 0], [0, 0]⟩ rfl ⟨rfl, rfl, by norm_num⟩ (by simp) (by simp [at0]) half_stable (by simp [at0, sum_range_succ])

example := C171_iir ⟨id, [0, 1 / 2], [1, 0], [3, -1]⟩ rfl ⟨rfl, rfl, by norm_num⟩ (by simp [at0]) half_stable 0 (by
  simp [freqResp, dtft, at0, sum_range_succ]
  norm_num)

example := C171_iir_complex ⟨id, [0, Complex.I / 2], [1, 0], [0, 0]⟩ rfl ⟨rfl, rfl, by norm_num⟩ (by simp [at0])
  (fun z hz => by
    simp [poleValue, at0] at hz
    rw [sub_eq_zero.mp hz]
    norm_num) 0 (by
  simp only [freqRespC, dtftC, at0, sum_range_succ, List.length_cons, List.length_nil, range_zero, sum_empty]
  simp
  intro q
  have := congrArg Complex.re q
  simp at this)

example := C171_fir_reported ⟨id, [1, 2, 1], [5, 7, 9]⟩ (by simp [at0, sum_range_succ]; norm_num) 2 1 (by norm_num) (by decide) (by norm_num)

example := C171_fir [1, 2, 1] (some [5, 7, 9]) 0 (by simp [dtft, at0, sum_range_succ]; norm_num)

/-- Symmetric coefficients: one sample late. -/
example (c d : ℝ) (L : ℕ) (hL : 0 < L) : (∑ i ∈ range 3, at0 [(1 : ℝ), 2, 1] i * i) / (∑ i ∈ range 3, at0 [(1 : ℝ), 2, 1] i) = 1 := by
  have := (C171_fir_ramp [1, 2, 1] (some [5, 7, 9]) (by simp [at0, sum_range_succ]; norm_num) c d L hL).2 (by
    intro n hn
    match n, hn with
    | 0, _ => rfl
    | 1, _ => rfl
    | 2, _ => rfl)
  simpa using this

end Verif.Props
