import Verif.Lemmas.Energy
import Verif.Props.Chebyshev
import Verif.Props.FirSystem
import Verif.Props.IirState
import Verif.Props.ComplexFilter

/-
C170.  The largest magnitude of the frequency response is the factor by which FirFilter and a stable IirFilter can amplify the root of the energy of a
signal: no signal is amplified by more, and no smaller factor will do.
-/

namespace Verif.Props

open Finset Spec

/-- The output of a filter without a past is the convolution with the impulse response. -/
theorem filter_conv {R : Type*} [CommRing R] (f : Iir R) (hf : f.WF) (hc : f.cast = id) (h0 : at0 f.a 0 = 0) (hz : ∀ v ∈ f.s, v = 0) (x : List R) (hx : x ≠ []) :
    ∃ y f', f.filter x = (.ok y, f') ∧ y.length = x.length ∧
      ∀ k < x.length, at0 y k = ∑ i ∈ range (k + 1), PowerSeries.coeff i (ser f.b * recip f.a) * at0 x (k - i) := by
  obtain ⟨y, f', h1, h2, h3⟩ := Iir.filter_series f hf hc h0 hz x hx
  refine ⟨y, f', h1, h2, fun k hk => ?_⟩
  rw [list_of_at0 y _ h2 _ h3 k hk, ← mul_assoc, PowerSeries.coeff_mul, Finset.Nat.sum_antidiagonal_eq_sum_range_succ_mk]
  simp only [coeff_ser]

theorem freqResp_period (a b : List ℝ) (f : ℝ) : freqResp a b (f + 2) = freqResp a b f := by rw [freqResp, freqResp, dtft_period, dtft_period]

/-- The frequencies up to Nyquist are enough. -/
theorem response_all (a b : List ℝ) (M : ℝ) (h : ∀ u, 0 ≤ u → u ≤ 1 → ‖freqResp a b u‖ ≤ M) (u : ℝ) (h0 : 0 ≤ u) (h2 : u < 2) : ‖freqResp a b u‖ ≤ M := by
  rcases le_total u 1 with h1 | h1
  · exact h u h0 h1
  · rw [show u = (u - 2) + 2 by ring, freqResp_period, ← neg_sub 2 u, freqResp_neg]
    exact h _ (by linarith) (by linarith)

theorem freqResp_nil (b : List ℝ) (f : ℝ) : freqResp [] b f = dtft b f := by simp [freqResp, dtft]

/-! ### No signal is amplified by more -/

/-- C170.  A stable IirFilter: the energy of the output is at most the energy of the signal times the square of the largest response. -/
theorem C170_iir (g : Iir ℝ) (hc : g.cast = id) (hwf : g.WF) (hz : ∀ v ∈ g.s, v = 0) (h0 : at0 g.a 0 = 0) (hst : Stable g.a) (M : ℝ)
    (hM : ∀ u, 0 ≤ u → u ≤ 1 → ‖freqResp g.a g.b u‖ ≤ M) (x : List ℝ) (hx : x ≠ []) :
    ∃ y g', g.filter x = (.ok y, g') ∧ y.length = x.length ∧ energy y ≤ M ^ 2 * energy x := by
  obtain ⟨y, g', h1, h2, h3⟩ := filter_conv g hwf hc h0 hz x hx
  refine ⟨y, g', h1, h2, ?_⟩
  obtain ⟨K, hK⟩ := stable_impulse g.a g.b h0 (wf_ne hwf) hst
  have hcoef : ∀ i, PowerSeries.coeff i (ser (np.complexOf g.b) * recip (np.complexOf g.a)) = ((PowerSeries.coeff i (ser g.b * recip g.a) : ℝ) : ℂ) := by
    intro i
    rw [← ser_map_ofReal, ← recip_map _ h0, ← map_mul, PowerSeries.coeff_map]; rfl
  rw [map_mul, recip_map _ h0, ser_map_ofReal] at hK
  have := energy_bound _ (fun n => ((at0 x n : ℝ) : ℂ)) (freqResp g.a g.b) hK.summable (fun u => (impulse_sum g.a g.b h0 (wf_ne hwf) hst u).2) M
    (response_all _ _ M hM) x.length
  simp only [hcoef, Complex.norm_real] at this
  rw [energy_eq, energy_eq, h2]
  refine le_trans (le_of_eq (sum_congr rfl fun n hn => ?_)) this
  rw [h3 n (mem_range.mp hn), ← Complex.norm_real]
  push_cast
  rfl

/-- C170.  A stable IirFilter with complex coefficients. -/
theorem C170_iir_complex (g : Iir ℂ) (hc : g.cast = id) (hwf : g.WF) (hz : ∀ v ∈ g.s, v = 0) (h0 : at0 g.a 0 = 0) (hst : StableC g.a) (M : ℝ)
    (hM : ∀ u, ‖freqRespC g.a g.b u‖ ≤ M) (x : List ℂ) (hx : x ≠ []) :
    ∃ y g', g.filter x = (.ok y, g') ∧ y.length = x.length ∧ energy y ≤ M ^ 2 * energy x := by
  obtain ⟨y, g', h1, h2, h3⟩ := filter_conv g hwf hc h0 hz x hx
  refine ⟨y, g', h1, h2, ?_⟩
  obtain ⟨K, hK⟩ := stableC_impulse g.a g.b h0 (wf_ne hwf) hst
  have := energy_bound _ (at0 x) (freqRespC g.a g.b) hK.summable (fun u => (impulse_sumC g.a g.b h0 (wf_ne hwf) hst u).2) M (fun u _ _ => hM u) x.length
  rw [energy_eq, energy_eq, h2]
  refine le_trans (le_of_eq (sum_congr rfl fun n hn => ?_)) this
  rw [h3 n (mem_range.mp hn)]

/-- The spectrum of finitely many coefficients as a limit. -/
theorem dtftC_limit (b : List ℂ) (u : ℝ) : Filter.Tendsto (fun n => ∑ i ∈ range n, at0 b i * Complex.exp (-(Complex.I * Real.pi * u * i))) Filter.atTop (nhds (dtftC b u)) := by
  refine tendsto_const_nhds.congr' (Filter.eventually_atTop.mpr ⟨b.length, fun n hn => ?_⟩)
  rw [dtftC]
  apply sum_subset (range_subset_range.mpr hn)
  intro i _ hi
  rw [mem_range, not_lt] at hi
  rw [at0_of_le _ _ hi, zero_mul]

theorem at0_summable (b : List ℂ) : Summable fun k => ‖at0 b k‖ :=
  summable_of_ne_finset_zero (s := range b.length) fun k hk => by
    rw [mem_range, not_lt] at hk
    rw [at0_of_le _ _ hk, norm_zero]

/-- C170.  FirFilter. -/
theorem C170_fir (b : List ℝ) (hb : b ≠ []) (M : ℝ) (hM : ∀ u, 0 ≤ u → u ≤ 1 → ‖dtft b u‖ ≤ M) (x : List ℝ) (hx : x ≠ []) :
    ∃ f y f', Fir.new id b none = .ok f ∧ f.filter x = (.ok y, f') ∧ y.length = x.length ∧ energy y ≤ M ^ 2 * energy x := by
  obtain ⟨f, y, f', h1, h2, h3, h4⟩ := C01_fir_convolution b x hb hx
  refine ⟨f, y, f', h1, h2, h3, ?_⟩
  have := energy_bound (at0 (np.complexOf b)) (fun n => ((at0 x n : ℝ) : ℂ)) _ (at0_summable _) (dtftC_limit _) M
    (fun u u0 u2 => by
      rw [dtftC_complexOf, ← freqResp_nil]
      exact response_all [] b M (by simpa only [freqResp_nil] using hM) u u0 u2) x.length
  simp only [at0_complexOf, Complex.norm_real] at this
  rw [energy_eq, energy_eq, h3]
  refine le_trans (le_of_eq (sum_congr rfl fun n hn => ?_)) this
  rw [list_of_at0 y _ h3 _ h4 n (mem_range.mp hn), ← Complex.norm_real]
  push_cast
  rfl

/-- C170.  FirFilter with complex coefficients. -/
theorem C170_fir_complex (b : List ℂ) (hb : b ≠ []) (M : ℝ) (hM : ∀ u, ‖dtftC b u‖ ≤ M) (x : List ℂ) (hx : x ≠ []) :
    ∃ f y f', Fir.new id b none = .ok f ∧ f.filter x = (.ok y, f') ∧ y.length = x.length ∧ energy y ≤ M ^ 2 * energy x := by
  obtain ⟨f, y, f', h1, h2, h3, h4⟩ := C01_fir_convolution b x hb hx
  refine ⟨f, y, f', h1, h2, h3, ?_⟩
  have := energy_bound (at0 b) (at0 x) _ (at0_summable _) (dtftC_limit _) M (fun u _ _ => hM u) x.length
  rw [energy_eq, energy_eq, h3]
  refine le_trans (le_of_eq (sum_congr rfl fun n hn => ?_)) this
  rw [list_of_at0 y _ h3 _ h4 n (mem_range.mp hn)]

/-- Two coefficients of magnitude one amplify energy at most fourfold. -/
example := C170_fir_complex [1, Complex.I] (by simp) 2 (fun u => by
  unfold dtftC
  refine (norm_sum_le _ _).trans ?_
  simp only [List.length_cons, List.length_nil, sum_range_succ, sum_range_zero, norm_mul]
  have h : ∀ k : ℕ, ‖Complex.exp (-(Complex.I * Real.pi * u * k))‖ = 1 := fun k => by
    rw [show -(Complex.I * Real.pi * u * k) = ((-(Real.pi * u * k) : ℝ) : ℂ) * Complex.I by push_cast; ring, Complex.norm_exp_ofReal_mul_I]
  have h1 := h 1
  rw [Nat.cast_one, mul_one] at h1
  simp [h1, at0]
  norm_num) [1, 2, 3] (by simp)

/-! ### No smaller factor will do -/

theorem at0_sampled {R : Type*} [Zero R] (F : ℕ → R) (L n : ℕ) (hn : n < L) : at0 ((List.range L).map F) n = F n := by
  unfold at0
  rw [List.getD_eq_getElem?_getD, List.getElem?_map, List.getElem?_range hn]
  rfl

theorem tone_re (u : ℝ) (n : ℕ) : Complex.exp (Complex.I * Real.pi * u * n) = (Real.cos (Real.pi * u * n) : ℂ) + (Real.sin (Real.pi * u * n) : ℂ) * Complex.I := by
  rw [show Complex.I * Real.pi * u * n = ((Real.pi * u * n : ℝ) : ℂ) * Complex.I by push_cast; ring, Complex.exp_mul_I, Complex.ofReal_cos, Complex.ofReal_sin]

/-- A kernel with real coefficients: a cosine and a sine together make a tone. -/
theorem real_pair (h : ℕ → ℝ) (u M : ℝ) (hM : ∀ (L : ℕ) (x : List ℝ), x.length = L → 0 < L → ∑ n ∈ range L, (∑ i ∈ range (n + 1), h i * at0 x (n - i)) ^ 2 ≤ M ^ 2 * energy x) (L : ℕ) :
    ∑ n ∈ range L, ‖∑ i ∈ range (n + 1), (h i : ℂ) * Complex.exp (-(Complex.I * Real.pi * u * i))‖ ^ 2 ≤ M ^ 2 * L := by
  rcases Nat.eq_zero_or_pos L with rfl | hL
  · simp
  set c := (List.range L).map fun n : ℕ => Real.cos (Real.pi * u * n) with hcd
  set s := (List.range L).map fun n : ℕ => Real.sin (Real.pi * u * n) with hsd
  have hcl : c.length = L := by simp [hcd]
  have hsl : s.length = L := by simp [hsd]
  have ec := hM L c hcl hL
  have es := hM L s hsl hL
  have eE : energy c + energy s = L := by
    rw [energy_eq, energy_eq, hcl, hsl, ← sum_add_distrib, sum_congr rfl (g := fun _ => (1 : ℝ))]
    · simp
    · intro n hn
      rw [hcd, hsd, at0_sampled _ _ _ (mem_range.mp hn), at0_sampled _ _ _ (mem_range.mp hn), Real.norm_eq_abs, Real.norm_eq_abs, sq_abs, sq_abs, Real.cos_sq_add_sin_sq]
  rw [← eE, mul_add]
  refine le_trans (le_of_eq ?_) (add_le_add ec es)
  rw [← sum_add_distrib]
  refine sum_congr rfl fun n hn => ?_
  have hn := mem_range.mp hn
  have e := conv_tone (fun i => (h i : ℂ)) u n
  have e2 : ∑ i ∈ range (n + 1), (h i : ℂ) * Complex.exp (Complex.I * Real.pi * u * ((n - i : ℕ) : ℂ)) =
      ((∑ i ∈ range (n + 1), h i * at0 c (n - i) : ℝ) : ℂ) + ((∑ i ∈ range (n + 1), h i * at0 s (n - i) : ℝ) : ℂ) * Complex.I := by
    push_cast
    rw [sum_mul, ← sum_add_distrib]
    refine sum_congr rfl fun i _ => ?_
    rw [hcd, hsd, at0_sampled _ _ _ (by omega), at0_sampled _ _ _ (by omega), tone_re]
    ring
  have e3 : ‖∑ i ∈ range (n + 1), (h i : ℂ) * Complex.exp (-(Complex.I * Real.pi * u * i))‖ =
      ‖∑ i ∈ range (n + 1), (h i : ℂ) * Complex.exp (Complex.I * Real.pi * u * ((n - i : ℕ) : ℂ))‖ := by
    rw [e, norm_mul, tone_norm, mul_one]
  rw [e3, e2, ← Complex.normSq_eq_norm_sq, Complex.normSq_add_mul_I]

/-- C170.  If a stable IirFilter multiplies the energy of no signal by more than M², the response is at most M at every frequency. -/
theorem C170_iir_sharp (g : Iir ℝ) (hc : g.cast = id) (hwf : g.WF) (hz : ∀ v ∈ g.s, v = 0) (h0 : at0 g.a 0 = 0) (hst : Stable g.a) (M : ℝ) (hM0 : 0 ≤ M)
    (hM : ∀ x y g', x ≠ [] → g.filter x = (.ok y, g') → energy y ≤ M ^ 2 * energy x) (u : ℝ) : ‖freqResp g.a g.b u‖ ≤ M := by
  have hcoef : ∀ i, PowerSeries.coeff i (ser (np.complexOf g.b) * recip (np.complexOf g.a)) = ((PowerSeries.coeff i (ser g.b * recip g.a) : ℝ) : ℂ) := by
    intro i
    rw [← ser_map_ofReal, ← recip_map _ h0, ← map_mul, PowerSeries.coeff_map]; rfl
  have hlim := (impulse_sum g.a g.b h0 (wf_ne hwf) hst u).2
  simp only [hcoef] at hlim
  refine energy_sharp _ u M _ hlim (real_pair _ u M fun L x hl hL => ?_) hM0
  have hx : x ≠ [] := by intro h; rw [h] at hl; simp at hl; omega
  obtain ⟨y, g', h1, h2, h3⟩ := filter_conv g hwf hc h0 hz x hx
  refine le_trans (le_of_eq ?_) (hM x y g' hx h1)
  rw [energy_eq, h2, hl]
  refine sum_congr rfl fun n hn => ?_
  rw [h3 n (by rw [hl]; exact mem_range.mp hn), Real.norm_eq_abs, sq_abs]

/-- C170.  If FirFilter multiplies the energy of no signal by more than M², the response is at most M at every frequency. -/
theorem C170_fir_sharp (b : List ℝ) (hb : b ≠ []) (M : ℝ) (hM0 : 0 ≤ M)
    (hM : ∀ f x y f', Fir.new id b none = .ok f → x ≠ [] → f.filter x = (.ok y, f') → energy y ≤ M ^ 2 * energy x) (u : ℝ) : ‖dtft b u‖ ≤ M := by
  have hlim := dtftC_limit (np.complexOf b) u
  rw [dtftC_complexOf] at hlim
  simp only [at0_complexOf] at hlim
  refine energy_sharp _ u M _ hlim (real_pair _ u M fun L x hl hL => ?_) hM0
  have hx : x ≠ [] := by intro h; rw [h] at hl; simp at hl; omega
  obtain ⟨f, y, f', h1, h2, h3, h4⟩ := C01_fir_convolution b x hb hx
  refine le_trans (le_of_eq ?_) (hM f x y f' h1 hx h2)
  rw [energy_eq, h3, hl]
  refine sum_congr rfl fun n hn => ?_
  rw [list_of_at0 y _ h3 _ h4 n (by rw [hl]; exact mem_range.mp hn), Real.norm_eq_abs, sq_abs]

theorem complex_tone (h : ℕ → ℂ) (u M : ℝ) (hM : ∀ (L : ℕ) (x : List ℂ), x.length = L → 0 < L → ∑ n ∈ range L, ‖∑ i ∈ range (n + 1), h i * at0 x (n - i)‖ ^ 2 ≤ M ^ 2 * energy x) (L : ℕ) :
    ∑ n ∈ range L, ‖∑ i ∈ range (n + 1), h i * Complex.exp (-(Complex.I * Real.pi * u * i))‖ ^ 2 ≤ M ^ 2 * L := by
  rcases Nat.eq_zero_or_pos L with rfl | hL
  · simp
  set x := (List.range L).map fun n : ℕ => Complex.exp (Complex.I * Real.pi * u * n) with hxd
  have hxl : x.length = L := by simp [hxd]
  have hE : energy x = L := by
    rw [energy_eq, hxl, sum_congr rfl (g := fun _ => (1 : ℝ))]
    · simp
    · intro n hn
      rw [hxd, at0_sampled _ _ _ (mem_range.mp hn), tone_norm, one_pow]
  have h1 := hM L x hxl hL
  rw [hE] at h1
  refine le_trans (le_of_eq (sum_congr rfl fun n hn => ?_)) h1
  have hn := mem_range.mp hn
  have e := conv_tone h u n
  have e2 : ∑ i ∈ range (n + 1), h i * at0 x (n - i) = ∑ i ∈ range (n + 1), h i * Complex.exp (Complex.I * Real.pi * u * ((n - i : ℕ) : ℂ)) :=
    sum_congr rfl fun i _ => by rw [hxd, at0_sampled _ _ _ (by omega)]
  rw [e2, e, norm_mul, tone_norm, mul_one]

/-- C170.  The same with complex coefficients. -/
theorem C170_iir_complex_sharp (g : Iir ℂ) (hc : g.cast = id) (hwf : g.WF) (hz : ∀ v ∈ g.s, v = 0) (h0 : at0 g.a 0 = 0) (hst : StableC g.a) (M : ℝ) (hM0 : 0 ≤ M)
    (hM : ∀ x y g', x ≠ [] → g.filter x = (.ok y, g') → energy y ≤ M ^ 2 * energy x) (u : ℝ) : ‖freqRespC g.a g.b u‖ ≤ M := by
  refine energy_sharp _ u M _ (impulse_sumC g.a g.b h0 (wf_ne hwf) hst u).2 (complex_tone _ u M fun L x hl hL => ?_) hM0
  have hx : x ≠ [] := by intro h; rw [h] at hl; simp at hl; omega
  obtain ⟨y, g', h1, h2, h3⟩ := filter_conv g hwf hc h0 hz x hx
  refine le_trans (le_of_eq ?_) (hM x y g' hx h1)
  rw [energy_eq, h2, hl]
  exact sum_congr rfl fun n hn => by rw [h3 n (by rw [hl]; exact mem_range.mp hn)]

/-- C170.  FirFilter with complex coefficients. -/
theorem C170_fir_complex_sharp (b : List ℂ) (hb : b ≠ []) (M : ℝ) (hM0 : 0 ≤ M)
    (hM : ∀ f x y f', Fir.new id b none = .ok f → x ≠ [] → f.filter x = (.ok y, f') → energy y ≤ M ^ 2 * energy x) (u : ℝ) : ‖dtftC b u‖ ≤ M := by
  refine energy_sharp _ u M _ (dtftC_limit b u) (complex_tone _ u M fun L x hl hL => ?_) hM0
  have hx : x ≠ [] := by intro h; rw [h] at hl; simp at hl; omega
  obtain ⟨f, y, f', h1, h2, h3, h4⟩ := C01_fir_convolution b x hb hx
  refine le_trans (le_of_eq ?_) (hM f x y f' h1 hx h2)
  rw [energy_eq, h3, hl]
  exact sum_congr rfl fun n hn => by rw [list_of_at0 y _ h3 _ h4 n (by rw [hl]; exact mem_range.mp hn)]

/-! ### Designs -/

theorem dtft_continuous (c : List ℝ) : Continuous (dtft c) := by
  unfold dtft
  fun_prop

/-- A bound between zero frequency and Nyquist holds at both of them. -/
theorem response_closed (a b : List ℝ) (h0 : at0 a 0 = 0) (ha : a ≠ []) (hst : Stable a) (M : ℝ) (h : ∀ u, 0 < u → u < 1 → ‖freqResp a b u‖ ≤ M) (u : ℝ) (u0 : 0 ≤ u) (u1 : u ≤ 1) :
    ‖freqResp a b u‖ ≤ M := by
  have hc : Continuous (freqResp a b) := by
    unfold freqResp
    exact (dtft_continuous b).div (continuous_const.sub (dtft_continuous a)) fun u => (impulse_sum a b h0 ha hst u).1
  have hcl : IsClosed {v : ℝ | ‖freqResp a b v‖ ≤ M} := isClosed_le hc.norm continuous_const
  have hsub : Set.Ioo (0 : ℝ) 1 ⊆ {v : ℝ | ‖freqResp a b v‖ ≤ M} := fun v hv => h v hv.1 hv.2
  have := hcl.closure_subset_iff.mpr hsub
  rw [closure_Ioo (by norm_num)] at this
  exact this ⟨u0, u1⟩

/-- C170.  A Butterworth design multiplies the energy of no signal by more than the square of its gain. -/
theorem C170_butterworth (residue : List ℝ → List ℝ → List ℂ × List ℂ) (hres : ResidueSpec residue) (f : ℝ) (hf : 0 < f)
    (hf1 : f < 1) (order count : ℤ) (ho : 0 < order) (hcount : 0 < count) (complement : Bool) (gain : ℝ) :
    ∃ g, Iir.newDesign residue (some .butterworth) f order count complement gain none = .ok g ∧
      ∀ x : List ℝ, x ≠ [] → ∃ y g', g.filter x = (.ok y, g') ∧ y.length = x.length ∧ energy y ≤ gain ^ 2 * energy x := by
  obtain ⟨g, h1, h2, h3, h4, h5, -, h6, -⟩ := Iir.newDesign_spec residue hres .butterworth f hf hf1 order count ho hcount complement gain
  obtain ⟨g', κ, k1, k2, k3⟩ := C88_shape residue hres f hf hf1 order count ho hcount complement gain
  rw [h1] at k1
  cases k1
  refine ⟨g, h1, fun x hx => ?_⟩
  rw [← sq_abs gain]
  refine C170_iir g h2 h3 h4 h5 h6 |gain| (response_closed _ _ h5 (wf_ne h3) h6 _ fun u u0 u1 => ?_) x hx
  have key : ∀ θ, -1 < θ → θ < 1 → ‖freqResp g.a g.b (if complement then 1 - θ else θ)‖ ≤ |gain| := by
    intro θ t1 t2
    rw [k3 θ t1 t2]
    apply div_le_self (abs_nonneg _)
    rw [Real.one_le_sqrt, pow_mul]
    have : 0 ≤ ((κ * Real.tan (Real.pi * θ / 2)) ^ 2) ^ order.toNat := by positivity
    linarith
  cases complement
  · simpa using key u (by linarith) u1
  · simpa using key (1 - u) (by linarith) (by linarith)

/-- C170.  A Chebyshev design of odd order multiplies the energy of no signal by more than the square of its gain; one of even order by no more than 0.125 dB
in addition, and by that much for some signals, nearly. -/
theorem C170_chebyshev (residue : List ℝ → List ℝ → List ℂ × List ℂ) (hres : ResidueSpec residue) (f : ℝ) (hf : 0 < f)
    (hf1 : f < 1) (order count : ℤ) (ho : 0 < order) (hcount : 0 < count) (complement : Bool) (gain : ℝ) (hg : gain ≠ 0) (M : ℝ)
    (hM : M = if order.toNat % 2 = 1 then |gain| else |gain| * (10 : ℝ) ^ (0.125 / 20 : ℝ)) :
    ∃ g, Iir.newDesign residue (some .chebyshev) f order count complement gain none = .ok g ∧
      (∀ x : List ℝ, x ≠ [] → ∃ y g', g.filter x = (.ok y, g') ∧ y.length = x.length ∧ energy y ≤ M ^ 2 * energy x) ∧
      ∀ m, 0 ≤ m → m < M → ∃ x y g', x ≠ [] ∧ g.filter x = (.ok y, g') ∧ m ^ 2 * energy x < energy y := by
  have hM' : M = |gain| * chebHigh order.toNat := by
    rw [hM, chebHigh]; split <;> simp
  obtain ⟨g, h1, h2, h3, h4, h5, -, h6, -⟩ := Iir.newDesign_spec residue hres .chebyshev f hf hf1 order count ho hcount complement gain
  obtain ⟨g', κ, k1, k2, k3⟩ := C89_shape residue hres f hf hf1 order count ho hcount complement gain
  rw [h1] at k1
  cases k1
  refine ⟨g, h1, fun x hx => ?_, fun m m0 hm => ?_⟩
  · refine C170_iir g h2 h3 h4 h5 h6 M (response_closed _ _ h5 (wf_ne h3) h6 _ fun u u0 u1 => ?_) x hx
    have key : ∀ θ, -1 < θ → θ < 1 → ‖freqResp g.a g.b (if complement then 1 - θ else θ)‖ ≤ M := by
      intro θ t1 t2
      rw [k3 θ t1 t2, hM']
      apply mul_le_mul_of_nonneg_left _ (abs_nonneg _)
      have hr := ripple_pos
      unfold chebResponse chebHigh
      rw [cheb_zero_sq]
      split
      · refine (Real.sqrt_le_sqrt ?_).trans_eq Real.sqrt_one
        rw [mul_zero, add_zero, div_le_one (by positivity)]
        have : 0 ≤ ((10 : ℝ) ^ (0.0125 : ℝ) - 1) * (Polynomial.eval (κ * Real.tan (Real.pi * θ / 2)) (Polynomial.Chebyshev.T ℝ order.toNat)) ^ 2 := by positivity
        linarith
      · rw [← ten_sqrt]
        apply Real.sqrt_le_sqrt
        rw [mul_one, add_sub_cancel]
        apply div_le_self (by positivity)
        have : 0 ≤ ((10 : ℝ) ^ (0.0125 : ℝ) - 1) * (Polynomial.eval (κ * Real.tan (Real.pi * θ / 2)) (Polynomial.Chebyshev.T ℝ order.toNat)) ^ 2 := by positivity
        linarith
    cases complement
    · simpa using key u (by linarith) u1
    · simpa using key (1 - u) (by linarith) (by linarith)
  · by_contra hcon
    push Not at hcon
    have hs := C170_iir_sharp g h2 h3 h4 h5 h6 m m0 (fun x y g' hx hy => hcon x y g' hx hy)
    obtain ⟨g', t, l1, l2, l3, l4, l5, l6, -⟩ := C89_equiripple residue hres f hf hf1 order count ho hcount complement gain hg
    rw [h1] at l1
    cases l1
    have h7 := l6 1 (by omega)
    have h8 := hs (if complement then 1 - t 1 else t 1)
    rw [h7, if_neg (by norm_num), ← hM'] at h8
    linarith

/-! ### The hypotheses hold -/

/-- The running mean of two samples, with the bound 1. -/
example (x : List ℝ) (hx : x ≠ []) := C170_fir [1 / 2, 1 / 2] (by simp) 1 (fun u _ _ => by
  unfold dtft
  refine (norm_sum_le _ _).trans ?_
  have hz : ∀ i : ℕ, ‖Complex.exp (-(Complex.I * Real.pi * u * i))‖ = 1 := fun i => by
    rw [show -(Complex.I * Real.pi * u * i) = ((-(Real.pi * u * i) : ℝ) : ℂ) * Complex.I by push_cast; ring, Complex.norm_exp_ofReal_mul_I]
  simp only [norm_mul, hz, mul_one]
  simp [sum_range_succ, at0]
  norm_num) x hx

/-- The bound 1 is met, so the response is at most 1 everywhere. -/
example (u : ℝ) := C170_fir_sharp [1] (by simp) 1 zero_le_one (fun f x y f' h1 hx h2 => by
  obtain ⟨e, z, e', k1, k2, k3, k4⟩ := C170_fir [1] (by simp) 1 (fun u _ _ => by simp [dtft, at0]) x hx
  rw [h1] at k1
  cases k1
  rw [h2] at k2
  cases k2
  exact k4) u

/-- A resonator with the pole i / 2 and the bound 2. -/
example (x : List ℂ) (hx : x ≠ []) := C170_iir_complex ⟨id, [0, Complex.I / 2], [1, 0], [0, 0]⟩ rfl ⟨rfl, rfl, by norm_num⟩ (by simp) (by simp [at0])
  (fun z hz => by
    simp [poleValue, at0] at hz
    rw [sub_eq_zero.mp hz]
    norm_num) 2
  (fun u => by
    have e : dtftC [0, Complex.I / 2] u = Complex.I / 2 * Complex.exp (-(Complex.I * Real.pi * u)) := by simp [dtftC, at0, sum_range_succ]
    have n1 : ‖dtftC [0, Complex.I / 2] u‖ = 1 / 2 := by
      rw [e, norm_mul, show -(Complex.I * Real.pi * u) = ((-(Real.pi * u) : ℝ) : ℂ) * Complex.I by push_cast; ring, Complex.norm_exp_ofReal_mul_I]
      norm_num
    have h1 : 1 / 2 ≤ ‖1 - dtftC [0, Complex.I / 2] u‖ := by
      have := norm_sub_norm_le (1 : ℂ) (dtftC [0, Complex.I / 2] u)
      rw [norm_one, n1] at this
      linarith
    have h2 : dtftC [1, 0] u = 1 := by simp [dtftC, at0, sum_range_succ]
    change ‖dtftC [1, 0] u / (1 - dtftC [0, Complex.I / 2] u)‖ ≤ 2
    rw [h2, norm_div, norm_one, div_le_iff₀ (by linarith)]
    linarith) x hx

/-- A signal and the energy of its output, 2 of 4. -/
example : ∃ f f', Fir.new id [(1 / 2 : ℝ), 1 / 2] none = .ok f ∧ f.filter [2, 0] = (.ok [1, 1], f') ∧ energy [(2 : ℝ), 0] = 4 ∧ energy [(1 : ℝ), 1] = 2 := by
  obtain ⟨f, y, f', h1, h2, h3, h4⟩ := C01_fir_convolution [(1 / 2 : ℝ), 1 / 2] [2, 0] (by simp) (by simp)
  refine ⟨f, f', h1, ?_, by simp [energy]; norm_num, by simp [energy]; norm_num⟩
  rw [h2]
  congr 2
  have e0 := h4 0 (by simp)
  have e1 := h4 1 (by simp)
  match y, h3, e0, e1 with
  | [a, b], _, e0, e1 => simp [at0, sum_range_succ] at e0 e1; subst e0; subst e1; rfl

example (residue : List ℝ → List ℝ → List ℂ × List ℂ) (hres : ResidueSpec residue) :=
  C170_butterworth residue hres 0.1 (by norm_num) (by norm_num) 4 1 (by norm_num) (by norm_num) false 1

example (residue : List ℝ → List ℝ → List ℂ × List ℂ) (hres : ResidueSpec residue) :=
  C170_chebyshev residue hres 0.1 (by norm_num) (by norm_num) 8 1 (by norm_num) (by norm_num) true 1 one_ne_zero _ rfl

end Verif.Props
