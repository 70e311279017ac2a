import Verif.Props.Spectral
import Verif.Props.Window

/-
Property C107: FourierTransform and PsdTransform (diamondback/transforms/fourier_transform.py, psd_transform.py) of a tone of any frequency through any window,
and the windows of WindowFilter (diamondback/filters/window_filter.py).
-/

namespace Verif.Props

open Verif Verif.Spec Finset Complex

/-- The spectrum of a window itself: `(1/N) ∑_n b_n exp(-jπ u n)`. -/
noncomputable def windowResponse (b : List ℂ) (u : ℝ) : ℂ := spectrumAt b.length (at0 b) (fun _ => 1) u

theorem at0_tone (A : ℂ) (f p : ℝ) (M n : ℕ) (h : n < M) : at0 (tone A f p M) n = A * phasor (p + f * (n : ℝ)) := by
  rw [at0_of_lt _ _ (by simpa [tone] using h)]
  simp [tone]

theorem spectrum_tone (b : List ℂ) (A : ℂ) (f p g : ℝ) (M m : ℕ) (h : m + b.length ≤ M) :
    spectrumAt b.length (at0 b) (fun n => at0 (tone A f p M) (m + n)) g = A * phasor (p + f * m) * windowResponse b (g - f) := by
  unfold windowResponse spectrumAt
  rw [mul_div_assoc', mul_sum]
  congr 1
  refine sum_congr rfl fun n hn => ?_
  have := mem_range.mp hn
  simp only
  rw [at0_tone _ _ _ _ _ (by omega), show p + f * ((m + n : ℕ) : ℝ) = (p + f * m) + f * n by push_cast; ring, phasor_add (p + f * m) (f * n), show -((g - f) * (n : ℝ)) = f * n + -(g * n) by ring, phasor_add (f * n) (-(g * n))]
  ring

/-- C107: every value of FourierTransform of a tone is its amplitude and starting phase times the spectrum of the window at the difference of the frequencies. -/
theorem C107_fourier (b : List ℂ) (hb : ∃ v ∈ b, 1e-8 < ‖v‖) (heven : Even b.length) (A : ℂ) (f p : ℝ) (M : ℕ) (hM : b.length ≤ M) :
    ∃ y fr, fourier (tone A f p M) b false = .ok (y, fr) ∧ y.length = b.length ∧
      ∀ k < b.length, ∃ fk, fr[k]? = some fk ∧ fk = -1 + 2 * (k : ℝ) / b.length ∧ y[k]? = some (A * phasor p * windowResponse b (fk - f)) := by
  obtain ⟨y, fr, h1, h2, h3, h4⟩ := C41_fourier_axis_even (tone A f p M) b (by simpa [tone] using hM) hb heven
  refine ⟨y, fr, h1, h2, fun k hk => ?_⟩
  obtain ⟨fk, e1, e2, e3⟩ := h4 k hk
  refine ⟨fk, e1, e2, ?_⟩
  have := spectrum_tone b A f p fk M 0 (by omega)
  simp only [Nat.zero_add, Nat.cast_zero, mul_zero, add_zero] at this
  rw [e3, ← this]

/-- A window of four samples and a tone of nine. -/
example := C107_fourier [1, 2, 2, 1] ⟨1, by simp, by rw [norm_one]; norm_num⟩ ⟨2, rfl⟩ 2 (1 / 3) 0 9 (by simp)

/-- C107: the power spectral density of a tone depends neither on its phase nor on the length of the signal nor on the stride of the frames. -/
theorem C107_psd (b : List ℂ) (hb : ∃ v ∈ b, 1e-8 < ‖v‖) (A : ℂ) (f p : ℝ) (M : ℕ) (hM : b.length ≤ M) (index : ℕ) (hi : 0 < index) :
    ∃ y s fr, psd (tone A f p M) b index false = .ok (.mean y, fr) ∧ psd (tone A f p M) b index true = .ok (.spectrogram s, fr) ∧ y.length = b.length / 2 ∧
      (∀ k < b.length / 2, y[k]? = some (‖A‖ ^ 2 * ‖windowResponse b (2 * k / b.length - f)‖ ^ 2)) ∧ s.length = (M - b.length) / index + 1 ∧ ∀ r ∈ s, r = y := by
  have hlen : (tone A f p M).length = M := by simp [tone]
  have hpos : 0 < b.length := by obtain ⟨v, hv, -⟩ := hb; exact List.length_pos_of_mem hv
  obtain ⟨y, fr, h1, h2, h3, h4⟩ := C42_psd_mean (tone A f p M) b index hi (by omega) hb
  obtain ⟨s, fr', k1, k2, k3⟩ := C42_psd_spectrogram (tone A f p M) b index hi (by omega) hb
  rw [hlen] at h4 k2 k3
  have hfr : fr' = fr := by
    have e1 := h1
    have e2 := k1
    unfold psd at e1 e2
    split at e1
    · cases e1
    · rename_i c1
      rw [if_neg c1] at e2
      split at e1
      · cases e1
      · rename_i c2
        rw [if_neg c2] at e2
        split at e1
        · cases e1
        · rename_i c3
          rw [if_neg c3] at e2
          split at e1
          · cases e1
          · rename_i c4
            rw [if_neg c4] at e2
            simp at e1 e2
            rw [← e1.2, ← e2.2]
  subst hfr
  have hpow : ∀ i < (M - b.length) / index + 1, ∀ k, framePower (tone A f p M) b index i k = ‖A‖ ^ 2 * ‖windowResponse b (2 * k / b.length - f)‖ ^ 2 := by
    intro i hii k
    have hil : i * index + b.length ≤ M := by
      have h1 : i * index ≤ (M - b.length) / index * index := Nat.mul_le_mul_right _ (by omega)
      have h2 := Nat.div_mul_le_self (M - b.length) index
      omega
    rw [framePower, spectrum_tone b A f p _ M (i * index) hil, norm_mul, norm_mul, phasor_norm, mul_one, mul_pow]
  have hy : ∀ k < b.length / 2, y[k]? = some (‖A‖ ^ 2 * ‖windowResponse b (2 * k / b.length - f)‖ ^ 2) := by
    intro k hk
    obtain ⟨v, v1, -, v3⟩ := h4 k hk
    rw [v1, v3, sum_congr rfl fun i hi => hpow i (mem_range.mp hi) k, sum_const, card_range, nsmul_eq_mul, mul_div_cancel_left₀ _ (Nat.cast_ne_zero.mpr (Nat.succ_ne_zero _))]
  refine ⟨y, s, fr', h1, k1, h2, hy, k2, fun r hr => ?_⟩
  obtain ⟨i, hi', rfl⟩ := List.getElem_of_mem hr
  obtain ⟨r', r1, r2, r3⟩ := k3 i (by omega)
  rw [List.getElem?_eq_getElem hi'] at r1
  cases r1
  refine List.ext_getElem? fun k => ?_
  by_cases hk : k < b.length / 2
  · rw [r3 k hk, hy k hk, hpow i (by omega) k]
  · rw [List.getElem?_eq_none (by omega), List.getElem?_eq_none (by omega)]

/-- A window of three samples and a tone of nine. -/
example := C107_psd [1, 2, 1] ⟨1, by simp, by rw [norm_one]; norm_num⟩ 2 (1 / 3) 0 9 (by simp) 2 (by norm_num)

/-- The spectrum of a nonnegative window is largest at frequency zero. -/
theorem windowResponse_le (w : List ℝ) (h0 : ∀ n, 0 ≤ at0 w n) (u : ℝ) : ‖windowResponse (w.map (↑)) u‖ ≤ (∑ n ∈ range w.length, at0 w n) / w.length := by
  unfold windowResponse spectrumAt
  rw [norm_div, List.length_map, Complex.norm_natCast]
  refine div_le_div_of_nonneg_right ?_ (by positivity)
  refine (norm_sum_le _ _).trans (sum_le_sum fun n hn => ?_)
  have := mem_range.mp hn
  rw [mul_one, norm_mul, phasor_norm, mul_one, at0_of_lt _ _ (by simpa using this), at0_of_lt _ _ this, List.getElem_map, Complex.norm_real, Real.norm_eq_abs]
  have := h0 n
  rw [at0_of_lt _ _ (by assumption)] at this
  rw [abs_of_nonneg this]

theorem windowResponse_zero (w : List ℝ) : windowResponse (w.map (↑)) 0 = (((∑ n ∈ range w.length, at0 w n) / w.length : ℝ) : ℂ) := by
  unfold windowResponse spectrumAt
  rw [List.length_map]
  push_cast
  congr 1
  refine sum_congr rfl fun n hn => ?_
  have := mem_range.mp hn
  rw [zero_mul, neg_zero, show phasor 0 = 1 by simp [phasor], mul_one, mul_one, at0_of_lt _ _ (by simpa using this), at0_of_lt _ _ this, List.getElem_map]

/-- C107: with a normalised window of WindowFilter the FourierTransform of a tone on the axis has exactly the amplitude and phase of the tone at its frequency, and no value of the transform of any tone is larger
than its amplitude.  So has the power spectral density with the squared amplitude. -/
theorem C107_window (style : WStyle) (order : ℕ) (hodd : Odd order) (hdeg : ¬ ((style = .blackman ∨ style = .hann) ∧ order = 1)) (A : ℂ) (f p : ℝ) (M : ℕ) (hM : order + 1 ≤ M) (index : ℕ) (hi : 0 < index) :
    ∃ w y fr z fz, Window.new (some style) order true = .ok (some w) ∧ fourier (tone A f p M) (w.b.map (↑)) false = .ok (y, fr) ∧ psd (tone A f p M) (w.b.map (↑)) index false = .ok (.mean z, fz) ∧
      y.length = order + 1 ∧ z.length = (order + 1) / 2 ∧
      (∀ v ∈ y, ‖v‖ ≤ ‖A‖) ∧ (∀ v ∈ z, v ≤ ‖A‖ ^ 2) ∧
      (∀ k : ℕ, fr[k]? = some f → y[k]? = some (A * phasor p)) ∧ ∀ k : ℕ, fz[k]? = some f → z[k]? = some (‖A‖ ^ 2) := by
  obtain ⟨w, hw, hmean⟩ := C39_window_normal style order hdeg
  obtain ⟨hlen, -, hnn⟩ := C39_window_symmetric style order true w hw
  have hsum : (∑ n ∈ range w.b.length, at0 w.b n) / w.b.length = 1 := by
    rw [hlen]
    push_cast
    refine Eq.trans ?_ hmean
    congr 1
    exact sum_congr rfl fun n _ => (abs_of_nonneg (hnn n)).symm
  have hb : ∃ v ∈ (w.b.map (↑) : List ℂ), 1e-8 < ‖v‖ := by
    by_contra hc
    push Not at hc
    have : ∑ n ∈ range w.b.length, at0 w.b n ≤ ∑ n ∈ range w.b.length, (1e-8 : ℝ) := by
      refine sum_le_sum fun n hn => ?_
      have hn := mem_range.mp hn
      have := hc ((w.b[n] : ℝ) : ℂ) (List.mem_map.mpr ⟨_, List.getElem_mem hn, rfl⟩)
      rw [Complex.norm_real, Real.norm_eq_abs] at this
      rw [at0_of_lt _ _ hn]
      exact (le_abs_self _).trans this
    have hl : (0 : ℝ) < w.b.length := by rw [hlen]; positivity
    rw [div_eq_one_iff_eq hl.ne'] at hsum
    rw [hsum, sum_const, card_range, nsmul_eq_mul] at this
    nlinarith
  have hl : (w.b.map (↑) : List ℂ).length = order + 1 := by simpa using hlen
  have heven : Even (w.b.map (↑) : List ℂ).length := by rw [hl]; exact hodd.add_one
  obtain ⟨y, fr, h1, h2, h3⟩ := C107_fourier _ hb heven A f p M (by omega)
  obtain ⟨z, s, fz, k1, -, k2, k3, -⟩ := C107_psd _ hb A f p M (by omega) index hi
  have hle : ∀ u, ‖windowResponse (w.b.map (↑)) u‖ ≤ 1 := fun u => hsum ▸ windowResponse_le w.b hnn u
  have hz : windowResponse (w.b.map (↑)) 0 = 1 := by rw [windowResponse_zero, hsum, Complex.ofReal_one]
  have hfz : fz.length = (order + 1) / 2 := by
    obtain ⟨_, _, q1, -, q2, -⟩ := C42_psd_mean (tone A f p M) _ index hi (by simp [tone]; omega) hb
    rw [k1] at q1
    cases q1
    rw [q2, hl]
  have hfr : fr.length = order + 1 := by
    obtain ⟨_, _, q1, -, q2, -⟩ := C41_fourier_axis_even (tone A f p M) _ (by simp [tone]; omega) hb heven
    rw [h1] at q1
    cases q1
    rw [q2, hl]
  refine ⟨w, y, fr, z, fz, hw, h1, k1, by omega, by omega, ?_, ?_, ?_, ?_⟩
  · intro v hv
    obtain ⟨k, hk, rfl⟩ := List.getElem_of_mem hv
    obtain ⟨fk, -, -, e⟩ := h3 k (by omega)
    rw [List.getElem?_eq_getElem hk] at e
    rw [Option.some_inj.mp e, norm_mul, norm_mul, phasor_norm, mul_one]
    exact mul_le_of_le_one_right (norm_nonneg _) (hle _)
  · intro v hv
    obtain ⟨k, hk, rfl⟩ := List.getElem_of_mem hv
    have e := k3 k (by omega)
    rw [List.getElem?_eq_getElem hk] at e
    rw [Option.some_inj.mp e]
    exact mul_le_of_le_one_right (by positivity) (pow_le_one₀ (norm_nonneg _) (hle _))
  · intro k hk
    obtain ⟨hk', -⟩ := List.getElem?_eq_some_iff.mp hk
    obtain ⟨fk, e1, -, e⟩ := h3 k (by omega)
    rw [hk] at e1
    cases e1
    rw [e, sub_self, hz, mul_one]
  · intro k hk
    obtain ⟨hk', -⟩ := List.getElem?_eq_some_iff.mp hk
    have e := C42_psd_axis_even _ _ _ _ _ _ k1 heven k (by omega)
    rw [hk] at e
    rw [k3 k (by omega), ← Option.some_inj.mp e, sub_self, hz, norm_one, one_pow, mul_one]

/-- A tone of the frequency 1/2, on the axis of a window of 4 coefficients. -/
example : ∃ w y fr z fz, Window.new (some .hamming) 3 true = .ok (some w) ∧ fourier (tone 2 (1 / 2) 0 9) (w.b.map (↑)) false = .ok (y, fr) ∧ psd (tone 2 (1 / 2) 0 9) (w.b.map (↑)) 1 false = .ok (.mean z, fz) ∧
    y[3]? = some (2 * phasor 0) ∧ z[1]? = some (‖(2 : ℂ)‖ ^ 2) := by
  obtain ⟨w, y, fr, z, fz, h1, h2, h3, h4, h5, -, -, h6, h7⟩ := C107_window .hamming 3 (by decide) (by simp) 2 (1 / 2) 0 9 (by norm_num) 1 one_pos
  have hl : (w.b.map (↑) : List ℂ).length = 4 := by simpa using (C39_window_symmetric .hamming 3 true w h1).1
  refine ⟨w, y, fr, z, fz, h1, h2, h3, h6 3 ?_, h7 1 ?_⟩
  · have hfr : fr = linspace (-1) (1 - 2 / ((4 : ℕ) : ℝ)) 4 := by
      unfold fourier at h2
      split at h2
      · cases h2
      · split at h2
        · cases h2
        · simp only [Bool.false_eq_true, if_false] at h2
          have h2 := (Prod.mk.inj (Except.ok.inj h2)).2
          rw [← h2, List.length_take, hl]
          simp [tone]
    rw [hfr]
    simp [linspace]
    norm_num
  · have e := C42_psd_axis_even _ _ _ _ _ _ h3 (by rw [hl]; decide) 1 (by rw [hl]; decide)
    rw [e, hl]
    norm_num

end Verif.Props
