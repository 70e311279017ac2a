import Verif.Props.FrequencyRange
import Mathlib.Analysis.SpecialFunctions.Trigonometric.Inverse
import Mathlib.Analysis.SpecialFunctions.Trigonometric.Bounds
import Mathlib.Analysis.Real.Pi.Bounds
import Mathlib.Tactic.IntervalCases

/- Property C135: the estimate of ComplexFrequencyFilter (diamondback/filters/complex_frequency_filter.py) for a tone with noise. -/

namespace Verif.Props

open Finset Spec Complex

/-- Noise of relative amplitude `ε` turns a sample by no more than `arcsin ε`. -/
theorem arg_one_add_le (w : ℂ) (ε : ℝ) (hw : ‖w‖ ≤ ε) (h1 : ε < 1) : |(1 + w).arg| ≤ Real.arcsin ε ∧ 1 + w ≠ 0 := by
  have h0 : 0 ≤ ε := (norm_nonneg _).trans hw
  have hre : |w.re| ≤ ε := (Complex.abs_re_le_norm w).trans hw
  have hre' := abs_le.mp hre
  have hpos : 0 < (1 + w).re := by rw [Complex.add_re, Complex.one_re]; linarith [hre'.1]
  have hne : 1 + w ≠ 0 := by intro h; rw [h, Complex.zero_re] at hpos; exact lt_irrefl _ hpos
  refine ⟨?_, hne⟩
  have hn : 0 < ‖1 + w‖ := norm_pos_iff.mpr hne
  rw [Complex.arg_of_re_nonneg hpos.le]
  have hsq : w.re * w.re + w.im * w.im ≤ ε ^ 2 := by
    rw [← Complex.normSq_apply, Complex.normSq_eq_norm_sq]
    exact pow_le_pow_left₀ (norm_nonneg _) hw 2
  have him : |(1 + w).im| ≤ ε * ‖1 + w‖ := by
    apply abs_le_of_sq_le_sq _ (by positivity)
    rw [mul_pow, ← Complex.normSq_eq_norm_sq, Complex.normSq_apply]
    simp only [Complex.add_re, Complex.one_re, Complex.add_im, Complex.one_im, zero_add]
    generalize w.re = a at *
    generalize w.im = b at *
    have h1' : 0 ≤ 1 - ε ^ 2 := by nlinarith
    nlinarith [sq_nonneg (ε ^ 2 + a), mul_nonneg h1' (sub_nonneg.mpr hsq)]
  have hq : |(1 + w).im / ‖1 + w‖| ≤ ε := by rw [abs_div, abs_of_pos hn, div_le_iff₀ hn]; exact him
  rw [abs_le] at hq ⊢
  constructor
  · rw [← Real.arcsin_neg]
    exact Real.monotone_arcsin hq.1
  · exact Real.monotone_arcsin hq.2

/-- The instantaneous frequency between two noisy samples of a tone. -/
theorem instantaneous_noise (A a b : ℂ) (hA : A ≠ 0) (ε f t : ℝ) (h1 : ε < 1) (ha : ‖a - A * phasor t‖ ≤ ε * ‖A‖) (hb : ‖b - A * phasor (t + f)‖ ≤ ε * ‖A‖)
    (hf : |f| + 2 * Real.arcsin ε / Real.pi < 1) : |instantaneous a b - f| ≤ 2 * Real.arcsin ε / Real.pi := by
  have hpi := Real.pi_pos
  have hAn : 0 < ‖A‖ := norm_pos_iff.mpr hA
  have hrel : ∀ (x : ℂ) (s : ℝ), ‖x - A * phasor s‖ ≤ ε * ‖A‖ → ∃ w : ℂ, ‖w‖ ≤ ε ∧ x = A * phasor s * (1 + w) := by
    intro x s hx
    have hne : A * phasor s ≠ 0 := mul_ne_zero hA (norm_pos_iff.mp (by rw [phasor_norm]; exact one_pos))
    refine ⟨(x - A * phasor s) / (A * phasor s), ?_, by rw [mul_add, mul_one, mul_div_cancel₀ _ hne]; ring⟩
    rw [norm_div, norm_mul, phasor_norm, mul_one, div_le_iff₀ hAn]
    exact hx
  obtain ⟨v, hv, rfl⟩ := hrel a t ha
  obtain ⟨w, hw, rfl⟩ := hrel b (t + f) hb
  obtain ⟨v1, v2⟩ := arg_one_add_le v ε hv h1
  obtain ⟨w1, w2⟩ := arg_one_add_le w ε hw h1
  have hpol : ∀ z : ℂ, z ≠ 0 → z = ‖z‖ * phasor (z.arg / Real.pi) := by
    intro z hz
    rw [phasor_angle z hz, mul_div_cancel₀]
    exact_mod_cast norm_ne_zero_iff.mpr hz
  have hcon : ∀ s : ℝ, (starRingEnd ℂ) (phasor s) = phasor (-s) := by
    intro s
    rw [phasor, phasor, ← Complex.exp_conj]
    congr 1
    simp only [map_mul, Complex.conj_I, Complex.conj_ofReal]
    push_cast; ring
  have e : A * phasor (t + f) * (1 + w) * (starRingEnd ℂ) (A * phasor t * (1 + v)) =
      ((‖A‖ ^ 2 * ‖1 + w‖ * ‖1 + v‖ : ℝ) : ℂ) * phasor (f + ((1 + w).arg / Real.pi - (1 + v).arg / Real.pi)) := by
    conv_lhs => rw [hpol _ w2, hpol _ v2]
    simp only [map_mul, Complex.conj_ofReal, hcon]
    have hAA : A * (starRingEnd ℂ) A = ((‖A‖ ^ 2 : ℝ) : ℂ) := by rw [Complex.mul_conj, Complex.normSq_eq_norm_sq]
    rw [show f + ((1 + w).arg / Real.pi - (1 + v).arg / Real.pi) = (t + f) + (1 + w).arg / Real.pi + -t + -((1 + v).arg / Real.pi) by ring]
    simp only [phasor_add]
    push_cast at hAA ⊢
    linear_combination (phasor t * phasor f * phasor ((1 + w).arg / Real.pi) * phasor (-t) * phasor (-((1 + v).arg / Real.pi)) * ‖1 + w‖ * ‖1 + v‖) * hAA
  have hδ : |(1 + w).arg / Real.pi - (1 + v).arg / Real.pi| ≤ 2 * Real.arcsin ε / Real.pi := by
    rw [← sub_div, abs_div, abs_of_pos hpi]
    apply div_le_div_of_nonneg_right _ hpi.le
    calc |(1 + w).arg - (1 + v).arg| ≤ |(1 + w).arg| + |(1 + v).arg| := abs_sub _ _
      _ ≤ 2 * Real.arcsin ε := by linarith
  have hρ : 0 < ‖A‖ ^ 2 * ‖1 + w‖ * ‖1 + v‖ := by
    have := norm_pos_iff.mpr w2
    have := norm_pos_iff.mpr v2
    positivity
  unfold instantaneous
  rw [e, Complex.arg_real_mul _ hρ]
  have hd := abs_le.mp hδ
  have hff := abs_le.mp (le_refl |f|)
  rw [phasor_arg _ (by linarith [hff.1]) (by linarith [hff.2])]
  rwa [add_sub_cancel_left]

theorem geom_weight (r : ℝ) (n : ℕ) : ∑ i ∈ range n, r * (1 - r) ^ (n - 1 - i) = 1 - (1 - r) ^ n := by
  induction n with
  | zero => simp
  | succ n ih =>
    rw [sum_range_succ', sum_congr rfl (g := fun i => r * (1 - r) ^ (n - 1 - i)) (fun i hi => by congr 2; omega), ih]
    rw [show n + 1 - 1 - 0 = n by omega, pow_succ]
    ring

/-- C135.  A tone of frequency `f` and amplitude `|A|` with noise of magnitude at most `ε |A|` on every sample, from any state with a coefficient of magnitude at
most one: as soon as `(1 - rate)^(n - 1) ≤ σ / (1 + σ)` with `σ = sin(π η)`, the estimate is within `2 arcsin(ε) / π + η` of `f`. -/
theorem C135_noise (hilbert : List ℂ → List ℂ) (g : FreqF) (hs : ‖g.s‖ = 1) (hb : ‖g.b‖ ≤ 1) (h0 : 0 ≤ g.rate) (h1 : g.rate ≤ 1) (d : List ℂ) (hd : d ≠ [])
    (A : ℂ) (f p ε η : ℝ) (hε0 : 0 ≤ ε) (hε : ε < 1) (hbig : 1e-8 < (1 - ε) * ‖A‖)
    (hx : ∀ n < (prepare hilbert d).length, ‖at0 (prepare hilbert d) n - A * phasor (p + f * n)‖ ≤ ε * ‖A‖)
    (hη : 0 < η) (hw : 2 * Real.arcsin ε / Real.pi + η < 1 / 2) (hf : |f| + 2 * Real.arcsin ε / Real.pi + η < 1) :
    ∃ out g', g.filter hilbert d = (.ok out, g') ∧ out.length = (prepare hilbert d).length ∧ ∀ n < out.length, 1 ≤ n →
      (1 - g.rate) ^ (n - 1) * (1 + Real.sin (Real.pi * η)) ≤ Real.sin (Real.pi * η) →
        ∃ y e b, out[n]? = some (y, e, b) ∧ |y - f| ≤ 2 * Real.arcsin ε / Real.pi + η := by
  have hpi := Real.pi_pos
  set q := prepare hilbert d with hq
  set δ := 2 * Real.arcsin ε / Real.pi with hδ
  have hA : A ≠ 0 := by
    rintro rfl
    rw [norm_zero, mul_zero] at hbig
    norm_num at hbig
  have hAn : 0 < ‖A‖ := norm_pos_iff.mpr hA
  have hat : ∀ n (hn : n < q.length), at0 q n = q[n] := fun n hn => by simp [at0, hn]
  have hp : ∀ v ∈ q, 1e-8 < ‖v‖ := by
    intro v hv
    obtain ⟨n, hn, rfl⟩ := List.mem_iff_getElem.mp hv
    have := hx n hn
    rw [hat n hn] at this
    have h2 := norm_sub_norm_le (A * phasor (p + f * n)) q[n]
    rw [norm_mul, phasor_norm, mul_one, norm_sub_rev] at h2
    linarith
  have hδ0 : 0 ≤ δ := by
    rw [hδ]
    have := Real.arcsin_nonneg.mpr hε0
    positivity
  obtain ⟨out, g', g1, g2, g3⟩ := C103_average hilbert g hs d hd hp
  refine ⟨out, g', g1, g2, fun n hn hn1 hk => ?_⟩
  rw [g2, ← hq] at hn
  obtain ⟨y, e, b, k1, k2, k3⟩ := g3 n (by rw [← hq]; exact hn)
  refine ⟨y, e, b, k1, ?_⟩
  rw [← hq] at k3
  set ν : ℕ → ℝ := fun i => instantaneous (at0 (g.s :: q) i) (at0 q i) with hν
  have hνf : ∀ i, 1 ≤ i → i < q.length → |ν i - f| ≤ δ := by
    intro i hi hil
    obtain ⟨j, rfl⟩ : ∃ j, i = j + 1 := ⟨i - 1, by omega⟩
    have e1 : at0 (g.s :: q) (j + 1) = at0 q j := by simp [at0]
    rw [hν]
    simp only
    rw [e1]
    refine instantaneous_noise A _ _ hA ε f (p + f * j) hε (hx j (by omega)) ?_ (by rw [← hδ]; linarith)
    have := hx (j + 1) hil
    rwa [show p + f * ((j + 1 : ℕ) : ℝ) = p + f * j + f by push_cast; ring] at this
  obtain ⟨m, rfl⟩ : ∃ m, n = m + 1 := ⟨n - 1, by omega⟩
  rw [Nat.add_sub_cancel] at hk
  set κ := (1 - g.rate) ^ m with hκ
  have hr0 : 0 ≤ 1 - g.rate := by linarith
  have hκ0 : 0 ≤ κ := pow_nonneg hr0 _
  set σ := Real.sin (Real.pi * η) with hσ
  have hσ0 : 0 < σ := Real.sin_pos_of_pos_of_lt_pi (by positivity) (by nlinarith)
  -- the part before the second sample of the tone, and the rest
  obtain ⟨D, hD⟩ : ∃ D : ℂ, D = (1 - g.rate) ^ (m + 1) * g.b + g.rate * (1 - g.rate) ^ m * phasor (ν 0) := ⟨_, rfl⟩
  obtain ⟨C, hC⟩ : ∃ C : ℂ, C = ∑ i ∈ range m, ((g.rate * (1 - g.rate) ^ (m - 1 - i) : ℝ) : ℂ) * phasor (ν (i + 1)) := ⟨_, rfl⟩
  have hbCD : b = C + D := by
    rw [k3, sum_range_succ', hC, hD]
    rw [sum_congr rfl (g := fun i => ((g.rate * (1 - g.rate) ^ (m - 1 - i) : ℝ) : ℂ) * phasor (ν (i + 1))) (fun i hi => by
      rw [show m + 1 - 1 - (i + 1) = m - 1 - i by omega]; push_cast; rfl)]
    rw [show m + 1 - 1 - 0 = m by omega]
    ring
  have hDn : ‖D‖ ≤ κ := by
    have e1 : ‖((1 - g.rate : ℝ) : ℂ)‖ = 1 - g.rate := by rw [Complex.norm_real, Real.norm_eq_abs, abs_of_nonneg hr0]
    have e2 : ‖(g.rate : ℂ)‖ = g.rate := by rw [Complex.norm_real, Real.norm_eq_abs, abs_of_nonneg h0]
    push_cast at e1
    rw [hD]
    refine (norm_add_le _ _).trans ?_
    rw [norm_mul, norm_mul, norm_mul, norm_pow, norm_pow, e1, e2, phasor_norm, mul_one, pow_succ]
    have : (1 - g.rate) ^ m * (1 - g.rate) * ‖g.b‖ ≤ (1 - g.rate) ^ m * (1 - g.rate) * 1 := mul_le_mul_of_nonneg_left hb (by positivity)
    rw [hκ]
    linarith
  have hweight : ∑ i ∈ range m, g.rate * (1 - g.rate) ^ (m - 1 - i) = 1 - κ := geom_weight g.rate m
  have hmul : ∀ s : ℝ, C * phasor s = ∑ i ∈ range m, ((g.rate * (1 - g.rate) ^ (m - 1 - i) : ℝ) : ℂ) * phasor (ν (i + 1) + s) := by
    intro s
    rw [hC, sum_mul]
    apply sum_congr rfl
    intro i _
    rw [mul_assoc, ← phasor_add]
  have hsum : ∀ (v : ℕ → ℝ) (c : ℝ), (∀ i < m, c ≤ v i) → (1 - κ) * c ≤ ∑ i ∈ range m, g.rate * (1 - g.rate) ^ (m - 1 - i) * v i := by
    intro v c hv
    rw [← hweight, sum_mul]
    apply sum_le_sum
    intro i hi
    exact mul_le_mul_of_nonneg_left (hv i (mem_range.mp hi)) (by positivity)
  have hDs : ∀ s : ℝ, |(D * phasor s).re| ≤ κ ∧ |(D * phasor s).im| ≤ κ := by
    intro s
    have e1 : ‖D * phasor s‖ ≤ κ := by rw [norm_mul, phasor_norm, mul_one]; exact hDn
    exact ⟨(Complex.abs_re_le_norm _).trans e1, (Complex.abs_im_le_norm _).trans e1⟩
  have hsin : ∀ x : ℝ, η ≤ x → x ≤ 1 - η → σ ≤ Real.sin (Real.pi * x) := by
    intro x hx1 hx2
    rcases le_total x (1 / 2) with h | h
    · exact Real.sin_le_sin_of_le_of_le_pi_div_two (by nlinarith) (by nlinarith) (by nlinarith)
    · rw [show Real.pi * x = Real.pi - Real.pi * (1 - x) by ring, Real.sin_pi_sub]
      exact Real.sin_le_sin_of_le_of_le_pi_div_two (by nlinarith) (by nlinarith) (by nlinarith)
  have hκσ : κ ≤ (1 - κ) * σ := by linarith
  have hsec : Sector (f - (δ + η)) (f + (δ + η)) b := by
    rw [sector_iff _ _ (by linarith) (by linarith), hbCD]
    simp only [add_mul, Complex.add_im, Complex.add_re, hmul, Complex.im_sum, Complex.re_sum, Complex.im_ofReal_mul, Complex.re_ofReal_mul, phasor_im, phasor_re]
    refine ⟨?_, ?_, ?_⟩
    · have a1 := hsum (fun i => Real.sin (Real.pi * (ν (i + 1) + -(f - (δ + η))))) σ (fun i hi => by
        have := abs_le.mp (hνf (i + 1) (by omega) (by omega))
        exact hsin _ (by linarith [this.1]) (by linarith [this.2]))
      have a2 := abs_le.mp (hDs (-(f - (δ + η)))).2
      linarith [a2.1]
    · have a1 := hsum (fun i => -Real.sin (Real.pi * (ν (i + 1) + -(f + (δ + η))))) σ (fun i hi => by
        have := abs_le.mp (hνf (i + 1) (by omega) (by omega))
        rw [← Real.sin_neg, ← mul_neg]
        exact hsin _ (by linarith [this.2]) (by linarith [this.1]))
      have a2 := abs_le.mp (hDs (-(f + (δ + η)))).2
      simp only [mul_neg, sum_neg_distrib] at a1
      linarith [a2.2]
    · have a0 : σ < Real.cos (Real.pi * δ) := by
        rw [hσ, ← Real.cos_pi_div_two_sub]
        exact Real.cos_lt_cos_of_nonneg_of_le_pi (by positivity) (by nlinarith) (by nlinarith)
      have a1 := hsum (fun i => Real.cos (Real.pi * (ν (i + 1) + -((f - (δ + η) + (f + (δ + η))) / 2)))) (Real.cos (Real.pi * δ)) (fun i hi => by
        have h3 := hνf (i + 1) (by omega) (by omega)
        rw [show ν (i + 1) + -((f - (δ + η) + (f + (δ + η))) / 2) = ν (i + 1) - f by ring, ← Real.cos_abs (Real.pi * (ν (i + 1) - f)), abs_mul, abs_of_pos hpi]
        exact Real.cos_le_cos_of_nonneg_of_le_pi (by positivity) (by nlinarith) (mul_le_mul_of_nonneg_left h3 hpi.le))
      have a2 := abs_le.mp (hDs (-((f - (δ + η) + (f + (δ + η))) / 2))).1
      have a3 : κ < 1 := by nlinarith
      nlinarith [a2.1]
  have hff := abs_le.mp (le_refl |f|)
  have := sector_arg _ _ (by linarith [hff.1]) (by linarith [hff.2]) b hsec
  rw [k2, abs_le]
  exact ⟨by linarith [this.1], by linarith [this.2]⟩

/-- C135.  From any such state, for every `η > 0`, all estimates after a number of samples that depends on the rate and `η` only are within
`2 arcsin(ε) / π + η` of the frequency. -/
theorem C135_settles (rate η : ℝ) (h0 : 0 < rate) (h1 : rate ≤ 1) (hη : 0 < η) (hη1 : η < 1) : ∃ n0, ∀ (hilbert : List ℂ → List ℂ) (g : FreqF), g.rate = rate → ‖g.s‖ = 1 → ‖g.b‖ ≤ 1 →
    ∀ (d : List ℂ) (A : ℂ) (f p ε : ℝ), d ≠ [] → 0 ≤ ε → ε < 1 → 1e-8 < (1 - ε) * ‖A‖ →
      (∀ n < (prepare hilbert d).length, ‖at0 (prepare hilbert d) n - A * phasor (p + f * n)‖ ≤ ε * ‖A‖) →
      2 * Real.arcsin ε / Real.pi + η < 1 / 2 → |f| + 2 * Real.arcsin ε / Real.pi + η < 1 →
      ∃ out g', g.filter hilbert d = (.ok out, g') ∧ out.length = (prepare hilbert d).length ∧ ∀ n < out.length, n0 ≤ n →
        ∃ y e b, out[n]? = some (y, e, b) ∧ |y - f| ≤ 2 * Real.arcsin ε / Real.pi + η := by
  have hpi := Real.pi_pos
  have hσ0 : 0 < Real.sin (Real.pi * η) := Real.sin_pos_of_pos_of_lt_pi (by positivity) (by nlinarith)
  obtain ⟨m, hm⟩ := exists_pow_lt_of_lt_one (y := 1 - rate) (div_pos hσ0 (by linarith : 0 < 1 + Real.sin (Real.pi * η))) (by linarith)
  refine ⟨m + 1, fun hilbert g hr hs hb d A f p ε hd e0 e1 hA hx hw hf => ?_⟩
  obtain ⟨out, g', g1, g2, g3⟩ := C135_noise hilbert g hs hb (by rw [hr]; exact h0.le) (by rw [hr]; exact h1) d hd A f p ε η e0 e1 hA hx hη hw hf
  refine ⟨out, g', g1, g2, fun n hn hmn => g3 n hn (by omega) ?_⟩
  rw [hr, ← le_div_iff₀ (by linarith)]
  refine le_trans ?_ hm.le
  exact pow_le_pow_of_le_one (by linarith) (by linarith) (by omega)

/-- With the rate 1/2 and a tenth as margin. -/
example := C135_settles (1 / 2) (1 / 10) (by norm_num) (by norm_num) (by norm_num) (by norm_num)

/-- With the rate one, the estimate at sample 2 is the instantaneous frequency of samples 0 and 1. -/
theorem freq_rate_one (hilbert : List ℂ → List ℂ) (x y z : ℂ) (hp : prepare hilbert [x, y, z] = [x, y, z]) (hx : 1e-8 < ‖x‖) (hy : 1e-8 < ‖y‖) (hz : 1e-8 < ‖z‖) :
    ∃ out g' e b, ({ rate := 1, b := 1, s := 1, frequency := 0 } : FreqF).filter hilbert [x, y, z] = (.ok out, g') ∧
      out[2]? = some ((phasor (instantaneous x y)).arg / Real.pi, e, b) := by
  obtain ⟨out, g', k1, k2, k3⟩ := C103_average hilbert { rate := 1, b := 1, s := 1, frequency := 0 } (by simp) [x, y, z] (by simp) (by
    rw [hp]; simpa using ⟨hx, hy, hz⟩)
  rw [hp] at k3
  obtain ⟨u, e, b, j1, j2, j3⟩ := k3 2 (by simp)
  refine ⟨out, g', e, b, k1, ?_⟩
  have hb : b = phasor (instantaneous x y) := by
    rw [j3, sum_range_succ, sum_range_succ, sum_range_zero]
    simp [at0]
  rw [j1, j2, hb]

/-- The bound is attained: with the rate one, noise of magnitude `ε` on two samples of a tone of amplitude one gives the estimate `f + 2 arcsin(ε) / π`. -/
theorem C135_sharp (hilbert : List ℂ → List ℂ) (f ε : ℝ) (hε0 : 0 ≤ ε) (hε : ε < 1) (hf0 : 0 < f) (hf : f + 2 * Real.arcsin ε / Real.pi < 1) (hbig : 1e-8 < 1 - ε) :
    ∃ d : List ℂ, d.length = 3 ∧ prepare hilbert d = d ∧ (∀ n < 3, ‖at0 d n - 1 * phasor (0 + f * n)‖ ≤ ε * ‖(1 : ℂ)‖) ∧
      ∃ out g' e b, ({ rate := 1, b := 1, s := 1, frequency := 0 } : FreqF).filter hilbert d = (.ok out, g') ∧ out[2]? = some (f + 2 * Real.arcsin ε / Real.pi, e, b) := by
  have hpi := Real.pi_pos
  set α := Real.arcsin ε with hα
  have hα0 : 0 ≤ α := Real.arcsin_nonneg.mpr hε0
  have hsin : Real.sin α = ε := Real.sin_arcsin (by linarith) hε.le
  have hα2 : α < Real.pi / 2 := Real.arcsin_lt_pi_div_two.mpr hε
  have hcos : 0 < Real.cos α := Real.cos_pos_of_mem_Ioo ⟨by linarith, hα2⟩
  have hcosl : 1e-8 < Real.cos α := by
    have h1 := Real.sin_sq_add_cos_sq α
    have h2 := Real.cos_le_one α
    rw [hsin] at h1
    nlinarith
  have hpa : ∀ s : ℝ, phasor (s / Real.pi) = (Real.cos s : ℂ) + (Real.sin s : ℂ) * I := by
    intro s
    rw [phasor_eq, mul_div_cancel₀ _ hpi.ne']
  -- turned by `± α` and shortened to `cos α`
  have hdist : ∀ (t s : ℝ), (s = α ∨ s = -α) → ‖(Real.cos α : ℂ) * phasor (t + s / Real.pi) - phasor t‖ = ε := by
    intro t s hs
    rw [phasor_add, show (Real.cos α : ℂ) * (phasor t * phasor (s / Real.pi)) - phasor t = phasor t * (Real.cos α * phasor (s / Real.pi) - 1) by ring, norm_mul,
      phasor_norm, one_mul, hpa]
    have hc : Real.cos s = Real.cos α := by rcases hs with rfl | rfl <;> simp
    have e : ∀ x : ℝ, (x = Real.sin α ∨ x = -Real.sin α) → ‖(Real.cos α : ℂ) * (Real.cos α + x * I) - 1‖ = ε := by
      intro x hx
      have h1 := Real.sin_sq_add_cos_sq α
      have hx2 : x ^ 2 = ε ^ 2 := by rcases hx with rfl | rfl <;> rw [hsin] <;> ring
      rw [hsin] at h1
      rw [← Real.sqrt_sq hε0, ← Real.sqrt_sq (norm_nonneg _), ← Complex.normSq_eq_norm_sq]
      congr 1
      rw [Complex.normSq_apply]
      simp only [Complex.sub_re, Complex.mul_re, Complex.add_re, Complex.ofReal_re, Complex.I_re, Complex.ofReal_im, Complex.I_im, Complex.one_re, Complex.sub_im,
        Complex.mul_im, Complex.add_im, Complex.one_im]
      have h2 : Real.cos α ^ 2 = 1 - ε ^ 2 := by linarith
      generalize Real.cos α = c at *
      have : (c * c - 1) * (c * c - 1) + c * x * (c * x) = ε ^ 2 := by
        rw [show (c * c - 1) * (c * c - 1) + c * x * (c * x) = (c ^ 2 - 1) ^ 2 + c ^ 2 * x ^ 2 by ring, h2, hx2]; ring
      linarith
    rw [hc]
    exact e _ (by rcases hs with rfl | rfl <;> simp)
  have hat : ∀ n < 3, ∃ v, at0 [(Real.cos α : ℂ) * phasor (0 + -α / Real.pi), (Real.cos α : ℂ) * phasor (f + α / Real.pi), phasor (2 * f)] n = v ∧ ‖v - phasor (0 + f * n)‖ ≤ ε ∧ 1e-8 < ‖v‖ := by
    intro n hn
    have hcn : ∀ t, ‖(Real.cos α : ℂ) * phasor t‖ = Real.cos α := by
      intro t; rw [norm_mul, phasor_norm, mul_one, Complex.norm_real, Real.norm_eq_abs, abs_of_pos hcos]
    interval_cases n
    · refine ⟨_, rfl, ?_, ?_⟩
      · have := hdist 0 (-α) (.inr rfl)
        simpa [at0] using this.le
      · show 1e-8 < ‖(Real.cos α : ℂ) * phasor (0 + -α / Real.pi)‖
        rw [hcn]; exact hcosl
    · refine ⟨_, rfl, ?_, ?_⟩
      · have := hdist f α (.inl rfl)
        simpa [at0] using this.le
      · show 1e-8 < ‖(Real.cos α : ℂ) * phasor (f + α / Real.pi)‖
        rw [hcn]; exact hcosl
    · refine ⟨_, rfl, ?_, ?_⟩
      · show ‖phasor (2 * f) - phasor (0 + f * (2 : ℕ))‖ ≤ ε
        rw [show 0 + f * ((2 : ℕ) : ℝ) = 2 * f by push_cast; ring, sub_self, norm_zero]
        exact hε0
      · show 1e-8 < ‖phasor (2 * f)‖
        rw [phasor_norm]; norm_num
  have hpr : prepare hilbert [(Real.cos α : ℂ) * phasor (0 + -α / Real.pi), (Real.cos α : ℂ) * phasor (f + α / Real.pi), phasor (2 * f)] =
      [(Real.cos α : ℂ) * phasor (0 + -α / Real.pi), (Real.cos α : ℂ) * phasor (f + α / Real.pi), phasor (2 * f)] := by
    rw [prepare, if_pos]
    refine ⟨(Real.cos α : ℂ) * phasor (f + α / Real.pi), by simp, ?_⟩
    rw [Complex.im_ofReal_mul, phasor_im]
    have : 0 < Real.sin (Real.pi * (f + α / Real.pi)) := by
      have h3 : 2 * α / Real.pi = 2 * (α / Real.pi) := by ring
      have h4 : 0 ≤ α / Real.pi := by positivity
      exact Real.sin_pos_of_pos_of_lt_pi (by positivity) (by nlinarith)
    positivity
  refine ⟨_, rfl, hpr, fun n hn => ?_, ?_⟩
  · obtain ⟨v, v1, v2, -⟩ := hat n hn
    rw [v1, one_mul, norm_one, mul_one]
    exact v2
  · have hb : ∀ n < 3, 1e-8 < ‖at0 [(Real.cos α : ℂ) * phasor (0 + -α / Real.pi), (Real.cos α : ℂ) * phasor (f + α / Real.pi), phasor (2 * f)] n‖ := by
      intro n hn
      obtain ⟨v, v1, -, v3⟩ := hat n hn
      rw [v1]; exact v3
    obtain ⟨out, g', e, b, k1, k2⟩ := freq_rate_one hilbert _ _ _ hpr (hb 0 (by norm_num)) (hb 1 (by norm_num)) (hb 2 (by norm_num))
    refine ⟨out, g', e, b, k1, ?_⟩
    have h0 : 0 ≤ 2 * α / Real.pi := by positivity
    have e1 : instantaneous ((Real.cos α : ℂ) * phasor (0 + -α / Real.pi)) ((Real.cos α : ℂ) * phasor (f + α / Real.pi)) = f + 2 * α / Real.pi := by
      unfold instantaneous
      have hcon : (starRingEnd ℂ) (phasor (0 + -α / Real.pi)) = phasor (α / Real.pi) := by
        rw [phasor, phasor, ← Complex.exp_conj]
        congr 1
        simp only [map_mul, Complex.conj_I, Complex.conj_ofReal]
        push_cast; ring
      rw [map_mul, hcon, Complex.conj_ofReal, show (Real.cos α : ℂ) * phasor (f + α / Real.pi) * (Real.cos α * phasor (α / Real.pi)) =
        ((Real.cos α * Real.cos α : ℝ) : ℂ) * (phasor (f + α / Real.pi) * phasor (α / Real.pi)) by push_cast; ring, ← phasor_add, Complex.arg_real_mul _ (by positivity),
        show f + α / Real.pi + α / Real.pi = f + 2 * α / Real.pi by ring, phasor_arg _ (by linarith) hf.le]
    rw [k2, e1, phasor_arg _ (by linarith) hf.le]

/-- Noise of half the amplitude: the frequency 1/4 is estimated as 1/4 + 1/3. -/
example (hilbert : List ℂ → List ℂ) : ∃ d : List ℂ, (∀ n < 3, ‖at0 d n - 1 * phasor (0 + 1 / 4 * n)‖ ≤ 1 / 2 * ‖(1 : ℂ)‖) ∧
    ∃ out g' e b, ({ rate := 1, b := 1, s := 1, frequency := 0 } : FreqF).filter hilbert d = (.ok out, g') ∧ out[2]? = some (7 / 12, e, b) := by
  have hpi := Real.pi_pos
  have ha : Real.arcsin (1 / 2) = Real.pi / 6 := by
    rw [← Real.sin_pi_div_six]
    exact Real.arcsin_sin (by linarith) (by linarith)
  have hv : 1 / 4 + 2 * Real.arcsin (1 / 2) / Real.pi = 7 / 12 := by rw [ha]; field_simp; norm_num
  obtain ⟨d, -, -, h1, out, g', e, b, h2, h3⟩ := C135_sharp hilbert (1 / 4) (1 / 2) (by norm_num) (by norm_num) (by norm_num) (by rw [hv]; norm_num) (by norm_num)
  rw [hv] at h3
  exact ⟨d, h1, out, g', e, b, h2, h3⟩

/-- A noisy tone: amplitude 2, frequency 1/4, every third sample wrong by 1/10 of the amplitude.  Rate 1/2: from sample 8 on the estimate is within
`2 arcsin(1/10) / π + 1/100` of 1/4. -/
noncomputable def noisyTone (N : ℕ) : List ℂ := (List.range N).map fun n : ℕ => 2 * phasor (1 / 3 + 1 / 4 * (n : ℝ)) + if n % 3 = 0 then 1 / 5 else 0

example (hilbert : List ℂ → List ℂ) (N : ℕ) (hN : 20 ≤ N) : ∃ out g', ({ rate := 1 / 2, b := 1, s := 1, frequency := 0 } : FreqF).filter hilbert (noisyTone N) = (.ok out, g') ∧
    out.length = N ∧ ∃ y e b, out[8]? = some (y, e, b) ∧ |y - 1 / 4| ≤ 2 * Real.arcsin (1 / 10) / Real.pi + 1 / 100 := by
  have hpi := Real.pi_pos
  have hlen : (noisyTone N).length = N := by simp [noisyTone]
  have hat : ∀ n < N, at0 (noisyTone N) n = 2 * phasor (1 / 3 + 1 / 4 * (n : ℝ)) + if n % 3 = 0 then 1 / 5 else 0 := by
    intro n hn
    simp [noisyTone, at0, hn]
  have hpr : prepare hilbert (noisyTone N) = noisyTone N := by
    rw [prepare, if_pos]
    refine ⟨at0 (noisyTone N) 1, ?_, ?_⟩
    · have hl1 : 1 < (noisyTone N).length := by rw [hlen]; omega
      rw [show at0 (noisyTone N) 1 = (noisyTone N)[1] by simp [at0, hl1]]
      exact List.getElem_mem _
    · rw [hat 1 (by omega), if_neg (by norm_num), add_zero, show (2 : ℂ) = ((2 : ℝ) : ℂ) by push_cast; rfl, Complex.im_ofReal_mul, phasor_im]
      have := Real.sin_pos_of_pos_of_lt_pi (x := Real.pi * (1 / 3 + 1 / 4 * ((1 : ℕ) : ℝ))) (by positivity) (by push_cast; linarith)
      positivity
  have hsin : Real.arcsin (1 / 10) ≤ 1 / 8 := by
    rw [Real.arcsin_le_iff_le_sin' ⟨by linarith [Real.pi_gt_three], by linarith [Real.pi_gt_three]⟩]
    have := Real.sin_gt_sub_cube (x := 1 / 8) (by norm_num)
    linarith [this]
  have hδ : 2 * Real.arcsin (1 / 10) / Real.pi ≤ 1 / 12 := by
    rw [div_le_iff₀ hpi]
    linarith [Real.pi_gt_three]
  obtain ⟨out, g', h1, h2, h3⟩ := C135_noise hilbert { rate := 1 / 2, b := 1, s := 1, frequency := 0 } (by simp) (by simp) (by norm_num) (by norm_num)
    (noisyTone N) (by intro h; rw [h] at hlen; simp at hlen; omega) 2 (1 / 4) (1 / 3) (1 / 10) (1 / 100) (by norm_num) (by norm_num) (by norm_num) (by
      rw [hpr, hlen]
      intro n hn
      rw [hat n hn, add_sub_cancel_left]
      split <;> norm_num) (by norm_num) (by linarith) (by rw [abs_of_pos (by norm_num)]; linarith)
  rw [hpr, hlen] at h2
  refine ⟨out, g', h1, h2, ?_⟩
  refine h3 8 (by omega) (by norm_num) ?_
  have hs : 3 / 100 - (3 / 100) ^ 3 / 6 < Real.sin (Real.pi * (1 / 100)) := by
    refine lt_of_lt_of_le (Real.sin_gt_sub_cube (x := 3 / 100) (by norm_num)) ?_
    exact Real.sin_le_sin_of_le_of_le_pi_div_two (by linarith) (by linarith) (by linarith [Real.pi_gt_three])
  norm_num at hs ⊢
  linarith

end Verif.Props
