import Verif.Props.FrequencyNoise
import Verif.Props.Selectivity
import Mathlib.Analysis.SpecialFunctions.Trigonometric.Arctan

/- Property C138: signals of changing frequency in ComplexFrequencyFilter and ComplexBandpassFilter (diamondback/filters/complex_frequency_filter.py,
complex_bandpass_filter.py). -/

namespace Verif.Props

open Finset Spec Complex

/-- The exponentially weighted average of C103. -/
theorem average_succ (r : ℝ) (b : ℂ) (p : ℕ → ℂ) (n : ℕ) :
    (1 - r : ℂ) ^ (n + 1) * b + ∑ i ∈ range (n + 1), r * (1 - r : ℂ) ^ (n + 1 - 1 - i) * p i =
      (1 - r) * ((1 - r : ℂ) ^ n * b + ∑ i ∈ range n, r * (1 - r : ℂ) ^ (n - 1 - i) * p i) + r * p n := by
  rw [sum_range_succ, mul_add, mul_sum, Nat.add_sub_cancel, Nat.sub_self, pow_zero, mul_one, ← add_assoc]
  congr 2
  · ring
  · refine sum_congr rfl fun i hi => ?_
    have := mem_range.mp hi
    rw [show n - i = n - 1 - i + 1 by omega]
    ring

/-- An average of this kind follows what it averages. -/
theorem average_error (r κ : ℝ) (hr0 : 0 < r) (hr1 : r ≤ 1) (hκ : 0 ≤ κ) (B p : ℕ → ℂ) (N : ℕ) (hB : ∀ n, n + 1 < N → B (n + 1) = (1 - r) * B n + r * p n)
    (hp : ∀ n, n + 1 < N → ‖p (n + 1) - p n‖ ≤ κ) : ∀ n < N, ‖B n - p n‖ ≤ (1 - r) ^ n * ‖B 0 - p 0‖ + κ / r := by
  have hn1 : ‖(1 - r : ℂ)‖ = 1 - r := by
    rw [← Complex.ofReal_one, ← Complex.ofReal_sub, Complex.norm_real, Real.norm_eq_abs, abs_of_nonneg (by linarith)]
  intro n
  induction n with
  | zero =>
    intro _
    have := div_nonneg hκ hr0.le
    rw [pow_zero, one_mul]
    linarith
  | succ n ih =>
    intro hn
    have h1 := ih (by omega)
    have h2 := hp n hn
    have h3 : ‖B (n + 1) - p (n + 1)‖ ≤ (1 - r) * ‖B n - p n‖ + κ := by
      calc ‖B (n + 1) - p (n + 1)‖ = ‖(1 - r : ℂ) * (B n - p n) - (p (n + 1) - p n)‖ := by rw [hB n hn]; congr 1; ring
        _ ≤ ‖(1 - r : ℂ) * (B n - p n)‖ + ‖p (n + 1) - p n‖ := norm_sub_le _ _
        _ ≤ _ := by rw [norm_mul, hn1]; linarith
    have h4 : (1 - r) * (κ / r) + κ = κ / r := by field_simp; ring
    calc ‖B (n + 1) - p (n + 1)‖ ≤ (1 - r) * ((1 - r) ^ n * ‖B 0 - p 0‖ + κ / r) + κ :=
        h3.trans (by have := mul_le_mul_of_nonneg_left h1 (by linarith : 0 ≤ 1 - r); linarith)
      _ = (1 - r) ^ (n + 1) * ‖B 0 - p 0‖ + ((1 - r) * (κ / r) + κ) := by ring
      _ = _ := by rw [h4]

/-- A coefficient near the phasor of a frequency has its angle near that frequency. -/
theorem arg_near (b ρ : ℂ) (hρ : ρ ≠ 0) (ν ε : ℝ) (hν : ρ.arg / Real.pi = ν) (hε : ε < 1) (h : ‖b - ρ‖ ≤ ε * ‖ρ‖)
    (hf : |ν| + Real.arcsin ε / Real.pi < 1) : |b.arg / Real.pi - ν| ≤ Real.arcsin ε / Real.pi := by
  have hpi := Real.pi_pos
  have hρn : 0 < ‖ρ‖ := norm_pos_iff.mpr hρ
  obtain ⟨w, hw, rfl⟩ : ∃ w : ℂ, ‖w‖ ≤ ε ∧ b = ρ * (1 + w) := by
    refine ⟨(b - ρ) / ρ, by rw [norm_div, div_le_iff₀ hρn]; exact h, by rw [mul_add, mul_one, mul_div_cancel₀ _ hρ]; ring⟩
  obtain ⟨w1, w2⟩ := arg_one_add_le w ε hw hε
  have hpol : ∀ z : ℂ, z ≠ 0 → z = ‖z‖ * phasor (z.arg / Real.pi) := by
    intro z hz
    rw [phasor_angle z hz, mul_div_cancel₀]
    exact_mod_cast norm_ne_zero_iff.mpr hz
  have e : ρ * (1 + w) = ((‖ρ‖ * ‖1 + w‖ : ℝ) : ℂ) * phasor (ν + (1 + w).arg / Real.pi) := by
    conv_lhs => rw [hpol _ w2, hpol _ hρ]
    rw [phasor_add, hν]
    push_cast
    ring
  have hw1 : |(1 + w).arg / Real.pi| ≤ Real.arcsin ε / Real.pi := by
    rw [abs_div, abs_of_pos hpi]
    exact div_le_div_of_nonneg_right w1 hpi.le
  have h1 := abs_le.mp hw1
  have h2 := abs_le.mp (le_refl |ν|)
  rw [e, Complex.arg_real_mul _ (mul_pos hρn (norm_pos_iff.mpr w2)), phasor_arg _ (by linarith [h2.1]) (by linarith [h2.2]), add_sub_cancel_left]
  exact hw1

theorem phasor_near (a b : ℝ) : ‖phasor a - phasor b‖ ≤ Real.pi * |a - b| := by
  have e : phasor a - phasor b = phasor b * (Complex.exp (I * ((Real.pi * (a - b) : ℝ) : ℂ)) - 1) := by
    rw [mul_sub, mul_one]
    congr 1
    rw [phasor, phasor, ← Complex.exp_add]
    congr 1
    push_cast; ring
  rw [e, norm_mul, phasor_norm, one_mul]
  refine Real.norm_exp_I_mul_ofReal_sub_one_le.trans ?_
  rw [Real.norm_eq_abs, abs_mul, abs_of_pos Real.pi_pos]

/-- C138.  ComplexBandpassFilter: if each sample is the one before turned by the frequency of the filter, up to `κ`, the error falls to `κ / rate`. -/
theorem C138_band (hilbert : List ℂ → List ℂ) (f : Bandpass) (hf : Bandpass.Reach hilbert f) (hr : 0 < f.rate) (d : List ℂ) (hd : d ≠ []) (hp : prepare hilbert d ≠ [])
    (κ : ℝ) (hκ : 0 ≤ κ) (hx : ∀ n, n + 1 < (prepare hilbert d).length → ‖at0 (prepare hilbert d) (n + 1) - phasor f.frequency * at0 (prepare hilbert d) n‖ ≤ κ) :
    ∃ out f', f.filter hilbert d = (.ok out, f') ∧ out.length = (prepare hilbert d).length ∧
      ∀ n < (prepare hilbert d).length, ∃ y e b, out[n]? = some (y, e, b) ∧ e = at0 (prepare hilbert d) n - y ∧
        ‖e‖ ≤ (1 - f.rate) ^ n * ‖at0 (prepare hilbert d) 0 - phasor f.osc.phase * f.b‖ + κ / f.rate := by
  have hl : ¬ d.length = 0 := by simpa using hd
  set q := prepare hilbert d with hq
  obtain ⟨o, h1, _⟩ := CExp.filter_const f.osc f.frequency hf.spec.1 q.length (by simpa using hp)
  obtain ⟨k1, k2, -⟩ := Bandpass.loop_coefficient f.rate (fun n => phasor (f.osc.phase + f.frequency * n)) (fun n => phasor_norm _) q f.b 0
  have ht : (List.range q.length).map (fun n => phasor (f.osc.phase + f.frequency * ((0 + n : ℕ) : ℝ))) = tone 1 f.frequency f.osc.phase q.length := by
    simp [tone]
  rw [ht] at k1 k2
  simp only [zero_add] at k2
  refine ⟨_, _, by simp only [Bandpass.filter, hl, if_false, ← hq, h1]; rfl, k1, fun n hn => ⟨_, _, _, k2 n hn, rfl, ?_⟩⟩
  set x : ℕ → ℂ := fun n => phasor (f.osc.phase + f.frequency * n) with hxd
  have hxx : ∀ n, x n * (starRingEnd ℂ) (x n) = 1 := by
    intro n
    rw [hxd]
    simp only
    rw [phasor_conj, ← phasor_add, add_neg_cancel, phasor_zero]
  have hxn : ∀ n, ‖x n‖ = 1 := fun n => phasor_norm _
  have hx1 : ∀ n, (starRingEnd ℂ) (x (n + 1)) * phasor f.frequency = (starRingEnd ℂ) (x n) := by
    intro n
    rw [hxd]
    simp only
    rw [phasor_conj, phasor_conj, ← phasor_add]
    congr 1
    push_cast; ring
  have herr := average_error f.rate κ hr hf.spec.2.2 hκ
    (fun n => (1 - f.rate : ℂ) ^ n * f.b + ∑ i ∈ range n, f.rate * (1 - f.rate : ℂ) ^ (n - 1 - i) * (at0 q i * (starRingEnd ℂ) (x i)))
    (fun n => at0 q n * (starRingEnd ℂ) (x n)) q.length (fun n _ => average_succ f.rate f.b (fun n => at0 q n * (starRingEnd ℂ) (x n)) n) (by
      intro n hn
      rw [show at0 q (n + 1) * (starRingEnd ℂ) (x (n + 1)) - at0 q n * (starRingEnd ℂ) (x n) =
        (starRingEnd ℂ) (x (n + 1)) * (at0 q (n + 1) - phasor f.frequency * at0 q n) by rw [← hx1 n]; ring, norm_mul, RCLike.norm_conj, hxn, one_mul]
      exact hx n hn) n hn
  simp only [pow_zero, one_mul, range_zero, sum_empty, add_zero] at herr
  have e1 : ∀ (m : ℕ) (c : ℂ), ‖at0 q m - x m * c‖ = ‖c - at0 q m * (starRingEnd ℂ) (x m)‖ := by
    intro m c
    rw [show c - at0 q m * (starRingEnd ℂ) (x m) = -((starRingEnd ℂ) (x m) * (at0 q m - x m * c)) by linear_combination (-c) * hxx m, norm_neg, norm_mul, RCLike.norm_conj,
      hxn, one_mul]
  rw [e1 n]
  have e2 := e1 0 f.b
  have e3 : x 0 = phasor f.osc.phase := by rw [hxd]; simp
  rw [e3] at e2
  rw [e2, ← e3]
  exact herr

/-- C138.  In particular a signal of amplitude `A` whose frequency stays within `δ` of that of the filter is followed up to `π δ A / rate`. -/
theorem C138_band_sweep (hilbert : List ℂ → List ℂ) (f : Bandpass) (hf : Bandpass.Reach hilbert f) (hr : 0 < f.rate) (p : CExp) (x : List ℝ) (hx : Accepted x)
    (δ : ℝ) (hδ : ∀ v ∈ x, |v - f.frequency| ≤ δ) :
    ∃ d p', p.filter x = (.ok d, p') ∧ ∀ A : ℂ, prepare hilbert (d.map (A * ·)) = d.map (A * ·) →
      ∃ out f', f.filter hilbert (d.map (A * ·)) = (.ok out, f') ∧ out.length = x.length ∧
        ∀ n < x.length, ∃ y e b, out[n]? = some (y, e, b) ∧ e = A * at0 d n - y ∧
          ‖e‖ ≤ (1 - f.rate) ^ n * ‖A * phasor p.phase - phasor f.osc.phase * f.b‖ + ‖A‖ * (Real.pi * δ) / f.rate := by
  obtain ⟨d, p', h1, h2, h3⟩ := C25_exponential_phase p x hx
  refine ⟨d, p', h1, fun A hA => ?_⟩
  have hd0 : d ≠ [] := by rw [← List.length_pos_iff, h2, List.length_pos_iff]; exact hx.1
  have hdn : ∀ n < x.length, at0 d n = phasor (p.phase + ∑ i ∈ range n, at0 x i) := by
    intro n hn
    rw [at0, List.getD_eq_getElem?_getD, h3 n hn, Option.getD_some]
    rfl
  have hAn : ∀ n < x.length, at0 (d.map (A * ·)) n = A * at0 d n := by
    intro n hn
    rw [at0, at0, List.getD_eq_getElem?_getD, List.getD_eq_getElem?_getD, List.getElem?_map, h3 n hn]
    rfl
  have hδ0 : 0 ≤ δ := by
    obtain ⟨v, hv⟩ := List.exists_mem_of_ne_nil x hx.1
    exact (abs_nonneg _).trans (hδ v hv)
  have hmap : d.map (A * ·) ≠ [] := by simpa using hd0
  have hpi := Real.pi_pos
  obtain ⟨out, f', k1, k2, k3⟩ := C138_band hilbert f hf hr (d.map (A * ·)) hmap (by rw [hA]; exact hmap) (‖A‖ * (Real.pi * δ)) (by positivity) (by
    rw [hA]
    intro n hn
    rw [List.length_map, h2] at hn
    rw [hAn _ hn, hAn n (by omega), hdn _ hn, hdn n (by omega), sum_range_succ, ← add_assoc, phasor_add (_ + _) (at0 x n)]
    rw [show A * (phasor (p.phase + ∑ i ∈ range n, at0 x i) * phasor (at0 x n)) - phasor f.frequency * (A * phasor (p.phase + ∑ i ∈ range n, at0 x i)) =
      A * phasor (p.phase + ∑ i ∈ range n, at0 x i) * (phasor (at0 x n) - phasor f.frequency) by ring, norm_mul, norm_mul, phasor_norm, mul_one]
    apply mul_le_mul_of_nonneg_left _ (norm_nonneg _)
    refine (phasor_near _ _).trans (mul_le_mul_of_nonneg_left ?_ hpi.le)
    apply hδ
    rw [show at0 x n = x[n] by simp [at0, show n < x.length by omega]]
    exact List.getElem_mem _)
  rw [hA, List.length_map, h2] at k2 k3
  refine ⟨out, f', k1, k2, fun n hn => ?_⟩
  obtain ⟨y, e, b, m1, m2, m3⟩ := k3 n hn
  have hx0 : 0 < x.length := List.length_pos_iff.mpr hx.1
  rw [hAn n hn] at m2
  rw [hAn 0 hx0, hdn 0 hx0, range_zero, sum_empty, add_zero] at m3
  exact ⟨y, e, b, m1, m2, m3⟩

/-- C138.  ComplexFrequencyFilter: if the frequency from one sample to the next changes by at most `σ` at a time, the estimate follows it up to about
`(1 - rate) σ / rate`, from any state. -/
theorem C138_track (hilbert : List ℂ → List ℂ) (g : FreqF) (hs : ‖g.s‖ = 1) (hb : ‖g.b‖ ≤ 1) (h0 : 0 < g.rate) (h1 : g.rate ≤ 1) (d : List ℂ) (hd : d ≠ [])
    (hp : ∀ v ∈ prepare hilbert d, 1e-8 < ‖v‖) (ν : ℕ → ℝ) (hν : ∀ n, n + 1 < (prepare hilbert d).length → ν n = instantaneous (at0 (prepare hilbert d) n) (at0 (prepare hilbert d) (n + 1)))
    (σ : ℝ) (hσ0 : 0 ≤ σ) (hσ : ∀ n, n + 2 < (prepare hilbert d).length → |ν (n + 1) - ν n| ≤ σ) :
    ∃ out g', g.filter hilbert d = (.ok out, g') ∧ out.length = (prepare hilbert d).length ∧ ∀ n, n + 2 < out.length → ∀ ε < 1,
      2 * (1 - g.rate) ^ (n + 1) + (1 - g.rate) * (Real.pi * σ / g.rate) ≤ ε → |ν n| + Real.arcsin ε / Real.pi < 1 →
        ∃ y e b, out[n + 2]? = some (y, e, b) ∧ |y - ν n| ≤ Real.arcsin ε / Real.pi := by
  have hpi := Real.pi_pos
  set q := prepare hilbert d with hq
  obtain ⟨out, g', k1, k2, k3⟩ := C103_average hilbert g hs d hd hp
  rw [← hq] at k2 k3
  refine ⟨out, g', k1, k2, fun n hn ε hε hle hny => ?_⟩
  rw [k2] at hn
  obtain ⟨y, e, b, m1, m2, m3⟩ := k3 (n + 2) hn
  refine ⟨y, e, b, m1, ?_⟩
  set p : ℕ → ℂ := fun i => phasor (instantaneous (at0 (g.s :: q) i) (at0 q i)) with hpd
  have hp1 : ∀ i, i + 1 < q.length → p (i + 1) = phasor (ν i) := by
    intro i hi
    rw [hν i hi, hpd]
    simp [at0]
  set B : ℕ → ℂ := fun n => (1 - g.rate : ℂ) ^ n * g.b + ∑ i ∈ range n, g.rate * (1 - g.rate : ℂ) ^ (n - 1 - i) * p i with hB
  have hBs : ∀ n, B (n + 1) = (1 - g.rate) * B n + g.rate * p n := fun n => average_succ g.rate g.b p n
  have hn1 : ‖(1 - g.rate : ℂ)‖ = 1 - g.rate := by
    rw [← Complex.ofReal_one, ← Complex.ofReal_sub, Complex.norm_real, Real.norm_eq_abs, abs_of_nonneg (by linarith)]
  have hB1 : ‖B 1‖ ≤ 1 := by
    rw [hBs 0]
    refine (norm_add_le _ _).trans ?_
    rw [norm_mul, norm_mul, hn1, show B 0 = g.b by simp [hB], show ‖p 0‖ = 1 from phasor_norm _, Complex.norm_real, Real.norm_eq_abs, abs_of_pos h0]
    nlinarith
  have herr := average_error g.rate (Real.pi * σ) h0 h1 (by positivity) (fun n => B (n + 1)) (fun n => p (n + 1)) (q.length - 1) (fun n _ => hBs (n + 1)) (by
    intro i hi
    rw [hp1 (i + 1) (by omega), hp1 i (by omega)]
    exact (phasor_near _ _).trans (mul_le_mul_of_nonneg_left (hσ i (by omega)) hpi.le)) n (by omega)
  have hB0 : ‖B 1 - p 1‖ ≤ 2 := (norm_sub_le _ _).trans (by rw [show ‖p 1‖ = 1 from phasor_norm _]; linarith)
  have hlast : ‖B (n + 2) - p (n + 1)‖ ≤ ε := by
    rw [hBs (n + 1), show (1 - g.rate : ℂ) * B (n + 1) + g.rate * p (n + 1) - p (n + 1) = (1 - g.rate) * (B (n + 1) - p (n + 1)) by ring, norm_mul, hn1]
    have h2 : (1 - g.rate) ^ n * ‖B 1 - p 1‖ ≤ (1 - g.rate) ^ n * 2 := mul_le_mul_of_nonneg_left hB0 (pow_nonneg (by linarith) _)
    calc (1 - g.rate) * ‖B (n + 1) - p (n + 1)‖ ≤ (1 - g.rate) * ((1 - g.rate) ^ n * 2 + Real.pi * σ / g.rate) :=
        mul_le_mul_of_nonneg_left (by simpa using herr.trans (by simpa using h2)) (by linarith)
      _ = 2 * (1 - g.rate) ^ (n + 1) + (1 - g.rate) * (Real.pi * σ / g.rate) := by ring
      _ ≤ ε := hle
  have hin : -1 < ν n ∧ ν n ≤ 1 := by
    have ha := abs_le.mp (le_refl |ν n|)
    have : 0 ≤ Real.arcsin ε / Real.pi := div_nonneg (Real.arcsin_nonneg.mpr ((norm_nonneg _).trans hlast)) hpi.le
    constructor <;> linarith [ha.1, ha.2]
  have hne : p (n + 1) ≠ 0 := norm_pos_iff.mp (by rw [show ‖p (n + 1)‖ = 1 from phasor_norm _]; exact one_pos)
  rw [m2, m3]
  refine arg_near _ (p (n + 1)) hne (ν n) ε ?_ hε ?_ hny
  · rw [hp1 n (by omega)]
    exact phasor_arg _ hin.1 hin.2
  · rw [show ‖p (n + 1)‖ = 1 from phasor_norm _, mul_one]
    exact hlast

/-- The coefficient in the steady state of a sweep by `σ` per sample, relative to the phasor of the latest frequency. -/
noncomputable def sweepGain (r σ : ℝ) : ℂ := r / (1 - (1 - r) * phasor (-σ))

theorem sweepGain_ne (r σ : ℝ) (h0 : 0 < r) (h1 : r ≤ 1) : (1 - (1 - r) * phasor (-σ) : ℂ) ≠ 0 ∧ 0 < (1 - (1 - r) * phasor (-σ) : ℂ).re ∧ sweepGain r σ ≠ 0 := by
  have hre : (1 - (1 - r) * phasor (-σ) : ℂ).re = 1 - (1 - r) * Real.cos (Real.pi * σ) := by
    rw [← Complex.ofReal_one, ← Complex.ofReal_sub, Complex.sub_re, Complex.re_ofReal_mul, phasor_re, mul_neg, Real.cos_neg, Complex.ofReal_re]
  have hpos : 0 < (1 - (1 - r) * phasor (-σ) : ℂ).re := by
    rw [hre]
    nlinarith [Real.cos_le_one (Real.pi * σ)]
  have hne : (1 - (1 - r) * phasor (-σ) : ℂ) ≠ 0 := by
    intro h; rw [h] at hpos; simp at hpos
  exact ⟨hne, hpos, div_ne_zero (by exact_mod_cast h0.ne') hne⟩

/-- C138.  A linear sweep, of any amplitudes: the coefficient in closed form. -/
theorem C138_linear (hilbert : List ℂ → List ℂ) (g : FreqF) (hs : ‖g.s‖ = 1) (hb : ‖g.b‖ ≤ 1) (h0 : 0 < g.rate) (h1 : g.rate ≤ 1) (d : List ℂ) (hd : d ≠ [])
    (a : ℕ → ℝ) (ha : ∀ n, 1e-8 < a n) (φ ν σ : ℝ)
    (hp : ∀ n < (prepare hilbert d).length, at0 (prepare hilbert d) n = a n * phasor (φ + ν * n + σ * (n * (n - 1) / 2))) :
    ∃ out g' b₁, g.filter hilbert d = (.ok out, g') ∧ out.length = (prepare hilbert d).length ∧ ‖b₁‖ ≤ 1 ∧ ∀ n, n + 1 < out.length →
      ∃ y e b, out[n + 1]? = some (y, e, b) ∧ y = b.arg / Real.pi ∧
        b = sweepGain g.rate σ * phasor (ν + σ * (n - 1)) + (1 - g.rate) ^ n * (b₁ - sweepGain g.rate σ * phasor (ν - σ)) := by
  have hapos : ∀ n, 0 < a n := fun n => lt_trans (by norm_num) (ha n)
  set q := prepare hilbert d with hq
  obtain ⟨out, g', k1, k2, k3⟩ := C103_average hilbert g hs d hd (by
    intro v hv
    rw [← hq] at hv
    obtain ⟨n, hn, rfl⟩ := List.mem_iff_getElem.mp hv
    have := hp n hn
    rw [show at0 q n = q[n] by simp [at0, hn]] at this
    rw [this, norm_mul, phasor_norm, mul_one, Complex.norm_real, Real.norm_eq_abs, abs_of_pos (hapos n)]
    exact ha n)
  rw [← hq] at k2 k3
  set p : ℕ → ℂ := fun i => phasor (instantaneous (at0 (g.s :: q) i) (at0 q i)) with hpd
  set B : ℕ → ℂ := fun n => (1 - g.rate : ℂ) ^ n * g.b + ∑ i ∈ range n, g.rate * (1 - g.rate : ℂ) ^ (n - 1 - i) * p i with hB
  have hBs : ∀ n, B (n + 1) = (1 - g.rate) * B n + g.rate * p n := fun n => average_succ g.rate g.b p n
  have hn1 : ‖(1 - g.rate : ℂ)‖ = 1 - g.rate := by
    rw [← Complex.ofReal_one, ← Complex.ofReal_sub, Complex.norm_real, Real.norm_eq_abs, abs_of_nonneg (by linarith)]
  have hB1 : ‖B 1‖ ≤ 1 := by
    rw [hBs 0]
    refine (norm_add_le _ _).trans ?_
    rw [norm_mul, norm_mul, hn1, show B 0 = g.b by simp [hB], show ‖p 0‖ = 1 from phasor_norm _, Complex.norm_real, Real.norm_eq_abs, abs_of_pos h0]
    nlinarith
  have hp1 : ∀ i, i + 1 < q.length → p (i + 1) = phasor (ν + σ * i) := by
    intro i hi
    have e : at0 q (i + 1) * (starRingEnd ℂ) (at0 q i) = ((a (i + 1) * a i : ℝ) : ℂ) * phasor (ν + σ * i) := by
      rw [hp (i + 1) hi, hp i (by omega), map_mul, Complex.conj_ofReal, phasor_conj,
        show ν + σ * (i : ℝ) = (φ + ν * ((i + 1 : ℕ) : ℝ) + σ * (((i + 1 : ℕ) : ℝ) * (((i + 1 : ℕ) : ℝ) - 1) / 2)) + -(φ + ν * i + σ * (i * (i - 1) / 2)) by push_cast; ring,
        phasor_add (_ + _) (-_)]
      push_cast; ring
    have hne : at0 q (i + 1) * (starRingEnd ℂ) (at0 q i) ≠ 0 := by
      rw [e]
      exact mul_ne_zero (by exact_mod_cast (mul_pos (hapos _) (hapos _)).ne') (norm_pos_iff.mp (by rw [phasor_norm]; exact one_pos))
    have e0 : at0 (g.s :: q) (i + 1) = at0 q i := by simp [at0]
    rw [hpd]
    simp only
    rw [e0, instantaneous, phasor_angle _ hne, e, norm_mul, phasor_norm, mul_one, Complex.norm_real, Real.norm_eq_abs, abs_of_pos (mul_pos (hapos _) (hapos _)), mul_div_cancel_left₀]
    exact_mod_cast (mul_pos (hapos _) (hapos _)).ne'
  have hρ := (sweepGain_ne g.rate σ h0 h1).1
  have hfix : ∀ v : ℝ, sweepGain g.rate σ * phasor v = (1 - g.rate) * (sweepGain g.rate σ * phasor (v - σ)) + g.rate * phasor v := by
    intro v
    have : sweepGain g.rate σ * (1 - (1 - g.rate) * phasor (-σ)) = g.rate := div_mul_cancel₀ _ hρ
    rw [sub_eq_add_neg v, phasor_add]
    linear_combination phasor v * this
  have hcl : ∀ n : ℕ, n + 1 < q.length → B (n + 1) = sweepGain g.rate σ * phasor (ν + σ * (n - 1)) + (1 - g.rate) ^ n * (B 1 - sweepGain g.rate σ * phasor (ν - σ)) := by
    intro n
    induction n with
    | zero =>
      intro _
      rw [show ν + σ * (((0 : ℕ) : ℝ) - 1) = ν - σ by push_cast; ring]
      ring
    | succ n ih =>
      intro hn
      rw [hBs (n + 1), ih (by omega), hp1 n (by omega), show ν + σ * (((n + 1 : ℕ) : ℝ) - 1) = ν + σ * n by push_cast; ring, hfix (ν + σ * n),
        show ν + σ * (n : ℝ) - σ = ν + σ * (n - 1) by ring, pow_succ]
      ring
  refine ⟨out, g', B 1, k1, k2, hB1, fun n hn => ?_⟩
  rw [k2] at hn
  obtain ⟨y, e, b, m1, m2, m3⟩ := k3 (n + 1) hn
  exact ⟨y, e, b, m1, m2, m3.trans (hcl n hn)⟩

/-- By how much the estimate lags behind a sweep by `σ` per sample. -/
noncomputable def sweepLag (r σ : ℝ) : ℝ := Real.arctan ((1 - r) * Real.sin (Real.pi * σ) / (1 - (1 - r) * Real.cos (Real.pi * σ))) / Real.pi

theorem sweepGain_arg (r σ : ℝ) (h0 : 0 < r) (h1 : r ≤ 1) : (sweepGain r σ).arg / Real.pi = -sweepLag r σ := by
  obtain ⟨hne, hpos, -⟩ := sweepGain_ne r σ h0 h1
  have hpi := Real.pi_pos
  set z : ℂ := 1 - (1 - r) * phasor (-σ) with hz
  have hre : z.re = 1 - (1 - r) * Real.cos (Real.pi * σ) := by
    rw [hz, ← Complex.ofReal_one, ← Complex.ofReal_sub, Complex.sub_re, Complex.re_ofReal_mul, phasor_re, mul_neg, Real.cos_neg, Complex.ofReal_re]
  have him : z.im = (1 - r) * Real.sin (Real.pi * σ) := by
    rw [hz, ← Complex.ofReal_one, ← Complex.ofReal_sub, Complex.sub_im, Complex.im_ofReal_mul, phasor_im, mul_neg, Real.sin_neg, Complex.ofReal_im]
    ring
  have harg : z.arg = Real.arctan (z.im / z.re) := by
    rw [← Complex.tan_arg, Real.arctan_tan]
    · exact (abs_lt.mp ((Complex.abs_arg_lt_pi_div_two_iff).mpr (.inl hpos))).1
    · exact (abs_lt.mp ((Complex.abs_arg_lt_pi_div_two_iff).mpr (.inl hpos))).2
  have hz' : z.arg ≠ Real.pi := by
    have := (abs_lt.mp ((Complex.abs_arg_lt_pi_div_two_iff).mpr (.inl hpos))).2
    linarith
  rw [sweepGain, ← hz, div_eq_mul_inv (r : ℂ), Complex.arg_real_mul _ h0, Complex.arg_inv, if_neg hz', harg, hre, him, sweepLag, neg_div]

theorem sweepGain_norm (r σ : ℝ) : ‖sweepGain r σ‖ ^ 2 = r ^ 2 / (r ^ 2 + 2 * (1 - r) * (1 - Real.cos (Real.pi * σ))) := by
  rw [sweepGain, norm_div, div_pow, Complex.norm_real, Real.norm_eq_abs, sq_abs, ← Complex.normSq_eq_norm_sq, Complex.normSq_apply]
  have hre : (1 - (1 - r) * phasor (-σ) : ℂ).re = 1 - (1 - r) * Real.cos (Real.pi * σ) := by
    rw [← Complex.ofReal_one, ← Complex.ofReal_sub, Complex.sub_re, Complex.re_ofReal_mul, phasor_re, mul_neg, Real.cos_neg, Complex.ofReal_re]
  have him : (1 - (1 - r) * phasor (-σ) : ℂ).im = (1 - r) * Real.sin (Real.pi * σ) := by
    rw [← Complex.ofReal_one, ← Complex.ofReal_sub, Complex.sub_im, Complex.im_ofReal_mul, phasor_im, mul_neg, Real.sin_neg, Complex.ofReal_im]
    ring
  rw [hre, him]
  congr 1
  linear_combination (1 - r) ^ 2 * Real.sin_sq_add_cos_sq (Real.pi * σ)

/-- C138.  So the estimate of a linear sweep settles to a constant lag of `arctan((1 - rate) sin(π σ) / (1 - (1 - rate) cos(π σ))) / π`. -/
theorem C138_lag (hilbert : List ℂ → List ℂ) (g : FreqF) (hs : ‖g.s‖ = 1) (hb : ‖g.b‖ ≤ 1) (h0 : 0 < g.rate) (h1 : g.rate ≤ 1) (d : List ℂ) (hd : d ≠ [])
    (a : ℕ → ℝ) (ha : ∀ n, 1e-8 < a n) (φ ν σ : ℝ)
    (hp : ∀ n < (prepare hilbert d).length, at0 (prepare hilbert d) n = a n * phasor (φ + ν * n + σ * (n * (n - 1) / 2))) :
    ∃ out g', g.filter hilbert d = (.ok out, g') ∧ out.length = (prepare hilbert d).length ∧ ∀ n, n + 1 < out.length → ∀ ε < 1,
      (1 - g.rate) ^ n * (1 + ‖sweepGain g.rate σ‖) ≤ ε * ‖sweepGain g.rate σ‖ → |ν + σ * (n - 1) - sweepLag g.rate σ| + Real.arcsin ε / Real.pi < 1 →
        ∃ y e b, out[n + 1]? = some (y, e, b) ∧ |y - (ν + σ * (n - 1) - sweepLag g.rate σ)| ≤ Real.arcsin ε / Real.pi := by
  have hpi := Real.pi_pos
  obtain ⟨out, g', b₁, k1, k2, k3, k4⟩ := C138_linear hilbert g hs hb h0 h1 d hd a ha φ ν σ hp
  refine ⟨out, g', k1, k2, fun n hn ε hε hle hny => ?_⟩
  obtain ⟨y, e, b, m1, m2, m3⟩ := k4 n hn
  refine ⟨y, e, b, m1, ?_⟩
  set ρ := sweepGain g.rate σ with hρ
  have hρ0 : ρ ≠ 0 := (sweepGain_ne g.rate σ h0 h1).2.2
  have hρn : 0 < ‖ρ‖ := norm_pos_iff.mpr hρ0
  have hε0 : 0 ≤ ε := by
    have h2 : 0 ≤ (1 - g.rate) ^ n * (1 + ‖ρ‖) := mul_nonneg (pow_nonneg (by linarith) _) (by positivity)
    by_contra hneg
    push Not at hneg
    nlinarith
  have has : 0 ≤ Real.arcsin ε / Real.pi := div_nonneg (Real.arcsin_nonneg.mpr hε0) hpi.le
  have hn1 : ‖(1 - g.rate : ℂ)‖ = 1 - g.rate := by
    rw [← Complex.ofReal_one, ← Complex.ofReal_sub, Complex.norm_real, Real.norm_eq_abs, abs_of_nonneg (by linarith)]
  rw [m2]
  refine arg_near b (ρ * phasor (ν + σ * (n - 1))) (mul_ne_zero hρ0 (norm_pos_iff.mp (by rw [phasor_norm]; exact one_pos))) _ ε ?_ hε ?_ hny
  · have hpol : ρ = ‖ρ‖ * phasor (-sweepLag g.rate σ) := by
      rw [← sweepGain_arg g.rate σ h0 h1, ← hρ, phasor_angle ρ hρ0, mul_div_cancel₀]
      exact_mod_cast hρn.ne'
    have ha := abs_le.mp (le_refl |ν + σ * (n - 1) - sweepLag g.rate σ|)
    rw [hpol, mul_assoc, ← phasor_add, Complex.arg_real_mul _ hρn, show -sweepLag g.rate σ + (ν + σ * (n - 1)) = ν + σ * (n - 1) - sweepLag g.rate σ by ring]
    exact phasor_arg _ (by linarith [ha.1]) (by linarith [ha.2])
  · rw [m3, add_sub_cancel_left, norm_mul, norm_pow, hn1, norm_mul ρ, phasor_norm, mul_one]
    refine le_trans (mul_le_mul_of_nonneg_left ?_ (pow_nonneg (by linarith) _)) hle
    refine (norm_sub_le _ _).trans ?_
    rw [norm_mul, phasor_norm, mul_one]
    linarith

/-- The lag of a slow sweep is about `(1 - rate) σ / rate`: never more than that for an upward sweep of less than half a turn per sample. -/
theorem C138_lag_bound (r σ : ℝ) (h0 : 0 < r) (h1 : r ≤ 1) (hσ : 0 ≤ σ) (hσ1 : σ ≤ 1) : 0 ≤ sweepLag r σ ∧ sweepLag r σ ≤ (1 - r) * σ / r := by
  have hpi := Real.pi_pos
  have hs0 : 0 ≤ Real.sin (Real.pi * σ) := Real.sin_nonneg_of_nonneg_of_le_pi (by positivity) (by nlinarith)
  have hs1 : Real.sin (Real.pi * σ) ≤ Real.pi * σ := Real.sin_le (by positivity)
  have hc := Real.cos_le_one (Real.pi * σ)
  have hden : r ≤ 1 - (1 - r) * Real.cos (Real.pi * σ) := by nlinarith
  have ht0 : 0 ≤ (1 - r) * Real.sin (Real.pi * σ) / (1 - (1 - r) * Real.cos (Real.pi * σ)) := div_nonneg (mul_nonneg (by linarith) hs0) (by linarith)
  constructor
  · exact div_nonneg (Real.arctan_nonneg.mpr ht0) hpi.le
  · have h2 : Real.arctan ((1 - r) * Real.sin (Real.pi * σ) / (1 - (1 - r) * Real.cos (Real.pi * σ))) ≤ (1 - r) * Real.sin (Real.pi * σ) / (1 - (1 - r) * Real.cos (Real.pi * σ)) :=
      (Real.le_tan (Real.arctan_nonneg.mpr ht0) (Real.arctan_lt_pi_div_two _)).trans (le_of_eq (Real.tan_arctan _))
    have h3 : (1 - r) * Real.sin (Real.pi * σ) / (1 - (1 - r) * Real.cos (Real.pi * σ)) ≤ (1 - r) * (Real.pi * σ) / r :=
      div_le_div₀ (mul_nonneg (by linarith) (by positivity)) (mul_le_mul_of_nonneg_left hs1 (by linarith)) h0 hden
    rw [sweepLag, div_le_iff₀ hpi]
    calc _ ≤ (1 - r) * (Real.pi * σ) / r := h2.trans h3
      _ = _ := by ring

/-- A short sweep: frequencies 1/4 and 1/2. -/
noncomputable def shortSweep : List ℂ := [phasor 0, phasor (1 / 4), phasor (3 / 4)]

theorem shortSweep_prepare (hilbert : List ℂ → List ℂ) : prepare hilbert shortSweep = shortSweep := by
  have h : 0 < Real.sin (Real.pi * (1 / 4)) := Real.sin_pos_of_pos_of_lt_pi (by positivity) (by linarith [Real.pi_pos])
  unfold prepare
  rw [if_pos ⟨phasor (1 / 4), by simp [shortSweep], by rw [phasor_im]; exact h.ne'⟩]

/-- The hypotheses of C138_linear and C138_lag hold for it. -/
theorem shortSweep_spec (n : ℕ) (hn : n < 3) : at0 shortSweep n = ((1 : ℝ) : ℂ) * phasor (0 + 1 / 4 * n + 1 / 4 * (n * (n - 1) / 2)) := by
  interval_cases n
  · simp [shortSweep, at0]
  · simp [shortSweep, at0]
  · simp only [shortSweep, at0, List.getD_cons_succ, List.getD_cons_zero, Complex.ofReal_one, one_mul]
    norm_num

example (hilbert : List ℂ → List ℂ) (g : FreqF) (hs : g.s = 1) (hb : g.b = 1) (hr : g.rate = 1) :
    ∃ out g', g.filter hilbert shortSweep = (.ok out, g') ∧ ∃ y e b, out[2]? = some (y, e, b) ∧ y = 1 / 4 := by
  obtain ⟨out, g', h1, h2, h3⟩ := C138_lag hilbert g (by rw [hs]; simp) (by rw [hb]; simp) (by rw [hr]; norm_num) (by rw [hr]) shortSweep (by simp [shortSweep])
    (fun _ => 1) (fun _ => by norm_num) 0 (1 / 4) (1 / 4) (by rw [shortSweep_prepare]; exact fun n hn => shortSweep_spec n (by simpa [shortSweep] using hn))
  have hl : sweepLag 1 (1 / 4) = 0 := by simp [sweepLag]
  rw [shortSweep_prepare] at h2
  refine ⟨out, g', h1, ?_⟩
  have := h3 1 (by rw [h2]; simp [shortSweep]) 0 (by norm_num) (by rw [hr]; simp) (by rw [hr, hl]; norm_num [abs_lt])
  rw [hr, hl] at this
  obtain ⟨y, e, b, m1, m2⟩ := this
  refine ⟨y, e, b, m1, ?_⟩
  simp only [Real.arcsin_zero, zero_div] at m2
  have := abs_nonpos_iff.mp m2
  push_cast at this
  linarith

/-- The sweep of the documentation (128 frequencies from 0 to 0.1, rate 0.1): the estimate lags by at most 9 steps. -/
example : 0 ≤ sweepLag 0.1 (0.1 / 127) ∧ sweepLag 0.1 (0.1 / 127) ≤ 9 * (0.1 / 127) := by
  have := C138_lag_bound 0.1 (0.1 / 127) (by norm_num) (by norm_num) (by norm_num) (by norm_num)
  exact ⟨this.1, this.2.trans (by norm_num)⟩

/-- The sweep of the documentation of ComplexBandpassFilter: with rate 0.05 and frequencies within 1e-4 of 0.1 the error falls below 0.007. -/
example (hilbert : List ℂ → List ℂ) (f : Bandpass) (hf : Bandpass.Reach hilbert f) (hr : f.rate = 0.05) (hfr : f.frequency = 0.1) (p : CExp) (x : List ℝ) (hne : x ≠ [])
    (hx : ∀ v ∈ x, |v - 0.1| ≤ 1e-4) :
    ∃ d p', p.filter x = (.ok d, p') ∧ (prepare hilbert (d.map ((1 : ℂ) * ·)) = d.map ((1 : ℂ) * ·) → ∃ out f', f.filter hilbert (d.map ((1 : ℂ) * ·)) = (.ok out, f') ∧
      ∀ n < x.length, ∃ y e b, out[n]? = some (y, e, b) ∧ ‖e‖ ≤ 0.95 ^ n * ‖phasor p.phase - phasor f.osc.phase * f.b‖ + 0.007) := by
  obtain ⟨d, p', h1, h2⟩ := C138_band_sweep hilbert f hf (by rw [hr]; norm_num) p x ⟨hne, fun v hv => by
    have := abs_le.mp (hx v hv)
    rw [abs_le]; constructor <;> norm_num at this ⊢ <;> linarith [this.1, this.2]⟩ 1e-4 (by rw [hfr]; exact hx)
  refine ⟨d, p', h1, fun hA => ?_⟩
  obtain ⟨out, f', k1, k2, k3⟩ := h2 1 hA
  refine ⟨out, f', k1, fun n hn => ?_⟩
  obtain ⟨y, e, b, m1, m2, m3⟩ := k3 n hn
  refine ⟨y, e, b, m1, m3.trans ?_⟩
  rw [hr, norm_one, one_mul, one_mul, show (1 : ℝ) - 0.05 = 0.95 by norm_num]
  have := Real.pi_lt_d2
  have : Real.pi * 1e-4 / 0.05 ≤ 0.007 := by norm_num at this ⊢; linarith
  linarith

/-- The hypotheses of `C138_band`, `C138_track` and `C138_linear` hold for a constant signal: a filter at frequency zero, no change, and no sweep. -/
example : (∃ f, Bandpass.Reach id f ∧ 0 < f.rate ∧ f.frequency = 0 ∧ ∀ n, n + 1 < 3 → ‖at0 (prepare id [2, 2, 2]) (n + 1) - phasor f.frequency * at0 (prepare id [2, 2, 2]) n‖ ≤ 0) ∧
    (∀ v ∈ prepare id [2, 2, 2], 1e-8 < ‖v‖) ∧ ∀ n < (prepare id [2, 2, 2]).length, at0 (prepare id [2, 2, 2]) n = (2 : ℝ) * phasor (0 + 0 * n + 0 * (n * (n - 1) / 2)) := by
  have hp : prepare id [2, 2, 2] = [2, 2, 2] := by simp [prepare]
  have h0 : phasor 0 = 1 := by simp [phasor]
  rw [hp]
  refine ⟨⟨⟨(eps : ℂ), ⟨0⟩, 0, 1 / 10⟩, .new (v := 0) (r := 1 / 10) ?_, by norm_num, rfl, fun n hn => ?_⟩, fun v hv => ?_, fun n hn => ?_⟩
  · norm_num [Bandpass.new]
  · have : n = 0 ∨ n = 1 := by omega
    rcases this with rfl | rfl <;> simp [at0, h0]
  · simp at hv; rw [hv]; norm_num
  · have hn : n < 3 := hn
    interval_cases n <;> simp [at0, h0]

end Verif.Props
