import Verif.Props.Adaptive
import Mathlib.Analysis.SpecificLimits.Normed
import Mathlib.Analysis.Normed.Ring.InfiniteSum

/- Property C102: ComplexBandpassFilter (diamondback/filters/complex_bandpass_filter.py) is a linear bandpass filter. -/

namespace Verif.Props

open Finset Spec Complex

theorem phasor_conj (t : ℝ) : (starRingEnd ℂ) (phasor t) = phasor (-t) := by
  simp [phasor, ← Complex.exp_conj]

theorem phasor_zero : phasor 0 = 1 := by simp [phasor]

theorem Bandpass.loop_coefficient (r : ℝ) (x : ℕ → ℂ) (hx : ∀ n, ‖x n‖ = 1) (d : List ℂ) : ∀ (b : ℂ) (o : ℕ),
    (Bandpass.loop r b (((List.range d.length).map fun n => x (o + n)).zip d)).1.length = d.length ∧
    (∀ n < d.length, (Bandpass.loop r b (((List.range d.length).map fun n => x (o + n)).zip d)).1[n]? =
      some (x (o + n) * ((1 - r) ^ n * b + ∑ i ∈ range n, r * (1 - r) ^ (n - 1 - i) * (at0 d i * (starRingEnd ℂ) (x (o + i)))),
        at0 d n - x (o + n) * ((1 - r) ^ n * b + ∑ i ∈ range n, r * (1 - r) ^ (n - 1 - i) * (at0 d i * (starRingEnd ℂ) (x (o + i)))),
        (1 - r) ^ n * b + ∑ i ∈ range n, r * (1 - r) ^ (n - 1 - i) * (at0 d i * (starRingEnd ℂ) (x (o + i))))) ∧
    (Bandpass.loop r b (((List.range d.length).map fun n => x (o + n)).zip d)).2 =
      (1 - r) ^ d.length * b + ∑ i ∈ range d.length, r * (1 - r) ^ (d.length - 1 - i) * (at0 d i * (starRingEnd ℂ) (x (o + i))) := by
  induction d with
  | nil => intro b o; simp [Bandpass.loop]
  | cons v d ih =>
    intro b o
    have hz : ((List.range (v :: d).length).map fun n => x (o + n)).zip (v :: d) = (x o, v) :: ((List.range d.length).map fun n => x (o + 1 + n)).zip d := by
      rw [List.length_cons, List.range_succ_eq_map, List.map_cons, List.zip_cons_cons, List.map_map]
      congr 3
      funext n
      simp only [Function.comp_apply]
      congr 1; omega
    rw [hz]
    simp only [Bandpass.loop]
    obtain ⟨i1, i2, i3⟩ := ih (b + r * (v - x o * b) * (starRingEnd ℂ) (x o)) (o + 1)
    have hu : x o * (starRingEnd ℂ) (x o) = 1 := by rw [Complex.mul_conj, Complex.normSq_eq_norm_sq, hx]; simp
    have hb : b + r * (v - x o * b) * (starRingEnd ℂ) (x o) = (1 - r) * b + r * (v * (starRingEnd ℂ) (x o)) := by linear_combination (-r * b) * hu
    have step : ∀ n, (1 - (r : ℂ)) ^ n * (b + r * (v - x o * b) * (starRingEnd ℂ) (x o)) + ∑ i ∈ range n, r * (1 - r) ^ (n - 1 - i) * (at0 d i * (starRingEnd ℂ) (x (o + 1 + i))) =
        (1 - r) ^ (n + 1) * b + ∑ i ∈ range (n + 1), r * (1 - r) ^ (n + 1 - 1 - i) * (at0 (v :: d) i * (starRingEnd ℂ) (x (o + i))) := by
      intro n
      rw [sum_range_succ', hb]
      have : ∀ i ∈ range n, (r : ℂ) * (1 - r) ^ (n + 1 - 1 - (i + 1)) * (at0 (v :: d) (i + 1) * (starRingEnd ℂ) (x (o + (i + 1)))) =
          r * (1 - r) ^ (n - 1 - i) * (at0 d i * (starRingEnd ℂ) (x (o + 1 + i))) := by
        intro i hi
        rw [show n + 1 - 1 - (i + 1) = n - 1 - i by omega, show o + (i + 1) = o + 1 + i by omega]
        rfl
      rw [sum_congr rfl this]
      simp only [Nat.add_sub_cancel, Nat.sub_zero, add_zero]
      rw [show at0 (v :: d) 0 = v from rfl]
      ring
    refine ⟨by simp [i1], fun n hn => ?_, ?_⟩
    · rcases n with _ | n
      · simp [at0]
      · have := i2 n (by simpa using hn)
        rw [List.getElem?_cons_succ, this, step n, show o + 1 + n = o + (n + 1) by omega]
        rfl
    · rw [i3, step d.length]; rfl

/-- C102: the output is the signal convolved with the impulse response, and the starting coefficient dying out. -/
theorem C102_output (hilbert : List ℂ → List ℂ) (f : Bandpass) (hf : Bandpass.Reach hilbert f) (d : List ℂ) (hd : d ≠ []) (hp : prepare hilbert d ≠ []) :
    ∃ out f', f.filter hilbert d = (.ok out, f') ∧ out.length = (prepare hilbert d).length ∧
      ∀ n < (prepare hilbert d).length, ∃ y e b, out[n]? = some (y, e, b) ∧
        y = ∑ k ∈ range (n + 1), bandImpulse f.rate f.frequency k * at0 (prepare hilbert d) (n - k) + (1 - f.rate) ^ n * f.b * phasor (f.osc.phase + f.frequency * n) ∧
        e = at0 (prepare hilbert d) n - y := by
  have hl : ¬ d.length = 0 := by simpa using hd
  obtain ⟨o, h1, _⟩ := CExp.filter_const f.osc f.frequency hf.spec.1 (prepare hilbert d).length (by simpa using hp)
  obtain ⟨k1, k2, -⟩ := Bandpass.loop_coefficient f.rate (fun n => phasor (f.osc.phase + f.frequency * n)) (fun n => phasor_norm _) (prepare hilbert d) f.b 0
  have ht : (List.range (prepare hilbert d).length).map (fun n => phasor (f.osc.phase + f.frequency * ((0 + n : ℕ) : ℝ))) = tone 1 f.frequency f.osc.phase (prepare hilbert d).length := by
    simp [tone]
  rw [ht] at k1 k2
  refine ⟨_, _, by simp only [Bandpass.filter, hl, if_false, h1]; rfl, k1, fun n hn => ⟨_, _, _, k2 n hn, ?_, rfl⟩⟩
  rw [sum_range_succ', mul_add, add_comm]
  simp only [zero_add]
  congr 1
  · rw [← sum_range_reflect]
    rw [show bandImpulse f.rate f.frequency 0 = 0 from rfl, zero_mul, add_zero, mul_sum]
    apply sum_congr rfl
    intro i hi
    have hi := mem_range.mp hi
    rw [bandImpulse, if_neg (by omega), phasor_conj, show n - 1 - (n - 1 - i) = i by omega, show n - (i + 1) = n - 1 - i by omega, Nat.add_sub_cancel]
    have e : phasor (f.osc.phase + f.frequency * n) * phasor (-(f.osc.phase + f.frequency * ((n - 1 - i : ℕ) : ℝ))) = phasor (f.frequency * ((i + 1 : ℕ) : ℝ)) := by
      rw [← phasor_add, show n - 1 - i = n - (i + 1) by omega, Nat.cast_sub (by omega)]; congr 1; ring
    rw [← e]; ring
  · ring

theorem phasor_nat (t : ℝ) (k : ℕ) : phasor (t * k) = phasor t ^ k := by
  rw [phasor, phasor, ← Complex.exp_nat_mul]; congr 1; push_cast; ring

/-- C102: the frequency response. -/
theorem C102_response (rate v θ : ℝ) (h0 : 0 < rate) (h1 : rate ≤ 1) : HasSum (fun k : ℕ => bandImpulse rate v k * phasor (-(θ * k))) (bandResponse rate v θ) := by
  rw [← hasSum_nat_add_iff' 1]
  simp only [range_one, sum_singleton]
  rw [show bandImpulse rate v 0 = 0 from rfl, zero_mul, sub_zero]
  have hn : ‖(1 - (rate : ℂ)) * phasor (v - θ)‖ < 1 := by
    rw [norm_mul, phasor_norm, mul_one, show (1 : ℂ) - rate = ((1 - rate : ℝ) : ℂ) by push_cast; rfl, Complex.norm_real, Real.norm_eq_abs, abs_lt]
    constructor <;> linarith
  have hg := (hasSum_geometric_of_norm_lt_one hn).mul_left ((rate : ℂ) * phasor (v - θ))
  rw [← div_eq_mul_inv] at hg
  have e : (fun k : ℕ => bandImpulse rate v (k + 1) * phasor (-(θ * ((k + 1 : ℕ) : ℝ)))) = fun k : ℕ => (rate : ℂ) * phasor (v - θ) * ((1 - (rate : ℂ)) * phasor (v - θ)) ^ k := by
    funext k
    rw [bandImpulse, if_neg (by omega), Nat.add_sub_cancel, mul_pow, ← phasor_nat, mul_assoc ((rate : ℂ) * _), ← phasor_add]
    rw [show v * ((k + 1 : ℕ) : ℝ) + -(θ * ((k + 1 : ℕ) : ℝ)) = (v - θ) + (v - θ) * k by push_cast; ring, phasor_add]
    ring
  rw [e]
  exact hg

/-- A tenth. -/
example := C102_response (1 / 10) (1 / 4) (5 / 4) (by norm_num) (by norm_num)

theorem band_denominator (rate t : ℝ) : ‖1 - (1 - (rate : ℂ)) * phasor t‖ ^ 2 = 1 - 2 * (1 - rate) * Real.cos (Real.pi * t) + (1 - rate) ^ 2 := by
  have e : phasor t = (Real.cos (Real.pi * t) : ℂ) + (Real.sin (Real.pi * t) : ℂ) * I := by
    rw [phasor, show I * (Real.pi : ℂ) * t = ((Real.pi * t : ℝ) : ℂ) * I by push_cast; ring, Complex.exp_mul_I]
    push_cast; rfl
  rw [e, ← Complex.normSq_eq_norm_sq, Complex.normSq_apply]
  simp only [Complex.sub_re, Complex.sub_im, Complex.one_re, Complex.one_im, Complex.mul_re, Complex.mul_im, Complex.add_re, Complex.add_im, Complex.ofReal_re, Complex.ofReal_im, Complex.I_re, Complex.I_im]
  have := Real.sin_sq_add_cos_sq (Real.pi * t)
  linear_combination (1 - rate) ^ 2 * this

/-- C102: the squared magnitude of the response depends on the distance from the frequency of the filter only. -/
theorem C102_magnitude (rate v θ : ℝ) : ‖bandResponse rate v θ‖ ^ 2 = rate ^ 2 / (rate ^ 2 + 2 * (1 - rate) * (1 - Real.cos (Real.pi * (v - θ)))) := by
  rw [bandResponse, norm_div, div_pow, norm_mul, phasor_norm, mul_one, band_denominator, Complex.norm_real, Real.norm_eq_abs, sq_abs]
  congr 1
  ring

example := C102_magnitude (1 / 10) (1 / 4) (1 / 2)

/-- C102: the response is one at the frequency of the filter, and smaller everywhere else. -/
theorem C102_selective (rate v : ℝ) (h0 : 0 < rate) (h1 : rate < 1) : bandResponse rate v v = 1 ∧ (∀ θ, ‖bandResponse rate v θ‖ ≤ 1) ∧
    (∀ θ, ‖bandResponse rate v θ‖ = 1 ↔ ∃ k : ℤ, θ = v + 2 * k) ∧ (∀ θ θ', |v - θ| ≤ |v - θ'| → |v - θ'| ≤ 1 → ‖bandResponse rate v θ'‖ ≤ ‖bandResponse rate v θ‖) ∧
    ‖bandResponse rate v (v + 1)‖ = rate / (2 - rate) := by
  have hden : ∀ θ, 0 ≤ 2 * (1 - rate) * (1 - Real.cos (Real.pi * (v - θ))) := by
    intro θ
    have := Real.cos_le_one (Real.pi * (v - θ))
    exact mul_nonneg (by linarith) (by linarith)
  have hr : 0 < rate ^ 2 := by positivity
  refine ⟨?_, ?_, ?_, ?_, ?_⟩
  · rw [bandResponse, sub_self, phasor_zero, mul_one, mul_one, sub_sub_cancel, div_self (by exact_mod_cast h0.ne')]
  · intro θ
    rw [← abs_of_nonneg (norm_nonneg (bandResponse rate v θ)), ← sq_le_one_iff_abs_le_one, C102_magnitude]
    exact div_le_one_of_le₀ (by linarith [hden θ]) (by linarith [hden θ])
  · intro θ
    have e : ‖bandResponse rate v θ‖ = 1 ↔ ‖bandResponse rate v θ‖ ^ 2 = 1 := by
      exact (pow_eq_one_iff_of_nonneg (norm_nonneg _) two_ne_zero).symm
    rw [e, C102_magnitude, div_eq_one_iff_eq (by linarith [hden θ])]
    constructor
    · intro h
      have h2 : (1 - rate) * (1 - Real.cos (Real.pi * (v - θ))) = 0 := by linarith
      have hc : Real.cos (Real.pi * (v - θ)) = 1 := by
        rcases mul_eq_zero.mp h2 with h3 | h3 <;> linarith
      obtain ⟨k, hk⟩ := (Real.cos_eq_one_iff _).mp hc
      refine ⟨-k, ?_⟩
      have : Real.pi * (2 * k) = Real.pi * (v - θ) := by linarith
      have := mul_left_cancel₀ Real.pi_ne_zero this
      push_cast; linarith
    · rintro ⟨k, rfl⟩
      rw [show Real.pi * (v - (v + 2 * (k : ℝ))) = ((-k : ℤ) : ℝ) * (2 * Real.pi) by push_cast; ring, Real.cos_int_mul_two_pi]
      ring
  · intro θ θ' h h'
    rw [← Real.sqrt_sq (norm_nonneg (bandResponse rate v θ')), ← Real.sqrt_sq (norm_nonneg (bandResponse rate v θ)), C102_magnitude, C102_magnitude]
    apply Real.sqrt_le_sqrt
    have hc : Real.cos (Real.pi * (v - θ')) ≤ Real.cos (Real.pi * (v - θ)) := by
      rw [← Real.cos_abs (Real.pi * (v - θ')), ← Real.cos_abs (Real.pi * (v - θ)), abs_mul, abs_mul, abs_of_pos Real.pi_pos]
      exact Real.cos_le_cos_of_nonneg_of_le_pi (by positivity) (by nlinarith [Real.pi_pos]) (by nlinarith [Real.pi_pos])
    apply div_le_div_of_nonneg_left hr.le (by linarith [hden θ])
    nlinarith
  · rw [← Real.sqrt_sq (norm_nonneg (bandResponse rate v (v + 1))), C102_magnitude, show Real.pi * (v - (v + 1)) = -Real.pi by ring, Real.cos_neg, Real.cos_pi]
    rw [show rate ^ 2 + 2 * (1 - rate) * (1 - -1) = (2 - rate) ^ 2 by ring, ← div_pow, Real.sqrt_sq (div_nonneg h0.le (by linarith))]

example : bandResponse (1 / 10) (1 / 4) (1 / 4) = 1 ∧ ‖bandResponse (1 / 10) (1 / 4) (5 / 4)‖ = 1 / 19 := by
  have h := C102_selective (1 / 10) (1 / 4) (by norm_num) (by norm_num)
  refine ⟨h.1, ?_⟩
  have := h.2.2.2.2
  norm_num at this ⊢
  exact this

/-- C102: a tone of any frequency and phase.  The output is the tone multiplied by the response, and a part which dies out geometrically. -/
theorem C102_tone (hilbert : List ℂ → List ℂ) (f : Bandpass) (hf : Bandpass.Reach hilbert f) (hr : 0 < f.rate) (A : ℂ) (θ p : ℝ) (N : ℕ) (hN : 0 < N) (d : List ℂ) (hd : d ≠ [])
    (hp : prepare hilbert d = tone A θ p N) :
    ∃ out f' C, f.filter hilbert d = (.ok out, f') ∧ out.length = N ∧ C = f.b - A * bandResponse f.rate f.frequency θ * phasor (p - f.osc.phase) ∧
      ∀ n < N, ∃ y e b, out[n]? = some (y, e, b) ∧
        y = bandResponse f.rate f.frequency θ * (A * phasor (p + θ * n)) + (1 - f.rate) ^ n * C * phasor (f.osc.phase + f.frequency * n) := by
  have hspec := hf.spec
  obtain ⟨out, f', h1, h2, h3⟩ := C102_output hilbert f hf d hd (by rw [hp]; intro e; have := congrArg List.length e; rw [tone_length] at this; simp at this; omega)
  rw [hp, tone_length] at h2 h3
  refine ⟨out, f', _, h1, h2, rfl, fun n hn => ?_⟩
  obtain ⟨y, e, b, g1, g2, -⟩ := h3 n hn
  refine ⟨y, e, b, g1, ?_⟩
  rw [g2]
  have hat : ∀ i < N, at0 (tone A θ p N) i = A * phasor (p + θ * i) := by
    intro i hi
    simp [at0, tone, hi]
  set w := phasor (f.frequency - θ) with hw
  set q : ℂ := (1 - f.rate) * w with hq
  have hden : 1 - q ≠ 0 := by
    intro e
    have hq1 : ‖q‖ = 1 := by rw [← sub_eq_zero.mp e, norm_one]
    rw [hq, norm_mul, phasor_norm, mul_one, show (1 : ℂ) - f.rate = ((1 - f.rate : ℝ) : ℂ) by push_cast; rfl, Complex.norm_real, Real.norm_of_nonneg (by linarith [hspec.2.2])] at hq1
    linarith
  have hs : ∑ k ∈ range (n + 1), bandImpulse f.rate f.frequency k * at0 (tone A θ p N) (n - k) = A * phasor (p + θ * n) * (f.rate * w) * ∑ k ∈ range n, q ^ k := by
    rw [sum_range_succ', show bandImpulse f.rate f.frequency 0 = 0 from rfl, zero_mul, add_zero, mul_sum]
    apply sum_congr rfl
    intro k hk
    have hk := mem_range.mp hk
    rw [hat _ (by omega), bandImpulse, if_neg (by omega), Nat.add_sub_cancel, hq, mul_pow, hw, ← phasor_nat]
    have e : phasor (f.frequency * ((k + 1 : ℕ) : ℝ)) * phasor (p + θ * ((n - (k + 1) : ℕ) : ℝ)) = phasor (p + θ * n) * phasor (f.frequency - θ) * phasor ((f.frequency - θ) * k) := by
      rw [← phasor_add, ← phasor_add, ← phasor_add, Nat.cast_sub (by omega)]; congr 1; push_cast; ring
    linear_combination (A * f.rate * (1 - f.rate) ^ k) * e
  rw [hs]
  have hgeo : (∑ k ∈ range n, q ^ k) * (1 - q) = 1 - q ^ n := by
    have := geom_sum_mul_neg q n
    linear_combination this
  have hB : bandResponse f.rate f.frequency θ * (1 - q) = f.rate * w := by
    rw [bandResponse, ← hw, ← hq, div_mul_cancel₀ _ hden]
  have hqn : q ^ n * phasor (p + θ * n) = (1 - f.rate) ^ n * (phasor (p - f.osc.phase) * phasor (f.osc.phase + f.frequency * n)) := by
    rw [hq, mul_pow, hw, ← phasor_nat, mul_assoc, ← phasor_add, ← phasor_add]
    congr 2; ring
  rw [← hB]
  linear_combination (A * phasor (p + θ * n) * bandResponse f.rate f.frequency θ) * hgeo - A * bandResponse f.rate f.frequency θ * hqn

/-- C102: two signals which differ by at most `δ` give outputs which differ by at most `δ`. -/
theorem C102_robust (hilbert : List ℂ → List ℂ) (f : Bandpass) (hf : Bandpass.Reach hilbert f) (d d' : List ℂ) (hd : d ≠ []) (hd' : d' ≠ []) (hp : prepare hilbert d ≠ [])
    (hl : (prepare hilbert d).length = (prepare hilbert d').length) (δ : ℝ) (h : ∀ n, ‖at0 (prepare hilbert d) n - at0 (prepare hilbert d') n‖ ≤ δ) :
    ∃ out out' f1 f2, f.filter hilbert d = (.ok out, f1) ∧ f.filter hilbert d' = (.ok out', f2) ∧
      ∀ n < (prepare hilbert d).length, ∃ y e b y' e' b', out[n]? = some (y, e, b) ∧ out'[n]? = some (y', e', b') ∧ ‖y - y'‖ ≤ δ := by
  have hspec := hf.spec
  have hp' : prepare hilbert d' ≠ [] := by
    intro e; rw [e] at hl; exact hp (List.length_eq_zero_iff.mp hl)
  obtain ⟨out, f1, h1, h2, h3⟩ := C102_output hilbert f hf d hd hp
  obtain ⟨out', f2, g1, g2, g3⟩ := C102_output hilbert f hf d' hd' hp'
  refine ⟨out, out', f1, f2, h1, g1, fun n hn => ?_⟩
  obtain ⟨y, e, b, a1, a2, -⟩ := h3 n hn
  obtain ⟨y', e', b', c1, c2, -⟩ := g3 n (by omega)
  refine ⟨y, e, b, y', e', b', a1, c1, ?_⟩
  have hδ : 0 ≤ δ := le_trans (norm_nonneg _) (h 0)
  have e0 : y - y' = ∑ k ∈ range (n + 1), bandImpulse f.rate f.frequency k * (at0 (prepare hilbert d) (n - k) - at0 (prepare hilbert d') (n - k)) := by
    rw [a2, c2]
    simp only [mul_sub, sum_sub_distrib]
    ring
  have hnorm : ∀ k, ‖bandImpulse f.rate f.frequency (k + 1)‖ = f.rate * (1 - f.rate) ^ k := by
    intro k
    rw [bandImpulse, if_neg (by omega), Nat.add_sub_cancel, norm_mul, phasor_norm, mul_one, show (f.rate : ℂ) * (1 - f.rate) ^ k = ((f.rate * (1 - f.rate) ^ k : ℝ) : ℂ) by push_cast; rfl,
      Complex.norm_real, Real.norm_of_nonneg]
    exact mul_nonneg hspec.2.1 (pow_nonneg (by linarith [hspec.2.2]) _)
  have hsum : ∑ k ∈ range (n + 1), ‖bandImpulse f.rate f.frequency k‖ ≤ 1 := by
    rw [sum_range_succ', show bandImpulse f.rate f.frequency 0 = 0 from rfl, norm_zero, add_zero]
    simp only [hnorm]
    rw [← mul_sum]
    have := geom_sum_mul_neg (1 - f.rate) n
    have hn0 : 0 ≤ (1 - f.rate) ^ n := pow_nonneg (by linarith [hspec.2.2]) _
    rw [sub_sub_cancel] at this
    linarith
  rw [e0]
  refine (norm_sum_le _ _).trans ?_
  calc ∑ k ∈ range (n + 1), ‖bandImpulse f.rate f.frequency k * (at0 (prepare hilbert d) (n - k) - at0 (prepare hilbert d') (n - k))‖
      ≤ ∑ k ∈ range (n + 1), ‖bandImpulse f.rate f.frequency k‖ * δ := by
        apply sum_le_sum
        intro k _
        rw [norm_mul]
        exact mul_le_mul_of_nonneg_left (h _) (norm_nonneg _)
    _ = (∑ k ∈ range (n + 1), ‖bandImpulse f.rate f.frequency k‖) * δ := by rw [sum_mul]
    _ ≤ 1 * δ := mul_le_mul_of_nonneg_right hsum hδ
    _ = δ := one_mul δ

/-- C102: the gain of white noise, the sum of the squared magnitudes of the impulse response, is `rate / (2 - rate)`. -/
theorem C102_noise (rate v : ℝ) (h0 : 0 < rate) (h1 : rate ≤ 1) : HasSum (fun k : ℕ => ‖bandImpulse rate v k‖ ^ 2) (rate / (2 - rate)) := by
  rw [← hasSum_nat_add_iff' 1]
  simp only [range_one, sum_singleton]
  rw [show bandImpulse rate v 0 = 0 from rfl, norm_zero, zero_pow two_ne_zero, sub_zero]
  have hn : |(1 - rate) ^ 2| < 1 := by
    rw [abs_of_nonneg (sq_nonneg _)]
    nlinarith
  have hg := (hasSum_geometric_of_abs_lt_one hn).mul_left (rate ^ 2)
  have e : rate ^ 2 * (1 - (1 - rate) ^ 2)⁻¹ = rate / (2 - rate) := by
    have : 2 - rate ≠ 0 := by linarith
    rw [show 1 - (1 - rate) ^ 2 = rate * (2 - rate) by ring]
    field_simp
  rw [e] at hg
  have e2 : (fun k : ℕ => ‖bandImpulse rate v (k + 1)‖ ^ 2) = fun k : ℕ => rate ^ 2 * ((1 - rate) ^ 2) ^ k := by
    funext k
    rw [bandImpulse, if_neg (by omega), Nat.add_sub_cancel, norm_mul, phasor_norm, mul_one, show (rate : ℂ) * (1 - rate) ^ k = ((rate * (1 - rate) ^ k : ℝ) : ℂ) by push_cast; rfl,
      Complex.norm_real, Real.norm_eq_abs, sq_abs, mul_pow, ← pow_mul, ← pow_mul, mul_comm k 2]
  rw [e2]
  exact hg

/-- A filter and a tone beside its frequency which meet the hypotheses of `C102_output`, `C102_tone` and `C102_robust`. -/
example : ∃ f, Bandpass.Reach id f ∧ 0 < f.rate ∧ prepare id [2, 2 * phasor (1 / 4)] = tone 2 (1 / 4) 0 2 ∧ f.frequency = 1 / 2 := by
  refine ⟨⟨(eps : ℂ), ⟨0⟩, 1 / 2, 1 / 10⟩, .new (v := 1 / 2) (r := 1 / 10) ?_, by norm_num, ?_, rfl⟩
  · norm_num [Bandpass.new]
  · simp [tone, List.range_succ, prepare, phasor]

end Verif.Props
