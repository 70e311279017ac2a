import Verif.Props.PolyphaseBank
import Verif.Props.Mirror
import Verif.Lemmas.WindowShape

/- The cut-off of FIR designs (C110). -/

namespace Verif.Props

open Finset Spec

theorem sinc_nonneg (x : ℝ) (h : |x| ≤ 1) : 0 ≤ np.sinc x := by
  unfold np.sinc
  split
  · norm_num
  · have hpi := Real.pi_pos
    rcases le_total 0 x with h0 | h0
    · rw [abs_of_nonneg h0] at h
      exact div_nonneg (Real.sin_nonneg_of_nonneg_of_le_pi (by positivity) (by nlinarith)) (by positivity)
    · rw [abs_of_nonpos h0] at h
      exact div_nonneg_of_nonpos (Real.sin_nonpos_of_nonpos_of_neg_pi_le (by nlinarith) (by nlinarith)) (by nlinarith)

/-- The response of a candidate with few coefficients for its frequency. -/
theorem candidate_short (style : WStyle) (order : ℕ) (ho : 0 < order) (h : ¬ ((style = .blackman ∨ style = .hann) ∧ order = 1)) (f : ℝ) (hf : 0 < f) (hf1 : f < 1)
    (hfo : f * order ≤ 1) (x : ℝ) (hx : 0 < x) (hx1 : x ≤ 1) :
    ∃ b, fir.candidate style order f x = .ok b ∧ Real.cos (Real.pi * f * order / 2) ≤ ‖freqResp [] b f‖ := by
  have hpi := Real.pi_pos
  have hor : (0 : ℝ) < order := by exact_mod_cast ho
  obtain ⟨c, hc⟩ : ∃ c, c = min (x * f) (1 - search.eps) := ⟨_, rfl⟩
  have hc0 : 0 < c := by rw [hc]; exact lt_min (mul_pos hx hf) (by unfold search.eps; norm_num)
  have hcf : c ≤ f := by
    rw [hc]
    refine (min_le_left _ _).trans ?_
    nlinarith
  have hp := fir.ideal_sum_pos style order ho h c hc0 (by linarith)
  obtain ⟨S, hS⟩ : ∃ S, S = (fir.ideal style order c).sum := ⟨_, rfl⟩
  refine ⟨(fir.ideal style order c).map (· / S), ?_, ?_⟩
  · unfold fir.candidate
    simp only [← hc]
    rw [if_neg hp.ne', hS]
  · refine le_trans ?_ (norm_ge_cosines _ f (order / 2))
    have hlen : ((fir.ideal style order c).map (· / S)).length = order + 1 := by simp [fir.ideal]
    rw [hlen]
    have hone : ∑ n ∈ range (order + 1), fir.tap style order c n / S = 1 := by
      rw [← sum_div, ← fir.ideal_sum, ← hS, div_self (by rw [hS]; exact hp.ne')]
    calc Real.cos (Real.pi * f * order / 2) = ∑ n ∈ range (order + 1), fir.tap style order c n / S * Real.cos (Real.pi * f * order / 2) := by
          rw [← sum_mul, hone, one_mul]
      _ ≤ _ := by
          apply sum_le_sum
          intro n hn
          have hn := mem_range.mp hn
          rw [at0_candidate style order c S n hn]
          have hnr : (n : ℝ) ≤ order := by exact_mod_cast (by omega : n ≤ order)
          have hn0 : (0 : ℝ) ≤ n := by positivity
          have habs : |(n : ℝ) - order / 2| ≤ order / 2 := by rw [abs_le]; constructor <;> linarith
          apply mul_le_mul_of_nonneg_left
          · rw [← Real.cos_abs (Real.pi * f * ((n : ℝ) - order / 2)), abs_mul, abs_of_pos (by positivity : 0 < Real.pi * f)]
            apply Real.cos_le_cos_of_nonneg_of_le_pi (by positivity)
            · nlinarith
            · have := mul_le_mul_of_nonneg_left habs (by positivity : 0 ≤ Real.pi * f)
              linarith
          · apply div_nonneg _ (by rw [hS]; exact hp.le)
            unfold fir.tap
            apply mul_nonneg (mul_nonneg hc0.le (sinc_nonneg _ _)) (window.value_nonneg _ _ _)
            rw [abs_mul, abs_of_pos hc0]
            have := mul_le_mul hcf habs (abs_nonneg _) hf.le
            linarith

/-- C110.  A design with too few coefficients for its frequency does not reach -3 dB there: while `cos(π f order/2)^count` exceeds `1/√2`, so does the
response of the cascade at the documented cut-off. -/
theorem C110_too_short (style : WStyle) (f : ℝ) (hf : 0 < f) (hf1 : f < 1) (order count : ℤ) (ho : 0 < order) (hcount : 0 < count)
    (h : ¬ ((style = .blackman ∨ style = .hann) ∧ order = 1)) (hfo : f * order ≤ 1) (hshort : 1 / Real.sqrt 2 < Real.cos (Real.pi * f * order / 2) ^ count.toNat) :
    ∃ b, fir.design (some style) f order count false 1 = .ok b ∧ 1 / Real.sqrt 2 < ‖freqResp [] b f‖ ^ count.toNat ∧
      Real.cos (Real.pi * f * order / 2) ≤ ‖freqResp [] b f‖ := by
  have hpi := Real.pi_pos
  have hon : 0 < order.toNat := by omega
  have h' : ¬ ((style = .blackman ∨ style = .hann) ∧ order.toNat = 1) := fun q => h ⟨q.1, by omega⟩
  have hcast : ((order.toNat : ℕ) : ℝ) = (order : ℝ) := by
    have : ((order.toNat : ℤ) : ℝ) = (order : ℝ) := by rw [Int.toNat_of_nonneg ho.le]
    exact_mod_cast this
  have hor : (0 : ℝ) < order := by exact_mod_cast ho
  have hcos : 0 ≤ Real.cos (Real.pi * f * order / 2) := by
    apply Real.cos_nonneg_of_mem_Icc
    constructor
    · have : 0 ≤ Real.pi * f * order / 2 := by positivity
      linarith
    · nlinarith
  have hcand := candidate_short style order.toNat hon h' f hf hf1 (by rw [hcast]; exact hfo)
  rw [hcast] at hcand
  let D : ℝ → ℝ := fun x => match fir.candidate style order.toNat f x with
    | .ok b => 1 / Real.sqrt 2 - ‖freqResp [] b f‖ ^ count.toNat
    | .error _ => 0
  obtain ⟨s, hs⟩ : ∃ s, Scales D 0.03 (1 / 2 ^ 52) s := ⟨search.scales D 0.03, rfl, fun k => by
    show max _ search.eps = _
    unfold search.eps
    norm_num⟩
  have hD : ∀ x b, fir.candidate style order.toNat f x = .ok b → D x = 1 / Real.sqrt 2 - ‖freqResp [] b f‖ ^ count.toNat := by
    intro x b hb
    simp only [D, hb]
  have hle : ∀ k, 0 < s k ∧ s k ≤ 1 := by
    intro k
    induction k with
    | zero => rw [hs.1]; norm_num
    | succ k ih =>
      obtain ⟨b, b1, b2⟩ := hcand (s k) ih.1 ih.2
      rw [hs.2 k]
      refine ⟨lt_of_lt_of_le (by positivity) (le_max_right _ _), max_le ?_ (by norm_num)⟩
      have := pow_le_pow_left₀ hcos b2 count.toNat
      rw [hD _ b b1]
      linarith [ih.2]
  obtain ⟨n, k, b, -, -, -, -, -, q1, q2⟩ := C15_fir_design_best style f hf hf1 order count ho hcount h false 1 s D hs (by simpa using hD)
  obtain ⟨b', b1, b2⟩ := hcand (s k) (hle k).1 (hle k).2
  simp only [Bool.false_eq_true, if_false, mul_one, List.map_id'] at q1 q2
  rw [b1] at q1
  cases q1
  exact ⟨b, q2, lt_of_lt_of_le hshort (pow_le_pow_left₀ hcos b2 _), b2⟩

/-- The hypotheses hold: a filter of two coefficients. -/
example := C110_too_short .hamming 0.1 (by norm_num) (by norm_num) 1 1 (by norm_num) (by norm_num) (by simp) (by norm_num) (by
  have hpi := Real.pi_lt_four
  have h1 := Real.one_sub_sq_div_two_le_cos (x := Real.pi * 0.1 * (1 : ℤ) / 2)
  have h2 : 1 / Real.sqrt 2 ≤ 0.75 := by
    rw [div_le_iff₀ (by positivity)]
    have := (Real.le_sqrt (x := 1.4) (y := 2) (by norm_num) (by norm_num)).mpr (by norm_num)
    linarith
  have h3 : (Real.pi * 0.1 * (1 : ℤ) / 2) ^ 2 ≤ 0.04 := by
    have := Real.pi_pos
    push_cast
    nlinarith
  rw [show (1 : ℤ).toNat = 1 from rfl, pow_one]
  linarith)

/-- C110.  One filter: below half a period over the coefficients the cut-off is missed. -/
theorem C110_miss (style : WStyle) (f : ℝ) (hf : 0 < f) (order : ℤ) (ho : 0 < order) (h : ¬ ((style = .blackman ∨ style = .hann) ∧ order = 1))
    (hfo : f * order < 1 / 2) : ∃ b, fir.design (some style) f order 1 false 1 = .ok b ∧ 1 / Real.sqrt 2 < ‖freqResp [] b f‖ := by
  have hpi := Real.pi_pos
  have hor : (1 : ℝ) ≤ order := by exact_mod_cast ho
  have hcos : 1 / Real.sqrt 2 < Real.cos (Real.pi * f * order / 2) := by
    have e : 1 / Real.sqrt 2 = Real.cos (Real.pi / 4) := by
      rw [Real.cos_pi_div_four]
      rw [div_eq_div_iff (by positivity) (by norm_num)]
      norm_num
    rw [e]
    apply Real.cos_lt_cos_of_nonneg_of_le_pi
    · have : 0 ≤ f * order := by positivity
      nlinarith
    · linarith
    · nlinarith
  obtain ⟨b, h1, h2, -⟩ := C110_too_short style f hf (by nlinarith) order 1 ho (by norm_num) h (by linarith) (by simpa using hcos)
  exact ⟨b, h1, by simpa using h2⟩

/-- The example in the class text with a tenth of its frequency: Kaiser, order 32, frequency 0.01. -/
example : ∃ b, fir.design (some .kaiser) 0.01 32 1 false 1 = .ok b ∧ 1 / Real.sqrt 2 < ‖freqResp [] b 0.01‖ :=
  C110_miss .kaiser 0.01 (by norm_num) 32 (by norm_num) (by simp) (by norm_num)

theorem phase_neg (style : WStyle) (order : ℕ) (x : ℝ) : window.phase style order (-x) = -window.phase style order x := by
  unfold window.phase
  rw [← sum_neg_distrib]
  apply sum_congr rfl
  intro n _
  unfold tone
  split
  · ring
  · rw [mul_neg, Real.sin_neg]; ring

theorem tap_tone (style : WStyle) (order : ℕ) (c : ℝ) (hc : c ≠ 0) (n : ℕ) :
    fir.tap style order c n = window.value style (order + 1) n * tone (Real.pi * c) ((n : ℝ) - order / 2) / Real.pi := by
  have hpi := Real.pi_ne_zero
  unfold tone
  split
  · next h =>
    unfold fir.tap np.sinc
    rw [h, mul_zero, if_pos rfl]
    field_simp
  · next h =>
    rw [fir.tap_eq style order c hc n h]
    field_simp

theorem tap_tone_cos (style : WStyle) (order : ℕ) (c u : ℝ) (hc : c ≠ 0) (n : ℕ) :
    fir.tap style order c n * Real.cos (Real.pi * u * ((n : ℝ) - order / 2)) =
      (window.value style (order + 1) n * tone (Real.pi * (c + u)) ((n : ℝ) - order / 2) + window.value style (order + 1) n * tone (Real.pi * (c - u)) ((n : ℝ) - order / 2)) / 2 / Real.pi := by
  have hpi := Real.pi_ne_zero
  rw [tap_tone style order c hc n]
  unfold tone
  split
  · next h => rw [h]; simp; ring
  · next h =>
    generalize (n : ℝ) - order / 2 = m at *
    rw [show m * (Real.pi * (c + u)) = m * (Real.pi * c) + Real.pi * u * m by ring, show m * (Real.pi * (c - u)) = m * (Real.pi * c) - Real.pi * u * m by ring,
      Real.sin_add, Real.sin_sub]
    field_simp
    ring

/-- The response of the ideal low-pass times a window, divided by its sum. -/
theorem ideal_response (style : WStyle) (order : ℕ) (c : ℝ) (hc : c ≠ 0) (u : ℝ) :
    ‖freqResp [] ((fir.ideal style order c).map (· / (fir.ideal style order c).sum)) u‖ =
      |(window.phase style order (Real.pi * (c + u)) + window.phase style order (Real.pi * (c - u))) / 2 / window.phase style order (Real.pi * c)| := by
  have hpi := Real.pi_ne_zero
  have hsum : (fir.ideal style order c).sum = window.phase style order (Real.pi * c) / Real.pi := by
    rw [fir.ideal_sum, window.phase, sum_div]
    exact sum_congr rfl fun n _ => tap_tone style order c hc n
  obtain ⟨S, hS⟩ : ∃ S, S = (fir.ideal style order c).sum := ⟨_, rfl⟩
  rw [← hS]
  have hat : ∀ n ∈ range (order + 1), at0 ((fir.ideal style order c).map (· / S)) n = fir.tap style order c n / S :=
    fun n hn => at0_candidate style order c S n (mem_range.mp hn)
  have hlin := linear_phase_at ((fir.ideal style order c).map (· / S)) order (by simp [fir.ideal]) (fun n hn => by
    rw [hat n (mem_range.mpr (by omega)), hat (order - n) (mem_range.mpr (by omega)), fir.tap_symm style order c n hn]) u
  have h1 : freqResp [] ((fir.ideal style order c).map (· / S)) u = dtft ((fir.ideal style order c).map (· / S)) u := by simp [freqResp, dtft]
  rw [h1, hlin, norm_mul, Complex.norm_real, Real.norm_eq_abs,
    show -(Complex.I * Real.pi * u * ((order : ℝ) / 2 : ℝ)) = ((-(Real.pi * u * (order / 2)) : ℝ) : ℂ) * Complex.I by push_cast; ring, Complex.norm_exp_ofReal_mul_I, one_mul]
  congr 1
  have h2 : ∀ n ∈ range (order + 1), at0 ((fir.ideal style order c).map (· / S)) n * Real.cos (Real.pi * u * ((order : ℝ) / 2 - n)) =
      (window.value style (order + 1) n * tone (Real.pi * (c + u)) ((n : ℝ) - order / 2) + window.value style (order + 1) n * tone (Real.pi * (c - u)) ((n : ℝ) - order / 2)) / 2 / Real.pi / S := by
    intro n hn
    rw [hat n hn, ← tap_tone_cos style order c u hc n, ← Real.cos_neg, show -(Real.pi * u * ((order : ℝ) / 2 - n)) = Real.pi * u * ((n : ℝ) - order / 2) by ring]
    ring
  rw [sum_congr rfl h2, ← sum_div, ← sum_div, ← sum_div, sum_add_distrib, hS, hsum]
  unfold window.phase
  rw [div_div_div_cancel_right₀ hpi]

/-- The sine is at least the distance from the next zero. -/
theorem sine_ge (a : ℝ) (h0 : 0 ≤ a) (h2 : a ≤ 2) (d : ℝ) (h1 : d ≤ a) (h3 : d ≤ 2 - a) : d ≤ Real.sin (Real.pi * a / 2) := by
  have hpi := Real.pi_pos
  have key : ∀ a, 0 ≤ a → a ≤ 1 → a ≤ Real.sin (Real.pi * a / 2) := by
    intro a h0 h1
    have := Real.mul_le_sin (x := Real.pi * a / 2) (by positivity) (by nlinarith)
    rwa [show 2 / Real.pi * (Real.pi * a / 2) = a by field_simp] at this
  rcases le_total a 1 with h | h
  · exact h1.trans (key a h0 h)
  · have := key (2 - a) (by linarith) (by linarith)
    rw [show Real.pi * (2 - a) / 2 = Real.pi - Real.pi * a / 2 by ring, Real.sin_pi_sub] at this
    linarith

/-- The ideal low-pass times a window: stop band, pass band and a bound everywhere. -/
theorem ideal_lowpass (style : WStyle) (order : ℕ) (c : ℝ) (hc : 0 < c) (hc1 : c < 1) (hoc : 16 ≤ order * c) (b : List ℝ)
    (hb : b = (fir.ideal style order c).map (· / (fir.ideal style order c).sum)) :
    (∀ u, c < u → u ≤ 1 → ‖freqResp [] b u‖ ≤ 13 / (order * (u - c)) ^ 2 + 1 / (8 * (order * (u - c)))) ∧
    (∀ u, 0 ≤ u → u < c → |‖freqResp [] b u‖ - 1| ≤ 26 / (order * (c - u)) ^ 2 + 1 / (4 * (order * (c - u)))) ∧
    ∀ u, 0 ≤ u → u ≤ 1 → ‖freqResp [] b u‖ ≤ 2.15 := by
  have hpi := Real.pi_gt_d4
  have hpi2 := Real.pi_lt_d4
  have hor : (16 : ℝ) ≤ order := by nlinarith [(Nat.cast_nonneg order : (0 : ℝ) ≤ order)]
  have ho : 0 < order := by
    rcases Nat.eq_zero_or_pos order with h | h
    · rw [h] at hor; norm_num at hor
    · exact h
  obtain ⟨w, w1, w2, hnear, hall⟩ := window.phase_near style order ho
  have herr : ∀ a d : ℝ, 0 < d → d ≤ order * a → d ≤ order * (2 - a) → |window.phase style order (Real.pi * a) - w * Real.pi| ≤ 37.3 / d ^ 2 + 0.32 / d := by
    intro a d hd h1 h2
    have ha : 0 < a := by nlinarith
    have ha2 : a < 2 := by nlinarith
    have hs := sine_ge a ha.le ha2.le (d / order) (by rw [div_le_iff₀ (by linarith)]; linarith) (by rw [div_le_iff₀ (by linarith)]; linarith)
    rw [div_le_iff₀ (by linarith)] at hs
    refine (hnear (Real.pi * a) (by positivity) (by nlinarith)).trans ?_
    have hd' : d ≤ order * Real.sin (Real.pi * a / 2) := by linarith
    apply add_le_add
    · apply div_le_div_of_nonneg_left (by norm_num) (by positivity)
      exact pow_le_pow_left₀ hd.le hd' 2
    · exact div_le_div_of_nonneg_left (by norm_num) hd hd'
  have hP : 2.926 ≤ window.phase style order (Real.pi * c) := by
    have h1 := herr c 16 (by norm_num) hoc (by nlinarith)
    rw [abs_le] at h1
    have h2 : 4.05 / (order : ℝ) ^ 2 ≤ 4.05 / 256 := by
      apply div_le_div_of_nonneg_left (by norm_num) (by norm_num)
      nlinarith
    have h3 : 0.98417 * Real.pi ≤ w * Real.pi := mul_le_mul_of_nonneg_right (by norm_num at *; linarith) (by linarith)
    norm_num at *
    linarith [h1.1]
  have hPpos : 0 < window.phase style order (Real.pi * c) := by linarith
  have hresp := ideal_response style order c hc.ne'
  rw [← hb] at hresp
  refine ⟨fun u h1 h2 => ?_, fun u h1 h2 => ?_, fun u h1 h2 => ?_⟩
  · have hd : 0 < order * (u - c) := by apply mul_pos <;> linarith
    have e1 := herr (c + u) (order * (u - c)) hd (by nlinarith) (by nlinarith)
    have e2 := herr (u - c) (order * (u - c)) hd le_rfl (by nlinarith)
    rw [hresp, abs_div, abs_of_pos hPpos, div_le_iff₀ hPpos, show Real.pi * (c - u) = -(Real.pi * (u - c)) by ring, phase_neg]
    generalize order * (u - c) = d at *
    have hq : 0 < 1 / d ^ 2 := by positivity
    have hr : 0 < 1 / d := by positivity
    rw [show 37.3 / d ^ 2 + 0.32 / d = 37.3 * (1 / d ^ 2) + 0.32 * (1 / d) by ring, abs_le] at e1 e2
    rw [show 13 / d ^ 2 + 1 / (8 * d) = 13 * (1 / d ^ 2) + 1 / 8 * (1 / d) by field_simp]
    have hm := mul_le_mul_of_nonneg_left hP (by positivity : 0 ≤ 13 * (1 / d ^ 2) + 1 / 8 * (1 / d))
    refine le_trans ?_ hm
    generalize 1 / d ^ 2 = q at *
    generalize 1 / d = r at *
    clear hm hresp herr hnear
    rw [abs_le]
    constructor <;> norm_num at * <;> linarith [e1.1, e1.2, e2.1, e2.2]
  · have hd : 0 < order * (c - u) := by apply mul_pos <;> linarith
    have e1 := herr (c + u) (order * (c - u)) hd (by nlinarith) (by nlinarith)
    have e2 := herr (c - u) (order * (c - u)) hd le_rfl (by nlinarith)
    have e3 := herr c (order * (c - u)) hd (by nlinarith) (by nlinarith)
    rw [hresp]
    have key : ∀ X : ℝ, |(|X| - 1)| ≤ |X - 1| := fun X => by
      have := abs_abs_sub_abs_le_abs_sub X 1
      rwa [abs_one] at this
    refine (key _).trans ?_
    rw [div_sub_one hPpos.ne', abs_div, abs_of_pos hPpos, div_le_iff₀ hPpos]
    generalize order * (c - u) = d at *
    have hq : 0 < 1 / d ^ 2 := by positivity
    have hr : 0 < 1 / d := by positivity
    rw [show 37.3 / d ^ 2 + 0.32 / d = 37.3 * (1 / d ^ 2) + 0.32 * (1 / d) by ring, abs_le] at e1 e2 e3
    rw [show 26 / d ^ 2 + 1 / (4 * d) = 26 * (1 / d ^ 2) + 1 / 4 * (1 / d) by field_simp]
    have hm := mul_le_mul_of_nonneg_left hP (by positivity : 0 ≤ 26 * (1 / d ^ 2) + 1 / 4 * (1 / d))
    refine le_trans ?_ hm
    generalize 1 / d ^ 2 = q at *
    generalize 1 / d = r at *
    clear hm hresp herr hnear
    rw [abs_le]
    constructor <;> norm_num at * <;> linarith [e1.1, e1.2, e2.1, e2.2, e3.1, e3.2]
  · have e1 := hall (Real.pi * (c + u)) (by positivity) (by nlinarith)
    have e2 : |window.phase style order (Real.pi * (c - u))| ≤ 2 * Real.pi := by
      rcases le_total u c with h | h
      · exact hall _ (mul_nonneg (by linarith) (by linarith)) (by nlinarith)
      · rw [show Real.pi * (c - u) = -(Real.pi * (u - c)) by ring, phase_neg, abs_neg]
        exact hall _ (mul_nonneg (by linarith) (by linarith)) (by nlinarith)
    rw [hresp, abs_div, abs_of_pos hPpos, div_le_iff₀ hPpos]
    rw [abs_le] at e1 e2 ⊢
    constructor <;> norm_num at * <;> linarith [e1.1, e1.2, e2.1, e2.2]

/-- The candidates of the search are the ideal low-pass times a window. -/
theorem candidate_ideal (style : WStyle) (order : ℕ) (ho : 0 < order) (h : ¬ ((style = .blackman ∨ style = .hann) ∧ order = 1)) (f : ℝ) (hf : 0 < f) (x : ℝ) (hx : 0 < x) :
    ∃ c, c = min (x * f) (1 - search.eps) ∧ 0 < c ∧ c < 1 ∧ fir.candidate style order f x = .ok ((fir.ideal style order c).map (· / (fir.ideal style order c).sum)) := by
  have he : 0 < search.eps ∧ search.eps < 1 := by unfold search.eps; norm_num
  have hc0 : 0 < min (x * f) (1 - search.eps) := lt_min (mul_pos hx hf) (by linarith)
  have hc1 : min (x * f) (1 - search.eps) < 1 := (min_le_right _ _).trans_lt (by linarith)
  refine ⟨_, rfl, hc0, hc1, ?_⟩
  unfold fir.candidate
  simp only
  rw [if_neg (fir.ideal_sum_pos style order ho h _ hc0 hc1).ne']

/-- One step of the search for one filter keeps the scale near one. -/
theorem cutoff_step (style : WStyle) (order : ℕ) (ho : 0 < order) (h : ¬ ((style = .blackman ∨ style = .hann) ∧ order = 1)) (f : ℝ) (hf : 0 < f) (hf1 : f < 1)
    (t : ℝ) (ht0 : 0 < t) (hot : order * t = 1) (htf : 40 * t ≤ f) (r : ℝ) (hr1 : r ≤ 0.7072) (hr2 : 0.7071 ≤ r) (x D : ℝ)
    (hD : ∀ b, fir.candidate style order f x = .ok b → D = r - ‖freqResp [] b f‖)
    (hx : 0 < x) (h1 : f - 4.4 * t - 0.0434 * f ≤ x * f) (h2 : f + 10 * t + 0.0434 * f < 1 - search.eps → x * f ≤ f + 10 * t + 0.0434 * f) :
    f - 4.4 * t - 0.0434 * f ≤ x * f + 0.03 * f * D ∧ (f + 10 * t + 0.0434 * f < 1 - search.eps → x * f + 0.03 * f * D ≤ f + 10 * t + 0.0434 * f) := by
  have hor : (0 : ℝ) < order := by exact_mod_cast ho
  have he : 0 < search.eps ∧ search.eps < 0.01 := by unfold search.eps; norm_num
  have h03 : 0 ≤ 0.03 * f := by linarith
  obtain ⟨c, hc, c0, c1, hcand⟩ := candidate_ideal style order ho h f hf x hx
  have hclo : f - 4.4 * t - 0.0434 * f ≤ c := by
    rw [hc]; apply le_min h1; linarith
  have hoc : 16 ≤ order * c := by
    have : 16 * t ≤ c := by linarith
    have := mul_le_mul_of_nonneg_left this hor.le
    linarith [mul_left_comm (order : ℝ) 16 t]
  obtain ⟨q1, q2, q3⟩ := ideal_lowpass style order c c0 c1 hoc _ rfl
  have hDx := hD _ hcand
  generalize (fir.ideal style order c).map (· / (fir.ideal style order c).sum) = b at *
  have q3 := q3 f hf.le hf1.le
  have hn := norm_nonneg (freqResp [] b f)
  constructor
  · by_cases hcf : c ≤ f - 4.4 * t
    · have hq := q1 f (by linarith) hf1.le
      have hd : 4.4 ≤ order * (f - c) := by
        have := mul_le_mul_of_nonneg_left (by linarith : 4.4 * t ≤ f - c) hor.le
        linarith [mul_left_comm (order : ℝ) 4.4 t]
      generalize order * (f - c) = d at *
      have g1 : 13 / d ^ 2 ≤ 13 / 19.36 := by
        apply div_le_div_of_nonneg_left (by norm_num) (by norm_num)
        nlinarith only [hd]
      have g2 : 1 / (8 * d) ≤ 1 / 35.2 := by
        apply div_le_div_of_nonneg_left (by norm_num) (by norm_num)
        linarith
      have g3 : (13 / 19.36 : ℝ) ≤ 0.672 := by norm_num
      have g4 : (1 / 35.2 : ℝ) ≤ 0.029 := by norm_num
      have : 0 ≤ D := by rw [hDx]; linarith
      linarith [mul_nonneg h03 this]
    · have hcx : c ≤ x * f := by rw [hc]; exact min_le_left _ _
      have : -1.4430 ≤ D := by rw [hDx]; linarith
      have := mul_le_mul_of_nonneg_left this h03
      push Not at hcf
      linarith
  · intro hhi
    have h2 := h2 hhi
    have hcx : c = x * f := by rw [hc]; exact min_eq_left (by linarith)
    by_cases hcf : f + 10 * t ≤ c
    · have hq := q2 f hf.le (by linarith)
      have hd : 10 ≤ order * (c - f) := by
        have := mul_le_mul_of_nonneg_left (by linarith : 10 * t ≤ c - f) hor.le
        linarith [mul_left_comm (order : ℝ) 10 t]
      generalize order * (c - f) = d at *
      have g1 : 26 / d ^ 2 ≤ 26 / 100 := by
        apply div_le_div_of_nonneg_left (by norm_num) (by norm_num)
        nlinarith only [hd]
      have g2 : 1 / (4 * d) ≤ 1 / 40 := by
        apply div_le_div_of_nonneg_left (by norm_num) (by norm_num)
        linarith
      have g3 : (26 / 100 : ℝ) ≤ 0.26 := by norm_num
      have g4 : (1 / 40 : ℝ) ≤ 0.025 := by norm_num
      rw [abs_le] at hq
      have : D ≤ 0 := by rw [hDx]; linarith [hq.1]
      linarith [mul_nonpos_of_nonneg_of_nonpos h03 this]
    · have : D ≤ 0.7072 := by rw [hDx]; linarith
      have := mul_le_mul_of_nonneg_left this h03
      push Not at hcf
      linarith

/-- The cut-offs used by the search for one filter stay near the frequency of the design. -/
theorem cutoff_near (style : WStyle) (order : ℕ) (h : ¬ ((style = .blackman ∨ style = .hann) ∧ order = 1)) (f : ℝ) (hf : 0 < f) (hf1 : f < 1) (hof : 40 ≤ order * f)
    (D : ℝ → ℝ) (s : ℕ → ℝ) (hs : Scales D 0.03 (1 / 2 ^ 52) s)
    (hD : ∀ x b, fir.candidate style order f x = .ok b → D x = 1 / Real.sqrt 2 - ‖freqResp [] b f‖) (k : ℕ) :
    0 < s k ∧ |min (s k * f) (1 - search.eps) - f| ≤ 10 / order + 0.0434 * f := by
  have hor : (40 : ℝ) < order := by nlinarith [(Nat.cast_nonneg order : (0 : ℝ) ≤ order)]
  have ho : 0 < order := by
    rcases Nat.eq_zero_or_pos order with h | h
    · rw [h] at hor; norm_num at hor
    · exact h
  have he : 0 < search.eps ∧ search.eps < 0.01 := by unfold search.eps; norm_num
  obtain ⟨t, ht⟩ : ∃ t : ℝ, t = 1 / order := ⟨_, rfl⟩
  have hot : order * t = 1 := by rw [ht]; field_simp
  have ht0 : 0 < t := by rw [ht]; positivity
  have htf : 40 * t ≤ f := by nlinarith
  have hr1 : 1 / Real.sqrt 2 ≤ 0.7072 := by
    rw [div_le_iff₀ (by positivity)]
    have : (1.41421 : ℝ) ≤ Real.sqrt 2 := Real.le_sqrt_of_sq_le (by norm_num)
    linarith
  have hr2 : 0.7071 ≤ 1 / Real.sqrt 2 := by
    rw [le_div_iff₀ (by positivity)]
    have : Real.sqrt 2 ≤ 1.41422 := Real.sqrt_le_iff.mpr ⟨by norm_num, by norm_num⟩
    nlinarith only [this]
  have hinv : ∀ k, 0 < s k ∧ f - 4.4 * t - 0.0434 * f ≤ s k * f ∧ (f + 10 * t + 0.0434 * f < 1 - search.eps → s k * f ≤ f + 10 * t + 0.0434 * f) := by
    intro k
    induction k with
    | zero =>
      rw [hs.1]
      refine ⟨one_pos, by linarith, fun _ => by linarith⟩
    | succ k ih =>
      obtain ⟨i1, i2, i3⟩ := ih
      obtain ⟨j1, j2⟩ := cutoff_step style order ho h f hf hf1 t ht0 hot htf _ hr1 hr2 (s k) (D (s k)) (hD (s k)) i1 i2 i3
      rw [show s k * f + 0.03 * f * D (s k) = (s k + 0.03 * D (s k)) * f by ring] at j1 j2
      have hpos' : 0.5 ≤ s k + 0.03 * D (s k) := by
        by_contra hcon
        push Not at hcon
        have := mul_lt_mul_of_pos_right hcon hf
        linarith
      have hmax : s (k + 1) = s k + 0.03 * D (s k) := by
        rw [hs.2 k]
        apply max_eq_left
        have : (1 / 2 ^ 52 : ℝ) ≤ 0.5 := by norm_num
        linarith
      rw [hmax]
      exact ⟨by linarith, j1, j2⟩
  obtain ⟨i1, i2, i3⟩ := hinv k
  refine ⟨i1, ?_⟩
  have et : 10 / (order : ℝ) = 10 * t := by rw [ht]; ring
  rw [et, abs_le]
  constructor
  · have : f - 4.4 * t - 0.0434 * f ≤ min (s k * f) (1 - search.eps) := le_min i2 (by linarith)
    linarith
  · by_cases hhi : f + 10 * t + 0.0434 * f < 1 - search.eps
    · have := i3 hhi
      linarith [min_le_left (s k * f) (1 - search.eps)]
    · push Not at hhi
      linarith [min_le_right (s k * f) (1 - search.eps)]

/-- C110.  With enough coefficients for its frequency a design is a low-pass filter whose cut-off is near the frequency asked for. -/
theorem C110_lowpass (style : WStyle) (f : ℝ) (hf : 0 < f) (hf1 : f < 1) (order : ℤ) (hof : 40 ≤ order * f) :
    ∃ b c, fir.design (some style) f order 1 false 1 = .ok b ∧ |c - f| ≤ 10 / order + 0.0434 * f ∧ c < 1 ∧
      (∀ u, c < u → u ≤ 1 → ‖freqResp [] b u‖ ≤ 13 / (order * (u - c)) ^ 2 + 1 / (8 * (order * (u - c)))) ∧
      ∀ u, 0 ≤ u → u < c → |‖freqResp [] b u‖ - 1| ≤ 26 / (order * (c - u)) ^ 2 + 1 / (4 * (order * (c - u))) := by
  have hor : (40 : ℝ) < order := by
    by_contra hcon
    push Not at hcon
    nlinarith
  have ho : 40 < order := by exact_mod_cast hor
  obtain ⟨m, rfl⟩ : ∃ m : ℕ, order = m := ⟨order.toNat, by omega⟩
  simp only [Int.cast_natCast] at *
  have h' : ¬ ((style = .blackman ∨ style = .hann) ∧ m = 1) := fun q => by omega
  have h : ¬ ((style = .blackman ∨ style = .hann) ∧ (m : ℤ) = 1) := fun q => by omega
  let D : ℝ → ℝ := fun x => match fir.candidate style m f x with
    | .ok b => 1 / Real.sqrt 2 - ‖freqResp [] b f‖
    | .error _ => 0
  obtain ⟨s, hs⟩ : ∃ s, Scales D 0.03 (1 / 2 ^ 52) s := ⟨search.scales D 0.03, rfl, fun k => by
    show max _ search.eps = _
    unfold search.eps
    norm_num⟩
  have hD : ∀ x b, fir.candidate style m f x = .ok b → D x = 1 / Real.sqrt 2 - ‖freqResp [] b f‖ := by
    intro x b hb
    simp only [D, hb]
  obtain ⟨n, k, b, -, -, -, -, -, q1, q2⟩ := C15_fir_design_best style f hf hf1 m 1 (by omega) (by norm_num) h false 1 s D hs (by simpa using hD)
  obtain ⟨p1, p2⟩ := cutoff_near style m h' f hf hf1 hof D s hs hD k
  obtain ⟨c, hc, c0, c1, hcand⟩ := candidate_ideal style m (by omega) h' f hf (s k) p1
  rw [← hc] at p2
  simp only [Bool.false_eq_true, if_false, mul_one, List.map_id', Int.toNat_natCast] at q1 q2
  rw [hcand] at q1
  have hoc : 16 ≤ m * c := by
    rw [abs_le] at p2
    have : 10 / (m : ℝ) * m = 10 := by field_simp
    nlinarith [p2.1]
  obtain ⟨r1, r2, -⟩ := ideal_lowpass style m c c0 c1 hoc b (Except.ok.inj q1).symm
  exact ⟨b, c, q2, p2, c1, r1, r2⟩

/-- C110.  With complement the same design is a high-pass filter. -/
theorem C110_highpass (style : WStyle) (f : ℝ) (hf : 0 < f) (hf1 : f < 1) (order : ℤ) (hof : 40 ≤ order * (1 - f)) :
    ∃ b c, fir.design (some style) f order 1 true 1 = .ok b ∧ |c - f| ≤ 10 / order + 0.0434 * (1 - f) ∧ 0 < c ∧
      (∀ u, 0 ≤ u → u < c → ‖freqResp [] b u‖ ≤ 13 / (order * (c - u)) ^ 2 + 1 / (8 * (order * (c - u)))) ∧
      ∀ u, c < u → u ≤ 1 → |‖freqResp [] b u‖ - 1| ≤ 26 / (order * (u - c)) ^ 2 + 1 / (4 * (order * (u - c))) := by
  obtain ⟨b, c, h1, h2, h3, h4, h5⟩ := C110_lowpass style (1 - f) (by linarith) (by linarith) order hof
  have hmir : fir.design (some style) f order 1 true 1 = .ok (alternate b) := by
    have hor : (40 : ℝ) < order := by
      by_contra hcon
      push Not at hcon
      nlinarith
    have ho : 40 < order := by exact_mod_cast hor
    obtain ⟨b', -, m1, m2⟩ := fir.design_mirror style f hf hf1 order 1 (by omega) (by norm_num) (fun q => by omega) 1
    rw [h1] at m1
    rw [m2, Except.ok.inj m1]
  have hr : ∀ u, ‖freqResp [] (alternate b) u‖ = ‖freqResp [] b (1 - u)‖ := by
    intro u
    have := freqResp_mirror [] b (1 - u)
    rw [show (1 : ℝ) - (1 - u) = u by ring, show alternate [] = [] from rfl] at this
    rw [this, RCLike.norm_conj]
  refine ⟨alternate b, 1 - c, hmir, ?_, by linarith, fun u u1 u2 => ?_, fun u u1 u2 => ?_⟩
  · rw [show 1 - c - f = -(c - (1 - f)) by ring, abs_neg]
    exact h2
  · rw [hr, show 1 - c - u = 1 - u - c by ring]
    exact h4 (1 - u) (by linarith) (by linarith)
  · rw [hr, show u - (1 - c) = c - (1 - u) by ring]
    exact h5 (1 - u) (by linarith) (by linarith)

/-- Hamming, order 400, frequency 0.25: from 0.4 to Nyquist the response is below 1%, up to 0.1 it is within 2% of one. -/
example : ∃ b, fir.design (some .hamming) 0.25 400 1 false 1 = .ok b ∧ (∀ u, 0.4 ≤ u → u ≤ 1 → ‖freqResp [] b u‖ ≤ 0.01) ∧
    ∀ u, 0 ≤ u → u ≤ 0.1 → |‖freqResp [] b u‖ - 1| ≤ 0.02 := by
  obtain ⟨b, c, h1, h2, -, h4, h5⟩ := C110_lowpass .hamming 0.25 (by norm_num) (by norm_num) 400 (by norm_num)
  rw [abs_le] at h2
  norm_num at h2
  simp only [Int.cast_ofNat] at h4 h5
  refine ⟨b, h1, fun u u1 u2 => ?_, fun u u1 u2 => ?_⟩
  · have hd : 45 ≤ 400 * (u - c) := by norm_num at u1; linarith [h2.2]
    refine (h4 u (by linarith) u2).trans ?_
    generalize 400 * (u - c) = d at *
    have e1 : 13 / d ^ 2 ≤ 13 / 45 ^ 2 := div_le_div_of_nonneg_left (by norm_num) (by norm_num) (pow_le_pow_left₀ (by norm_num) hd 2)
    have e2 : 1 / (8 * d) ≤ 1 / (8 * 45) := one_div_le_one_div_of_le (by norm_num) (by linarith)
    norm_num at e1 e2 ⊢
    linarith
  · have hd : 45 ≤ 400 * (c - u) := by norm_num at u2; linarith [h2.1]
    refine (h5 u u1 (by linarith)).trans ?_
    generalize 400 * (c - u) = d at *
    have e1 : 26 / d ^ 2 ≤ 26 / 45 ^ 2 := div_le_div_of_nonneg_left (by norm_num) (by norm_num) (pow_le_pow_left₀ (by norm_num) hd 2)
    have e2 : 1 / (4 * d) ≤ 1 / (4 * 45) := one_div_le_one_div_of_le (by norm_num) (by linarith)
    norm_num at e1 e2 ⊢
    linarith

/-- Kaiser, order 400, a high pass at 0.75. -/
example : ∃ b c, fir.design (some .kaiser) 0.75 400 1 true 1 = .ok b ∧ |c - 0.75| ≤ 10 / ((400 : ℤ) : ℝ) + 0.0434 * (1 - 0.75) ∧ 0 < c := by
  obtain ⟨b, c, h1, h2, h3, -⟩ := C110_highpass .kaiser 0.75 (by norm_num) (by norm_num) 400 (by norm_num)
  exact ⟨b, c, h1, h2, h3⟩

end Verif.Props
