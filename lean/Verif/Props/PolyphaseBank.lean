import Verif.Lemmas.PolyphaseBank
import Verif.Props.FirDesign
import Verif.Props.Polyphase

/- The bank which PolyphaseRateFilter constructs (C37). -/

namespace Verif.Props

open Finset Spec

theorem at0_candidate (style : WStyle) (order : ℕ) (c S : ℝ) (n : ℕ) (hn : n < order + 1) :
    at0 ((fir.ideal style order c).map (· / S)) n = fir.tap style order c n / S := by
  simp only [div_eq_mul_inv]
  rw [at0_map_mul]
  congr 1
  unfold fir.ideal
  rw [at0_map_range _ _ _ hn]
  rfl

theorem bank_tap (c : ℝ) (hc : c ≠ 0) (n : ℕ) :
    fir.tap .hann 3839 c n = hannAt ((n : ℝ) - 3839 / 2) * Real.sin (((n : ℝ) - 3839 / 2) * (Real.pi * c)) / (Real.pi * ((n : ℝ) - 3839 / 2)) := by
  have hne : (n : ℝ) - ((3839 : ℕ) : ℝ) / 2 ≠ 0 := by
    intro h
    have h2 : (2 : ℝ) * n = 3839 := by push_cast at h; linarith
    have h3 : 2 * n = 3839 := by exact_mod_cast h2
    omega
  rw [fir.tap_eq .hann 3839 c hc n hne, hannAt_value]
  push_cast
  ring

/-- The function of the distance from the centre in `bank_tap`. -/
noncomputable def tapAt (c m : ℝ) : ℝ := hannAt m * Real.sin (m * (Real.pi * c)) / (Real.pi * m)

theorem tapAt_neg (c m : ℝ) : tapAt c (-m) = tapAt c m := by
  unfold tapAt hannAt
  rw [neg_mul, Real.sin_neg, mul_neg, mul_neg, mul_neg, neg_div_neg_eq, neg_div, Real.cos_neg]

theorem bank_sum (c : ℝ) (hc : c ≠ 0) : ∑ n ∈ range 3840, fir.tap .hann 3839 c n = hannSum c := by
  have h := fold_even (tapAt c) (tapAt_neg c) 1920
  unfold hannSum
  rw [show (∑ k ∈ range 1920, hannAt (k + 1 / 2) * Real.sin (((k : ℝ) + 1 / 2) * (Real.pi * c)) / (Real.pi * ((k : ℝ) + 1 / 2))) =
    ∑ k ∈ range 1920, tapAt c (k + 1 / 2) from rfl, ← h]
  apply sum_congr rfl
  intro n _
  rw [bank_tap c hc n, tapAt, show (2 * ((1920 : ℕ) : ℝ) - 1) / 2 = 3839 / 2 by norm_num]

theorem tapAt_cos (n : ℕ) (c f : ℝ) : ∑ k ∈ range n, tapAt c (k + 1 / 2) * Real.cos (Real.pi * f * (k + 1 / 2)) =
    (∑ k ∈ range n, tapAt (c + f) (k + 1 / 2) + ∑ k ∈ range n, tapAt (c - f) (k + 1 / 2)) / 2 := by
  rw [← sum_add_distrib, sum_div]
  apply sum_congr rfl
  intro k _
  unfold tapAt
  generalize (k : ℝ) + 1 / 2 = m at *
  rw [show m * (Real.pi * (c + f)) = m * (Real.pi * c) + Real.pi * f * m by ring, show m * (Real.pi * (c - f)) = m * (Real.pi * c) - Real.pi * f * m by ring,
    Real.sin_add, Real.sin_sub]
  ring

theorem hannSum_tapAt (c : ℝ) : hannSum c = 2 * ∑ k ∈ range 1920, tapAt c (k + 1 / 2) := rfl

theorem bank_cos_sum (c : ℝ) (hc : c ≠ 0) (f : ℝ) :
    ∑ n ∈ range 3840, fir.tap .hann 3839 c n * Real.cos (Real.pi * f * ((n : ℝ) - 3839 / 2)) = (hannSum (c + f) + hannSum (c - f)) / 2 := by
  have h := fold_even (fun m => tapAt c m * Real.cos (Real.pi * f * m)) (fun m => by
    rw [tapAt_neg, mul_neg, Real.cos_neg]) 1920
  have h1 : ∑ n ∈ range 3840, fir.tap .hann 3839 c n * Real.cos (Real.pi * f * ((n : ℝ) - 3839 / 2)) =
      2 * ∑ k ∈ range 1920, tapAt c (k + 1 / 2) * Real.cos (Real.pi * f * (k + 1 / 2)) := by
    rw [← h]
    apply sum_congr rfl
    intro n _
    rw [bank_tap c hc n, tapAt, show (2 * ((1920 : ℕ) : ℝ) - 1) / 2 = 3839 / 2 by norm_num]
  rw [h1, tapAt_cos, hannSum_tapAt, hannSum_tapAt, mul_div_assoc', mul_add]

/-- A response is at least its part in the direction of the delay. -/
theorem norm_ge_cosines (b : List ℝ) (u M : ℝ) : ∑ n ∈ range b.length, at0 b n * Real.cos (Real.pi * u * (n - M)) ≤ ‖freqResp [] b u‖ := by
  have h1 : freqResp [] b u = dtft b u := by simp [freqResp, dtft]
  have h2 : ‖dtft b u‖ = ‖Complex.exp (((Real.pi * u * M : ℝ) : ℂ) * Complex.I) * dtft b u‖ := by
    rw [norm_mul, Complex.norm_exp_ofReal_mul_I, one_mul]
  rw [h1, h2]
  refine le_trans (le_of_eq ?_) (Complex.re_le_norm _)
  rw [dtft, mul_sum, Complex.re_sum]
  apply sum_congr rfl
  intro n _
  rw [mul_left_comm, ← Complex.exp_add, Complex.re_ofReal_mul,
    show ((Real.pi * u * M : ℝ) : ℂ) * Complex.I + -(Complex.I * Real.pi * u * n) = ((-(Real.pi * u * (n - M)) : ℝ) : ℂ) * Complex.I by push_cast; ring,
    Complex.exp_ofReal_mul_I_re, Real.cos_neg]

/-- From the scale 1.12 to 1.1413 the response at the design frequency exceeds -3 dB. -/
theorem bank_response (s : ℝ) (h1 : 1.12 ≤ s) (h2 : s ≤ 1.1413) (b : List ℝ) (hb : fir.candidate .hann 3839 (0.85 / 256) s = .ok b) :
    1 / Real.sqrt 2 ≤ ‖freqResp [] b (0.85 / 256)‖ := by
  have hmin : min (s * (0.85 / 256)) (1 - search.eps) = s * (0.85 / 256) := by
    apply min_eq_left
    unfold search.eps
    norm_num
    linarith
  obtain ⟨c, hc⟩ : ∃ c, c = s * (0.85 / 256) := ⟨_, rfl⟩
  have hc0 : 0 < c := by rw [hc]; linarith
  unfold fir.candidate at hb
  rw [← hc] at hmin
  simp only [← hc, hmin] at hb
  obtain ⟨m1, m2, m3⟩ := hannSum_margin s h1 h2
  rw [← hc] at m1 m2 m3
  have hsum : (fir.ideal .hann 3839 c).sum = hannSum c := by rw [fir.ideal_sum, bank_sum c hc0.ne']
  have hpos : 0 < hannSum c := by
    rw [← hsum]
    exact fir.ideal_sum_pos .hann 3839 (by norm_num) (by simp) c hc0 (by rw [hc]; linarith)
  rw [hsum, if_neg hpos.ne'] at hb
  have hb' : b = (fir.ideal .hann 3839 c).map (· / hannSum c) := (Except.ok.inj hb).symm
  have hlen : b.length = 3840 := by rw [hb']; simp [fir.ideal]
  refine le_trans ?_ (norm_ge_cosines b (0.85 / 256) (3839 / 2))
  have e : ∑ n ∈ range b.length, at0 b n * Real.cos (Real.pi * (0.85 / 256) * ((n : ℝ) - 3839 / 2)) =
      (hannSum (c + 0.85 / 256) + hannSum (c - 0.85 / 256)) / 2 / hannSum c := by
    rw [← bank_cos_sum c hc0.ne', sum_div, hlen]
    apply sum_congr rfl
    intro n hn
    have : at0 b n = fir.tap .hann 3839 c n / hannSum c := by
      rw [hb']
      exact at0_candidate .hann 3839 c _ n (mem_range.mp hn)
    rw [this]; ring
  rw [e]
  have hq : 1 / Real.sqrt 2 ≤ 0.7072 := by
    rw [div_le_iff₀ (by positivity)]
    have : (1.41421 : ℝ) ≤ Real.sqrt 2 := Real.le_sqrt_of_sq_le (by norm_num)
    linarith
  refine hq.trans ?_
  rw [le_div_iff₀ hpos]
  linarith

/-- The scales of the search stay below 1.1413. -/
theorem bank_scales (D : ℝ → ℝ) (s : ℕ → ℝ) (hs : Scales D 0.03 (1 / 2 ^ 52) s)
    (hD : ∀ x, 0 < x → ∃ b, fir.candidate .hann 3839 (0.85 / 256) x = .ok b ∧ D x = 1 / Real.sqrt 2 - ‖freqResp [] b (0.85 / 256)‖) (k : ℕ) :
    0 < s k ∧ s k ≤ 1.1413 := by
  have hq : 1 / Real.sqrt 2 ≤ 0.7072 := by
    rw [div_le_iff₀ (by positivity)]
    have : (1.41421 : ℝ) ≤ Real.sqrt 2 := Real.le_sqrt_of_sq_le (by norm_num)
    linarith
  induction k with
  | zero => rw [hs.1]; norm_num
  | succ k ih =>
    rw [hs.2 k]
    obtain ⟨b, hb, hd⟩ := hD (s k) ih.1
    refine ⟨lt_of_lt_of_le (by positivity) (le_max_right _ _), max_le ?_ (by norm_num)⟩
    have hn := norm_nonneg (freqResp [] b (0.85 / 256))
    by_cases h : 1.12 ≤ s k
    · have := bank_response (s k) h ih.2 b hb
      rw [hd]
      linarith [ih.2]
    · rw [hd]
      linarith

/-- The bank's rows, from the second half of the rows. -/
theorem bank_row_upper (c : ℝ) (hc : 0 < c) (hc1 : 256 * c ≤ 1) (i : ℕ) (hi : i < 256) (hi' : 128 ≤ i) :
    0 < ∑ j ∈ range 15, fir.tap .hann 3839 c (i + 256 * j) := by
  have hpi := Real.pi_pos
  have h1 : (128 : ℝ) ≤ i := by exact_mod_cast hi'
  have h2 : (i : ℝ) ≤ 255 := by exact_mod_cast (by omega : i ≤ 255)
  obtain ⟨u, hu⟩ : ∃ u, u = ((i : ℝ) - 255 / 2) * (2 * Real.pi / 3839) := ⟨_, rfl⟩
  obtain ⟨t, ht⟩ : ∃ t, t = 256 * (2 * Real.pi / 3839) := ⟨_, rfl⟩
  obtain ⟨w, hw⟩ : ∃ w, w = 2 * Real.pi / 3839 := ⟨_, rfl⟩
  have hw0 : 0 < w := by rw [hw]; positivity
  have hwp : Real.pi = 1919.5 * w := by rw [hw]; ring
  rw [← hw] at hu ht
  have hwi : w * 128 ≤ w * i := by gcongr
  have hwi' : w * i ≤ w * 255 := by gcongr
  have hbell : ∀ m : ℝ, 0 < m → m * w ≤ Real.pi → tapAt c m = bell0 (m * w) * Real.sin (m * (Real.pi * c)) / 3839 := by
    intro m hm hmw
    unfold tapAt bell0 bell hannAt
    rw [if_pos hmw, show 2 * Real.pi * m / 3839 = m * w by rw [hw]; ring]
    have : Real.pi * m = 3839 / 2 * (m * w) := by rw [hwp]; ring
    rw [this]
    have : m * w ≠ 0 := by positivity
    field_simp
  have hrow := row_positive u t (((i : ℝ) - 255 / 2) * (Real.pi * c)) (256 * (Real.pi * c)) 7 (by rw [hu]; apply mul_pos _ hw0; linarith)
    (by rw [hu, ht]; linarith) (by rw [hu, hwp]; linarith) (by rw [hu, ht, hwp]; push_cast; linarith)
    (by apply mul_pos _ (by positivity); linarith)
    (by
      have : ((i : ℝ) - 255 / 2) * (Real.pi * c) ≤ 128 * (Real.pi * c) := mul_le_mul_of_nonneg_right (by linarith) (by positivity)
      have := mul_le_mul_of_nonneg_left hc1 hpi.le
      linarith)
    (by positivity) (by have := mul_le_mul_of_nonneg_left hc1 hpi.le; linarith)
  have hsplit : ∑ j ∈ range 15, fir.tap .hann 3839 c (i + 256 * j) =
      (∑ k ∈ range 8, bell0 (k * t + u) * Real.sin (k * (256 * (Real.pi * c)) + ((i : ℝ) - 255 / 2) * (Real.pi * c)) +
        ∑ k ∈ range 7, bell0 ((k + 1 : ℕ) * t - u) * Real.sin ((k + 1 : ℕ) * (256 * (Real.pi * c)) - ((i : ℝ) - 255 / 2) * (Real.pi * c))) / 3839 := by
    rw [show (15 : ℕ) = 7 + 8 from rfl, sum_range_add, add_comm, add_div, ← sum_range_reflect _ 7, sum_div, sum_div]
    congr 1
    · apply sum_congr rfl
      intro k hk
      have hk : (k : ℝ) ≤ 7 := by exact_mod_cast (by have := mem_range.mp hk; omega : k ≤ 7)
      have hk0 : (0 : ℝ) ≤ k := by positivity
      rw [bank_tap c hc.ne', show (((i + 256 * (7 + k) : ℕ) : ℝ) - 3839 / 2) = 256 * k + (i - 255 / 2) by push_cast; ring]
      have := hbell (256 * k + (i - 255 / 2)) (by linarith) (by
        rw [hwp]; apply mul_le_mul_of_nonneg_right _ hw0.le; linarith)
      unfold tapAt at this
      rw [this, hu, ht]
      congr 2
      · congr 1; ring
      · congr 1; ring
    · apply sum_congr rfl
      intro k hk
      have hk := mem_range.mp hk
      have hkr : (k : ℝ) ≤ 6 := by exact_mod_cast (by omega : k ≤ 6)
      have hk0 : (0 : ℝ) ≤ k := by positivity
      have hcast : (((i + 256 * (7 - 1 - k) : ℕ) : ℝ) - 3839 / 2) = -(256 * (k + 1) - (i - 255 / 2)) := by
        push_cast [Nat.cast_sub (by omega : k ≤ 6), show 7 - 1 - k = 6 - k by omega]
        ring
      rw [bank_tap c hc.ne', hcast]
      have := hbell (256 * (k + 1) - (i - 255 / 2)) (by linarith) (by
        rw [hwp]; apply mul_le_mul_of_nonneg_right _ hw0.le; linarith)
      rw [← tapAt_neg] at this
      unfold tapAt at this
      rw [this, hu, ht]
      congr 2
      · congr 1; push_cast; ring
      · congr 1; push_cast; ring
  rw [hsplit]
  exact div_pos hrow (by norm_num)

/-- Every row of the raw bank sums to a positive number, for every cut-off up to 1/256. -/
theorem bank_rows (c : ℝ) (hc : 0 < c) (hc1 : 256 * c ≤ 1) (i : ℕ) (hi : i < 256) :
    0 < ∑ j ∈ range 15, fir.tap .hann 3839 c (i + 256 * j) := by
  by_cases h : 128 ≤ i
  · exact bank_row_upper c hc hc1 i hi h
  · have := bank_row_upper c hc hc1 (255 - i) (by omega) (by omega)
    rw [← sum_range_reflect] at this
    refine lt_of_lt_of_le this (le_of_eq ?_)
    apply sum_congr rfl
    intro j hj
    have hj := mem_range.mp hj
    rw [← fir.tap_symm .hann 3839 c (i + 256 * j) (by omega)]
    congr 1
    omega

/-- The coefficients behind the bank. -/
theorem bank_design : ∃ b c, fir.design (some .hann) (0.85 / 256) 3839 1 false 1 = .ok b ∧ 0 < c ∧ 256 * c ≤ 1 ∧ 0 < (fir.ideal .hann 3839 c).sum ∧
    b = (fir.ideal .hann 3839 c).map (· / (fir.ideal .hann 3839 c).sum) := by
  let D : ℝ → ℝ := fun x => match fir.candidate .hann 3839 (0.85 / 256) x with
    | .ok b => 1 / Real.sqrt 2 - ‖freqResp [] b (0.85 / 256)‖
    | .error _ => 0
  have hs : Scales D 0.03 (1 / 2 ^ 52) (search.scales D 0.03) := by
    refine ⟨rfl, fun k => ?_⟩
    show max _ search.eps = _
    unfold search.eps
    norm_num
  have hcand : ∀ x, 0 < x → ∃ b, fir.candidate .hann 3839 (0.85 / 256) x = .ok b ∧ D x = 1 / Real.sqrt 2 - ‖freqResp [] b (0.85 / 256)‖ := by
    intro x hx
    obtain ⟨v, hv, -⟩ := fir.candidate_spec .hann 3839 (by norm_num) (by simp) (0.85 / 256) (by norm_num) x hx
    exact ⟨v, hv, by simp only [D, hv]⟩
  obtain ⟨n, k, b, -, -, -, -, -, h1, h2⟩ := C15_fir_design_best .hann (0.85 / 256) (by norm_num) (by norm_num) 3839 1 (by norm_num) (by norm_num) (by simp)
    false 1 _ D hs (fun x b hb => by
      simp only [Bool.false_eq_true, if_false, show (3839 : ℤ).toNat = 3839 from rfl, show (1 : ℤ).toNat = 1 from rfl, pow_one] at hb ⊢
      simp only [D, hb])
  simp only [Bool.false_eq_true, if_false, show (3839 : ℤ).toNat = 3839 from rfl, mul_one, List.map_id'] at h1 h2
  obtain ⟨g1, g2⟩ := bank_scales D _ hs hcand k
  obtain ⟨x, hx⟩ : ∃ x, x = search.scales D 0.03 k := ⟨_, rfl⟩
  rw [← hx] at h1 g1 g2
  obtain ⟨c, hc⟩ : ∃ c, c = min (x * (0.85 / 256)) (1 - search.eps) := ⟨_, rfl⟩
  have hc0 : 0 < c := by rw [hc]; exact lt_min (by positivity) (by unfold search.eps; norm_num)
  have hc1 : c ≤ x * (0.85 / 256) := by rw [hc]; exact min_le_left _ _
  have hpos := fir.ideal_sum_pos .hann 3839 (by norm_num) (by simp) c hc0 (by linarith)
  refine ⟨b, c, h2, hc0, by linarith, hpos, ?_⟩
  unfold fir.candidate at h1
  simp only [← hc] at h1
  rw [if_neg hpos.ne'] at h1
  exact (Except.ok.inj h1).symm

/-- The class variable before the first construction (polyphase_rate_filter.py:87), and after it: 256 rows of 15 coefficients with the sum one. -/
def ppClass (B : List (List ℝ)) : Prop := B.length = 256 ∧ IsBank 15 B ∧ ((∀ r ∈ B, ∀ v ∈ r, v = 0) ∨ ∀ r ∈ B, r.sum = 1)

/-- C37.  The bank of the code: whatever filters were constructed before, PolyphaseRateFilter with a rate in [0, 256] succeeds, and the class variable is then
a bank of 256 rows of 15 coefficients whose rows all sum to one.  A bank which exists already is kept. -/
theorem C37_constructed (B : List (List ℝ)) (hB : ppClass B) (rate : ℝ) (h0 : 0 ≤ rate) (h1 : rate ≤ 256) :
    ∃ p B', Polyphase.new 256 15 B rate = (.ok p, B') ∧ p.rate = rate ∧ p.index = 0 ∧ p.s = List.replicate 15 0 ∧ B'.length = 256 ∧ IsBank 15 B' ∧
      (∀ r ∈ B', r.sum = 1) ∧ ((∀ r ∈ B, r.sum = 1) → B' = B) := by
  obtain ⟨hl, hb, hz⟩ := hB
  have hr : ¬ (rate < 0 ∨ rate > ((256 : ℕ) : ℝ)) := by push Not; exact ⟨h0, by exact_mod_cast h1⟩
  unfold Polyphase.new
  rw [if_neg hr]
  by_cases hall : (B.all fun row => row.all fun v => decide (v = 0)) = true
  · obtain ⟨b, c, d1, d2, d3, d4, d5⟩ := bank_design
    have hdes : fir.design (some .hann) (0.85 / ((256 : ℕ) : ℝ)) (((15 : ℕ) : ℤ) * ((256 : ℕ) : ℤ) - 1) 1 false 1 = .ok b := by
      rw [← d1]; norm_num
    have hrow : ∀ i < 256, ∑ j ∈ range 15, at0 b (i + 256 * j) ≠ 0 := by
      intro i hi
      have e : ∑ j ∈ range 15, at0 b (i + 256 * j) = (∑ j ∈ range 15, fir.tap .hann 3839 c (i + 256 * j)) / (fir.ideal .hann 3839 c).sum := by
        rw [sum_div]
        apply sum_congr rfl
        intro j hj
        have hj := mem_range.mp hj
        rw [d5]
        exact at0_candidate .hann 3839 c _ _ (by omega)
      rw [e]
      exact (div_pos (bank_rows c d2 d3 i hi) d4).ne'
    obtain ⟨k1, k2, k3, -⟩ := C37_bank 256 15 b (by norm_num) (by norm_num) hrow
    simp only [hall, if_true, hdes]
    refine ⟨_, _, rfl, rfl, rfl, rfl, k2, k1, k3, fun h => ?_⟩
    exfalso
    obtain ⟨r, hr⟩ := List.exists_mem_of_ne_nil B hb.1
    have hs := h r hr
    have : r.sum = 0 := by
      apply List.sum_eq_zero
      intro v hv
      have := List.all_eq_true.mp hall r hr
      exact of_decide_eq_true (List.all_eq_true.mp this v hv)
    linarith
  · simp only [hall, Bool.false_eq_true, if_false]
    rcases hz with hz | hz
    · exfalso
      apply hall
      rw [List.all_eq_true]
      intro r hr
      rw [List.all_eq_true]
      intro v hv
      exact decide_eq_true (hz r hr v hv)
    · exact ⟨_, _, rfl, rfl, rfl, rfl, hl, hb, hz, fun _ => rfl⟩

/-- The class variable before the first filter is constructed. -/
example := C37_constructed (List.replicate 256 (List.replicate 15 0)) ⟨List.length_replicate, ⟨List.ne_nil_of_length_pos (by rw [List.length_replicate]; norm_num), by norm_num, fun r hr => by rw [List.eq_of_mem_replicate hr, List.length_replicate]⟩,
  .inl fun r hr v hv => by rw [List.eq_of_mem_replicate hr] at hv; exact List.eq_of_mem_replicate hv⟩ (1 / 2) (by norm_num) (by norm_num)

/-- The class variable as the constructions of filters with the given rates leave it. -/
noncomputable def ppAfter (B : List (List ℝ)) (rates : List ℝ) : List (List ℝ) := rates.foldl (fun B r => (Polyphase.new 256 15 B r).2) B

/-- C37.  A program: filters are constructed at any rates, valid or not; then one at a valid rate; then any calls; then `reset(c)`; then the constant `c`
is filtered in any pieces, with any changes of the rate in between.  Every output sample is `c`. -/
theorem C37_program (rates : List ℝ) (rate : ℝ) (h0 : 0 ≤ rate) (h1 : rate ≤ 256) (before after : List PPOp) (c : ℝ)
    (hops : ∀ o ∈ after, (∃ n, 0 < n ∧ o = .filter (List.replicate n c)) ∨ ∃ r, o = .rate r) :
    ∃ p B, Polyphase.new 256 15 (ppAfter (List.replicate 256 (List.replicate 15 0)) rates) rate = (.ok p, B) ∧
      ∀ out ∈ ppOutputs B ((before.foldl (PPOp.run B) p).reset c) after, ∃ y, out = .ok y ∧ ∀ v ∈ y, v = c := by
  have hinit : ppClass (List.replicate 256 (List.replicate 15 0)) := by
    refine ⟨List.length_replicate, ⟨List.ne_nil_of_length_pos (by rw [List.length_replicate]; norm_num), by norm_num,
      fun r hr => by rw [List.eq_of_mem_replicate hr, List.length_replicate]⟩, Or.inl fun r hr v hv => ?_⟩
    rw [List.eq_of_mem_replicate hr] at hv
    exact List.eq_of_mem_replicate hv
  have hafter : ∀ B, ppClass B → ppClass (ppAfter B rates) := by
    induction rates with
    | nil => exact fun B h => h
    | cons r rs ih =>
      intro B hB
      show ppClass (ppAfter (Polyphase.new 256 15 B r).2 rs)
      apply ih
      by_cases hr : 0 ≤ r ∧ r ≤ 256
      · obtain ⟨p, B', g1, -, -, -, g2, g3, g4, -⟩ := C37_constructed B hB r hr.1 hr.2
        rw [g1]
        exact ⟨g2, g3, Or.inr g4⟩
      · have : r < 0 ∨ (256 : ℝ) < r := by
          by_contra hh
          push Not at hh
          exact hr hh
        rw [(C36_rate_rejects 256 15 B ⟨0, 0, []⟩ r (by exact_mod_cast this)).1]
        exact hB
  obtain ⟨p, B, g1, -, -, -, -, g3, g4, -⟩ := C37_constructed _ (hafter _ hinit) rate h0 h1
  refine ⟨p, B, g1, ?_⟩
  exact C37_history 15 B g3 g4 _ (C36_reachable 256 15 _ B rate p g1 g3 before) c after hops

/-- A case of C37_program: a new filter at the rate 1/2, three samples, then a constant in two pieces with the rate 2 in the second. -/
example : ∃ p B, Polyphase.new 256 15 (List.replicate 256 (List.replicate 15 0)) (1 / 2) = (.ok p, B) ∧
    ∀ out ∈ ppOutputs B ((p.filter B [1, 2, 3]).2.reset 5) [.filter (List.replicate 4 5), .rate 2, .filter (List.replicate 6 5)],
      ∃ y, out = .ok y ∧ ∀ v ∈ y, v = 5 := by
  obtain ⟨p, B, h1, h2⟩ := C37_program [] (1 / 2) (by norm_num) (by norm_num) [.filter [1, 2, 3]]
    [.filter (List.replicate 4 5), .rate 2, .filter (List.replicate 6 5)] 5 (by
      intro o ho
      simp only [List.mem_cons, List.not_mem_nil, or_false] at ho
      rcases ho with rfl | rfl | rfl
      · exact Or.inl ⟨4, by norm_num, rfl⟩
      · exact Or.inr ⟨2, rfl⟩
      · exact Or.inl ⟨6, by norm_num, rfl⟩)
  exact ⟨p, B, h1, h2⟩

end Verif.Props
