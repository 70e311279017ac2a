import Verif.Lemmas.FirDesign
import Verif.Lemmas.Response
import Verif.Props.IirDesign
import Verif.Props.Window

/- Properties of designed FirFilter instances (C14, C15). -/

namespace Verif.Props

open Finset Spec

/-- Candidates exist for every positive scale. -/
theorem fir.candidate_spec (style : WStyle) (order : ℕ) (ho : 0 < order) (h : ¬ ((style = .blackman ∨ style = .hann) ∧ order = 1))
    (f : ℝ) (hf : 0 < f) (x : ℝ) (hx : 0 < x) :
    ∃ v, fir.candidate style order f x = .ok v ∧ v.length = order + 1 ∧ v.sum = 1 ∧ ∀ n ≤ order, at0 v n = at0 v (order - n) := by
  set c := min (x * f) (1 - search.eps) with hc
  have hc0 : 0 < c := lt_min (mul_pos hx hf) (by unfold search.eps; norm_num)
  have hc1 : c < 1 := lt_of_le_of_lt (min_le_right _ _) (by have := search.eps_pos; linarith)
  have hp := fir.ideal_sum_pos style order ho h c hc0 hc1
  refine ⟨(fir.ideal style order c).map (· / (fir.ideal style order c).sum), ?_, by simp [fir.ideal], ?_, ?_⟩
  · unfold fir.candidate
    simp only [← hc]
    rw [if_neg hp.ne']
  · simp only [div_eq_mul_inv]
    rw [sum_map_mul, mul_inv_cancel₀ hp.ne']
  · intro n hn
    simp only [div_eq_mul_inv]
    rw [at0_map_mul, at0_map_mul]
    congr 1
    unfold fir.ideal
    rw [at0_map_range _ _ _ (by omega), at0_map_range _ _ _ (by omega)]
    exact (fir.tap_symm style order c n hn).symm

/-- What the design branch returns for valid arguments. -/
theorem fir.design_spec (style : WStyle) (f : ℝ) (hf : 0 < f) (hf1 : f < 1) (order count : ℤ) (ho : 0 < order) (hcount : 0 < count)
    (h : ¬ ((style = .blackman ∨ style = .hann) ∧ order = 1)) (complement : Bool) (gain : ℝ) :
    ∃ b0, b0.length = order.toNat + 1 ∧ b0.sum = 1 ∧ (∀ n ≤ order.toNat, at0 b0 n = at0 b0 (order.toNat - n)) ∧
      fir.design (some style) f order count complement gain = .ok ((if complement then alternate b0 else b0).map (· * gain)) := by
  set f' := if complement then 1 - f else f with hf'
  have hfpos : 0 < f' := by rw [hf']; split <;> linarith
  have hon : 0 < order.toNat := by omega
  have h' : ¬ ((style = .blackman ∨ style = .hann) ∧ order.toNat = 1) := fun q => h ⟨q.1, by omega⟩
  unfold fir.design
  simp only [show ¬ (f ≤ 0 ∨ f ≥ 1) by push Not; exact ⟨hf, hf1⟩, show ¬ order ≤ 0 by omega, show ¬ count ≤ 0 by omega, if_false]
  rw [← hf']
  rcases search.run_result (fir.candidate style order.toNat f') (fir.deviation f' count.toNat) 3.0e-2 with
    ⟨x, b0, hx, h1, h2⟩ | ⟨x, e, hx, h1, h2⟩
  · rw [h2]
    obtain ⟨v, g1, g2, g3, g4⟩ := fir.candidate_spec style order.toNat hon h' f' hfpos x hx
    rw [g1] at h1
    cases h1
    refine ⟨b0, g2, g3, g4, ?_⟩
    cases complement with
    | false => simp
    | true => simp [alternate_alternate, g3]
  · obtain ⟨v, g1, -⟩ := fir.candidate_spec style order.toNat hon h' f' hfpos x hx
    rw [g1] at h1
    cases h1

/-- C14.  Every valid design succeeds with `order + 1` coefficients, whose sum (with complement: alternating sum) is the gain.  The
coefficients are symmetric; with complement the symmetry carries the sign `(-1)^order`. -/
theorem C14_design_gain_symmetric (style : WStyle) (f : ℝ) (hf : 0 < f) (hf1 : f < 1) (order count : ℤ) (ho : 0 < order) (hcount : 0 < count)
    (h : ¬ ((style = .blackman ∨ style = .hann) ∧ order = 1)) (complement : Bool) (gain : ℝ) :
    ∃ g, Fir.newDesign (some style) f order count complement gain none = .ok g ∧ (g.b.length : ℤ) = order + 1 ∧
      (∀ v ∈ g.s, v = 0) ∧ g.s.length = g.b.length ∧
      (complement = false → g.b.sum = gain ∧ ∀ n ≤ order.toNat, at0 g.b n = at0 g.b (order.toNat - n)) ∧
      (complement = true → altSum g.b = gain ∧ ∀ n ≤ order.toNat, at0 g.b n = (-1) ^ order.toNat * at0 g.b (order.toNat - n)) := by
  obtain ⟨b0, h1, h2, h3, h4⟩ := fir.design_spec style f hf hf1 order count ho hcount h complement gain
  set b := (if complement then alternate b0 else b0).map (· * gain) with hb
  have hlen : b.length = order.toNat + 1 := by
    rw [hb, List.length_map]; split
    · rw [alternate_length, h1]
    · exact h1
  have hne : b ≠ [] := by intro q; rw [q] at hlen; simp at hlen
  obtain ⟨g, g1, g2, g3, g4, g5⟩ := Fir.new_spec (id : ℝ → ℝ) b none hne
  have hgb : g.b = b := by rw [g4]; simp [padTo]
  have hgs : g.s = List.replicate b.length 0 := by rw [g5]; simp [padTo]
  refine ⟨g, ?_, by rw [hgb, hlen]; omega, ?_, by rw [hgb, hgs]; simp, ?_, ?_⟩
  · unfold Fir.newDesign
    rw [h4]
    exact g1
  · rw [hgs]; intro v hv; exact List.eq_of_mem_replicate hv
  · rintro rfl
    rw [hgb, hb]
    simp only [Bool.false_eq_true, if_false]
    refine ⟨by rw [sum_map_mul, h2, one_mul], fun n hn => ?_⟩
    rw [at0_map_mul, at0_map_mul, h3 n hn]
  · rintro rfl
    rw [hgb, hb]
    simp only [if_true]
    refine ⟨by rw [altSum_scale, ← alternate_sum, alternate_alternate, h2, one_mul], fun n hn => ?_⟩
    rw [at0_map_mul, at0_map_mul, at0_alternate, at0_alternate, h3 n hn]
    have : ((-1 : ℝ)) ^ order.toNat * (-1) ^ (order.toNat - n) = (-1) ^ n := by
      conv_lhs => rw [show order.toNat = n + (order.toNat - n) by omega, show n + (order.toNat - n) - n = order.toNat - n by omega]
      rw [pow_add, mul_assoc, ← pow_add, ← two_mul, pow_mul]
      norm_num
    rw [← this]; ring

/-- The response of a symmetric coefficient array: a sum of cosines times the delay of half its order. -/
theorem linear_phase_at (b : List ℝ) (M : ℕ) (hl : b.length = M + 1) (hs : ∀ n ≤ M, at0 b n = at0 b (M - n)) (f : ℝ) :
    dtft b f = Complex.exp (-(Complex.I * Real.pi * f * (M / 2 : ℝ))) * ((∑ n ∈ range (M + 1), at0 b n * Real.cos (Real.pi * f * (M / 2 - n)) : ℝ) : ℂ) := by
  have hE : Complex.exp (Complex.I * Real.pi * f * (M / 2 : ℝ)) * dtft b f = ∑ n ∈ range (M + 1), ((at0 b n : ℝ) : ℂ) * Complex.exp (Complex.I * ((Real.pi * f * (M / 2 - n) : ℝ) : ℂ)) := by
    rw [dtft, hl, mul_sum]
    apply sum_congr rfl
    intro n _
    rw [mul_left_comm, ← Complex.exp_add]
    congr 2
    push_cast; ring
  have hrefl : ∑ n ∈ range (M + 1), ((at0 b n : ℝ) : ℂ) * Complex.exp (Complex.I * ((Real.pi * f * (M / 2 - n) : ℝ) : ℂ)) =
      ∑ n ∈ range (M + 1), ((at0 b n : ℝ) : ℂ) * Complex.exp (-(Complex.I * ((Real.pi * f * (M / 2 - n) : ℝ) : ℂ))) := by
    rw [← sum_range_reflect]
    apply sum_congr rfl
    intro n hn
    have hn : n ≤ M := by have := mem_range.mp hn; omega
    rw [show M + 1 - 1 - n = M - n by omega, ← hs n hn, Nat.cast_sub hn]
    congr 2
    push_cast; ring
  have h2 : Complex.exp (Complex.I * Real.pi * f * (M / 2 : ℝ)) * dtft b f = ((∑ n ∈ range (M + 1), at0 b n * Real.cos (Real.pi * f * (M / 2 - n)) : ℝ) : ℂ) := by
    have h2 : 2 * (Complex.exp (Complex.I * Real.pi * f * (M / 2 : ℝ)) * dtft b f) = 2 * ((∑ n ∈ range (M + 1), at0 b n * Real.cos (Real.pi * f * (M / 2 - n)) : ℝ) : ℂ) := by
      rw [two_mul, hE]
      conv_lhs => rhs; rw [hrefl]
      rw [← sum_add_distrib, Complex.ofReal_sum, mul_sum]
      apply sum_congr rfl
      intro n _
      generalize Real.pi * f * (M / 2 - n) = t
      rw [← mul_add, Complex.ofReal_mul, Complex.ofReal_cos, Complex.cos]
      rw [mul_comm Complex.I, ← neg_mul]
      ring
    exact mul_left_cancel₀ two_ne_zero h2
  rw [← h2, ← mul_assoc, ← Complex.exp_add, neg_add_cancel, Complex.exp_zero, one_mul]

/-- A symmetric coefficient array has linear phase. -/
theorem linear_phase (b : List ℝ) (M : ℕ) (hl : b.length = M + 1) (hs : ∀ n ≤ M, at0 b n = at0 b (M - n)) (f : ℝ) :
    ∃ r : ℝ, dtft b f = Complex.exp (-(Complex.I * Real.pi * f * (M / 2 : ℝ))) * r :=
  ⟨_, linear_phase_at b M hl hs f⟩

/-- C14.  Linear phase: without complement for every order, with complement for even orders, the response at every frequency is a
real number times the delay of `order/2` samples. -/
theorem C14_design_linear_phase (style : WStyle) (f : ℝ) (hf : 0 < f) (hf1 : f < 1) (order count : ℤ) (ho : 0 < order) (hcount : 0 < count)
    (h : ¬ ((style = .blackman ∨ style = .hann) ∧ order = 1)) (complement : Bool) (gain : ℝ) (hc : complement = true → Even order) :
    ∃ g, Fir.newDesign (some style) f order count complement gain none = .ok g ∧
      ∀ u : ℝ, ∃ r : ℝ, freqResp [] g.b u = Complex.exp (-(Complex.I * Real.pi * u * ((order : ℝ) / 2 : ℝ))) * r := by
  obtain ⟨g, h1, h2, -, -, h3, h4⟩ := C14_design_gain_symmetric style f hf hf1 order count ho hcount h complement gain
  refine ⟨g, h1, fun u => ?_⟩
  have hs : ∀ n ≤ order.toNat, at0 g.b n = at0 g.b (order.toNat - n) := by
    cases hcc : complement with
    | false => exact (h3 hcc).2
    | true =>
      intro n hn
      have he : Even order.toNat := by
        obtain ⟨k, hk⟩ := hc hcc
        exact ⟨k.toNat, by omega⟩
      have := (h4 hcc).2 n hn
      rwa [he.neg_one_pow, one_mul] at this
  obtain ⟨r, hr⟩ := linear_phase g.b order.toNat (by omega) hs u
  refine ⟨r, ?_⟩
  have ho' : ((order.toNat : ℕ) : ℝ) = (order : ℝ) := by
    have : ((order.toNat : ℤ) : ℝ) = (order : ℝ) := by rw [Int.toNat_of_nonneg ho.le]
    exact_mod_cast this
  rw [freqResp, hr, ho']
  simp [dtft]

/-- The hypotheses hold: a high pass filter of order 2. -/
example := C14_design_linear_phase .hann (1 / 2) (by norm_num) (by norm_num) 2 1 (by norm_num) (by norm_num) (by simp) true 3 (by decide)

/-- C14.  The two windows that vanish at order one cannot be designed. -/
theorem C14_design_degenerate (style : WStyle) (hst : style = .blackman ∨ style = .hann) (f : ℝ) (count : ℤ)
    (complement : Bool) (gain : ℝ) (s : Option (List ℝ)) : Fir.newDesign (some style) f 1 count complement gain s = .error .valueError := by
  have hcand : ∀ f' x, fir.candidate style 1 f' x = .error .valueError := by
    intro f' x
    unfold fir.candidate
    simp only
    rw [if_pos]
    rw [fir.ideal_sum]
    apply sum_eq_zero
    intro n hn
    have hn := mem_range.mp hn
    unfold fir.tap
    rw [window.value_zero style n (by omega) hst, mul_zero]
  have hd : fir.design (some style) f 1 count complement gain = .error .valueError := by
    unfold fir.design
    simp only
    by_cases h1 : f ≤ 0 ∨ f ≥ 1
    · simp [h1]
    · by_cases h2 : count ≤ 0
      · simp [h1, h2]
      · simp only [h1, h2, if_false]
        rw [if_neg (by omega)]
        rcases search.run_result (fir.candidate style (1 : ℤ).toNat (if complement then 1 - f else f)) (fir.deviation (if complement then 1 - f else f) count.toNat) 3.0e-2 with
          ⟨x, b0, hx, h1, h2⟩ | ⟨x, e, hx, h1, h2⟩
        · rw [show (1 : ℤ).toNat = 1 from rfl, hcand] at h1; cases h1
        · rw [show (1 : ℤ).toNat = 1 from rfl, hcand] at h1; cases h1
          rw [h2]
  unfold Fir.newDesign
  rw [hd]

example := C14_design_degenerate .hann (.inr rfl) (1 / 2) 1 false 1 none

/-- C14.  Invalid arguments are rejected. -/
theorem C14_design_rejects (style : Option WStyle) (f : ℝ) (order count : ℤ)
    (complement : Bool) (gain : ℝ) (s : Option (List ℝ)) (h : style = none ∨ f ≤ 0 ∨ 1 ≤ f ∨ order ≤ 0 ∨ count ≤ 0) :
    Fir.newDesign style f order count complement gain s = .error .valueError := by
  have : fir.design style f order count complement gain = .error .valueError := by
    unfold fir.design
    cases style with
    | none => rfl
    | some style =>
      simp only
      by_cases h1 : f ≤ 0 ∨ f ≥ 1
      · simp [h1]
      · by_cases h2 : order ≤ 0
        · simp [h1, h2]
        · by_cases h3 : count ≤ 0
          · simp [h1, h2, h3]
          · exfalso
            push Not at h1
            rcases h with h | h | h | h | h
            · cases h
            · linarith [h1.1]
            · linarith [h1.2]
            · exact h2 h
            · exact h3 h
  unfold Fir.newDesign
  rw [this]

example := C14_design_rejects (some .hann) (3 / 2) 4 1 false 1 none (.inr (.inr (.inl (by norm_num))))

/-- C15, FIR.  As for IIR filters: the returned coefficients are those of the first best among the `n ≤ 500` candidates tried, where
candidate `x` is the window design with cutoff `min (x·f) (1-eps)`; the search stops early only at a candidate within the tolerance. -/
theorem C15_fir_design_best (style : WStyle) (f : ℝ) (hf : 0 < f) (hf1 : f < 1) (order count : ℤ) (ho : 0 < order) (hcount : 0 < count)
    (h : ¬ ((style = .blackman ∨ style = .hann) ∧ order = 1)) (complement : Bool) (gain : ℝ)
    (s : ℕ → ℝ) (D : ℝ → ℝ) (hs : Scales D 0.03 (1 / 2 ^ 52) s)
    (hD : ∀ x b, fir.candidate style order.toNat (if complement then 1 - f else f) x = .ok b →
      D x = 1 / Real.sqrt 2 - ‖freqResp [] b (if complement then 1 - f else f)‖ ^ count.toNat) :
    ∃ n k b, 1 ≤ n ∧ n ≤ 500 ∧ (n = 500 ∨ |D (s (n - 1))| < 10e3 / 2 ^ 52) ∧ (∀ j, j + 1 < n → 10e3 / 2 ^ 52 ≤ |D (s j)|) ∧
      FirstBest D s n k ∧ fir.candidate style order.toNat (if complement then 1 - f else f) (s k) = .ok b ∧
      fir.design (some style) f order count complement gain = .ok ((if complement then alternate b else b).map (· * gain)) := by
  set f' := if complement then 1 - f else f with hf'
  have hfpos : 0 < f' := by rw [hf']; split <;> linarith
  have hon : 0 < order.toNat := by omega
  have h' : ¬ ((style = .blackman ∨ style = .hann) ∧ order.toNat = 1) := fun q => h ⟨q.1, by omega⟩
  have heps : (10e3 : ℝ) / 2 ^ 52 = 10e3 * search.eps := by unfold search.eps; ring
  have hD' : ∀ x v, fir.candidate style order.toNat f' x = .ok v → D x = fir.deviation f' count.toNat v := by
    intro x v hv
    rw [hD x v hv, fir.deviation_eq]
  have hs' : Scales D 3.0e-2 search.eps s := by
    rw [show (3.0e-2 : ℝ) = 0.03 by norm_num]; exact hs
  rcases search.run_spec (fir.candidate style order.toNat f') (fir.deviation f' count.toNat) D hD' 3.0e-2 s hs' with
    ⟨n, k, b, q1, q2, q3, q4, q5, q6, q7, q8⟩ | ⟨n, e, -, -, -, q1, -⟩
  · refine ⟨n, k, b, q1, q2, ?_, ?_, q6, q7, ?_⟩
    · rw [heps]; exact q3
    · rw [heps]; exact q4
    · obtain ⟨v, g1, g2, g3, g4⟩ := fir.candidate_spec style order.toNat hon h' f' hfpos (s k) (search.scales_pos D _ s hs' k)
      rw [g1] at q7
      cases q7
      unfold fir.design
      simp only [show ¬ (f ≤ 0 ∨ f ≥ 1) by push Not; exact ⟨hf, hf1⟩, show ¬ order ≤ 0 by omega, show ¬ count ≤ 0 by omega, if_false]
      rw [← hf', q8]
      cases complement with
      | false => simp
      | true => simp [alternate_alternate, g3]
  · exfalso
    obtain ⟨v, g1, -⟩ := fir.candidate_spec style order.toNat hon h' f' hfpos (s n) (search.scales_pos D _ s hs' n)
    rw [g1] at q1
    cases q1

/-- Such scale factors and deviations exist for all arguments. -/
example (style : WStyle) (f : ℝ) (order count : ℕ) :
    ∃ D s, Scales D 0.03 (1 / 2 ^ 52) s ∧ ∀ x b, fir.candidate style order f x = .ok b →
      D x = 1 / Real.sqrt 2 - ‖freqResp [] b f‖ ^ count := by
  let D : ℝ → ℝ := fun x => match fir.candidate style order f x with
    | .ok b => 1 / Real.sqrt 2 - ‖freqResp [] b f‖ ^ count
    | .error _ => 0
  refine ⟨D, search.scales D 0.03, ⟨rfl, fun k => ?_⟩, ?_⟩
  · show max _ search.eps = _
    unfold search.eps
    norm_num
  · intro x b h
    simp only [D, h]

/-- A Hann filter of order two with gain three is the delay by one sample times three. -/
example : ∃ g, Fir.newDesign (some .hann) (1 / 2) 2 1 false 3 none = .ok g ∧ g.b.length = 3 ∧ g.b.sum = 3 := by
  obtain ⟨g, h1, h2, -, -, h3, -⟩ := C14_design_gain_symmetric .hann (1 / 2) (by norm_num) (by norm_num) 2 1 (by norm_num) (by norm_num)
    (by simp) false 3
  exact ⟨g, h1, by omega, (h3 rfl).1⟩

end Verif.Props
