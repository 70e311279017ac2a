import Verif.Lemmas.EnergyTwo
import Verif.Props.Energy

/-
C173.  The low pass and the high pass ( complement ) Butterworth IirFilter of one frequency and order, used once, divide a signal between them: at no frequency
do the powers of the two responses sum to more than the square of the gain, and nowhere to less than twice the smaller power at the frequency of the design.
-/

namespace Verif.Props

open Finset Spec

/-! ### Two filters of one signal -/

private theorem freqResp_continuous (a b : List ℝ) (h0 : at0 a 0 = 0) (ha : a ≠ []) (hst : Stable a) : Continuous (freqResp a b) := by
  unfold freqResp
  exact (dtft_continuous b).div (continuous_const.sub (dtft_continuous a)) fun u => (impulse_sum a b h0 ha hst u).1

/-- C173.  Two stable IirFilters of one signal: the energies of the outputs together are at most the energy of the signal times the largest sum of the powers. -/
theorem C173_iir (g h : Iir ℝ) (hc : g.cast = id) (hwf : g.WF) (hz : ∀ v ∈ g.s, v = 0) (h0 : at0 g.a 0 = 0) (hst : Stable g.a)
    (kc : h.cast = id) (kwf : h.WF) (kz : ∀ v ∈ h.s, v = 0) (k0 : at0 h.a 0 = 0) (kst : Stable h.a) (M : ℝ) (hM0 : 0 ≤ M)
    (hM : ∀ u, 0 ≤ u → u ≤ 1 → ‖freqResp g.a g.b u‖ ^ 2 + ‖freqResp h.a h.b u‖ ^ 2 ≤ M ^ 2) (x : List ℝ) (hx : x ≠ []) :
    ∃ y z g' h', g.filter x = (.ok y, g') ∧ h.filter x = (.ok z, h') ∧ y.length = x.length ∧ z.length = x.length ∧ energy y + energy z ≤ M ^ 2 * energy x := by
  obtain ⟨y, g', h1, h2, h3⟩ := filter_conv g hwf hc h0 hz x hx
  obtain ⟨z, h', k1, k2, k3⟩ := filter_conv h kwf kc k0 kz x hx
  refine ⟨y, z, g', h', h1, k1, h2, k2, ?_⟩
  have hcoef : ∀ a b : List ℝ, at0 a 0 = 0 → ∀ i, PowerSeries.coeff i (ser (np.complexOf b) * recip (np.complexOf a)) = ((PowerSeries.coeff i (ser b * recip a) : ℝ) : ℂ) := by
    intro a b h0 i
    rw [← ser_map_ofReal, ← recip_map _ h0, ← map_mul, PowerSeries.coeff_map]; rfl
  obtain ⟨K, hK⟩ := stable_impulse g.a g.b h0 (wf_ne hwf) hst
  obtain ⟨L, hL⟩ := stable_impulse h.a h.b k0 (wf_ne kwf) kst
  rw [map_mul, recip_map _ h0, ser_map_ofReal] at hK
  rw [map_mul, recip_map _ k0, ser_map_ofReal] at hL
  have hall : ∀ u : ℝ, 0 ≤ u → u < 2 → ‖freqResp g.a g.b u‖ ^ 2 + ‖freqResp h.a h.b u‖ ^ 2 ≤ M ^ 2 := by
    intro u u0 u2
    rcases le_total u 1 with u1 | u1
    · exact hM u u0 u1
    · rw [show u = (u - 2) + 2 by ring, freqResp_period, freqResp_period, ← neg_sub 2 u, freqResp_neg, freqResp_neg]
      exact hM _ (by linarith) (by linarith)
  have := energy_two _ _ (fun n => ((at0 x n : ℝ) : ℂ)) (freqResp g.a g.b) (freqResp h.a h.b) hK.summable hL.summable
    (fun u => (impulse_sum g.a g.b h0 (wf_ne hwf) hst u).2) (fun u => (impulse_sum h.a h.b k0 (wf_ne kwf) kst u).2) M hM0 hall x.length
  simp only [hcoef _ _ h0, hcoef _ _ k0, Complex.norm_real] at this
  rw [energy_eq, energy_eq, energy_eq, h2, k2]
  refine le_trans (le_of_eq ?_) this
  congr 1
  · refine sum_congr rfl fun n hn => ?_
    rw [h3 n (mem_range.mp hn), ← Complex.norm_real]
    push_cast
    rfl
  · refine sum_congr rfl fun n hn => ?_
    rw [k3 n (mem_range.mp hn), ← Complex.norm_real]
    push_cast
    rfl

/-- Two filters which pass a signal scaled by 3 and by 4 have no more than 25 times its energy. -/
example := C173_iir ⟨id, [0], [3], [0]⟩ ⟨id, [0], [4], [0]⟩ rfl ⟨rfl, rfl, by simp⟩ (by simp) rfl (fun z hz => by simp [Pole] at hz)
  rfl ⟨rfl, rfl, by simp⟩ (by simp) rfl (fun z hz => by simp [Pole] at hz) 5 (by norm_num) (fun u _ _ => by
    simp [freqResp, dtft, at0]; norm_num) [1, -2] (by simp)

/-! ### The two designs -/

private theorem crossover_shape (residue : List ℝ → List ℝ → List ℂ × List ℂ) (hres : ResidueSpec residue) (f : ℝ) (hf : 0 < f) (hf1 : f < 1)
    (order : ℤ) (ho : 0 < order) (ho' : order ≤ 66) (gain : ℝ) :
    ∃ g h P Q, Iir.newDesign residue (some .butterworth) f order 1 false gain none = .ok g ∧
      Iir.newDesign residue (some .butterworth) f order 1 true gain none = .ok h ∧ 0 < P ∧ 0 < Q ∧
      (∀ u, 0 < u → u < 1 → 0 < Real.tan (Real.pi * u / 2) ^ (2 * order.toNat) ∧
        ‖freqResp g.a g.b u‖ ^ 2 = gain ^ 2 / (1 + P * Real.tan (Real.pi * u / 2) ^ (2 * order.toNat)) ∧
        ‖freqResp h.a h.b u‖ ^ 2 = gain ^ 2 * Real.tan (Real.pi * u / 2) ^ (2 * order.toNat) / (Real.tan (Real.pi * u / 2) ^ (2 * order.toNat) + Q)) ∧
      (gain ≠ 0 → 1 ≤ P * Real.tan (Real.pi * f / 2) ^ (2 * order.toNat) ∧ Real.tan (Real.pi * f / 2) ^ (2 * order.toNat) ≤ Q) := by
  have hpi := Real.pi_pos
  obtain ⟨g, κ, g1, g2, g3⟩ := C88_shape residue hres f hf hf1 order 1 ho one_pos false gain
  obtain ⟨h, ν, h1, h2, h3⟩ := C88_shape residue hres f hf hf1 order 1 ho one_pos true gain
  have hsh : ∀ u, 0 < u → u < 1 → 0 < Real.tan (Real.pi * u / 2) ^ (2 * order.toNat) ∧
        ‖freqResp g.a g.b u‖ ^ 2 = gain ^ 2 / (1 + κ ^ (2 * order.toNat) * Real.tan (Real.pi * u / 2) ^ (2 * order.toNat)) ∧
        ‖freqResp h.a h.b u‖ ^ 2 = gain ^ 2 * Real.tan (Real.pi * u / 2) ^ (2 * order.toNat) / (Real.tan (Real.pi * u / 2) ^ (2 * order.toNat) + ν ^ (2 * order.toNat)) := by
    intro u u0 u1
    have ht : 0 < Real.tan (Real.pi * u / 2) := Real.tan_pos_of_pos_of_lt_pi_div_two (by positivity) (by nlinarith)
    have hx : 0 < Real.tan (Real.pi * u / 2) ^ (2 * order.toNat) := by positivity
    refine ⟨hx, ?_, ?_⟩
    · have := g3 u (by linarith) u1
      simp only [Bool.false_eq_true, if_false] at this
      rw [this, div_pow, sq_abs, Real.sq_sqrt (by positivity), mul_pow]
    · have := h3 (1 - u) (by linarith) (by linarith)
      simp only [if_true, sub_sub_cancel] at this
      rw [this, div_pow, sq_abs, show Real.pi * (1 - u) / 2 = Real.pi / 2 - Real.pi * u / 2 by ring, Real.tan_pi_div_two_sub, Real.sq_sqrt (by positivity), mul_pow, inv_pow]
      have : 0 < ν ^ (2 * order.toNat) := by positivity
      field_simp
  refine ⟨g, h, κ ^ (2 * order.toNat), ν ^ (2 * order.toNat), g1, h1, by positivity, by positivity, hsh, fun hg => ?_⟩
  obtain ⟨x0, e1, e2⟩ := hsh f hf hf1
  have hg2 : 0 < gain ^ 2 := by positivity
  have hs2 : (1 / Real.sqrt 2) ^ 2 = 1 / 2 := by rw [div_pow, Real.sq_sqrt (by norm_num)]; norm_num
  have hP : 0 < κ ^ (2 * order.toNat) := by positivity
  have hQ : 0 < ν ^ (2 * order.toNat) := by positivity
  constructor
  · obtain ⟨g', γ, c1, c2, c3, c4, -⟩ := C88_cutoff residue hres f hf hf1 order 1 ho ho' one_pos false gain _ _ _ _ 1 rfl rfl rfl rfl le_rfl (by norm_num)
    rw [g1] at c1
    cases c1
    rw [show (1 : ℤ).toNat = 1 from rfl, pow_one] at c4
    have c5 := pow_le_pow_left₀ c3.le c4 2
    rw [hs2] at c5
    rw [c2, mul_pow, sq_abs, div_eq_mul_inv, mul_right_inj' hg2.ne'] at e1
    rw [e1, inv_le_comm₀ (by positivity) (by norm_num)] at c5
    norm_num at c5
    linarith
  · obtain ⟨g', γ, c1, c2, c3, c4, -⟩ := C88_cutoff residue hres f hf hf1 order 1 ho ho' one_pos true gain _ _ _ _ 1 rfl rfl rfl rfl le_rfl (by norm_num)
    rw [h1] at c1
    cases c1
    rw [show (1 : ℤ).toNat = 1 from rfl, pow_one] at c4
    have c5 := pow_le_pow_left₀ c3.le c4 2
    rw [hs2] at c5
    rw [c2, mul_pow, sq_abs, mul_div_assoc, mul_right_inj' hg2.ne'] at e2
    rw [e2, div_le_iff₀ (by positivity)] at c5
    linarith

/-- C173.  At every frequency the powers of the two responses sum to no more than the square of the gain, and to no less than twice the smaller of the two powers
at the frequency of the design. -/
theorem C173_power (residue : List ℝ → List ℝ → List ℂ × List ℂ) (hres : ResidueSpec residue) (f : ℝ) (hf : 0 < f) (hf1 : f < 1)
    (order : ℤ) (ho : 0 < order) (ho' : order ≤ 66) (gain : ℝ) :
    ∃ g h, Iir.newDesign residue (some .butterworth) f order 1 false gain none = .ok g ∧
      Iir.newDesign residue (some .butterworth) f order 1 true gain none = .ok h ∧
      ∀ u, 0 ≤ u → u ≤ 1 →
        2 * min (‖freqResp g.a g.b f‖ ^ 2) (‖freqResp h.a h.b f‖ ^ 2) ≤ ‖freqResp g.a g.b u‖ ^ 2 + ‖freqResp h.a h.b u‖ ^ 2 ∧
        ‖freqResp g.a g.b u‖ ^ 2 + ‖freqResp h.a h.b u‖ ^ 2 ≤ gain ^ 2 := by
  obtain ⟨g, h, P, Q, g1, h1, hP, hQ, hsh, hc⟩ := crossover_shape residue hres f hf hf1 order ho ho' gain
  refine ⟨g, h, g1, h1, ?_⟩
  obtain ⟨g', d1, -, d3, -, d5, -, d6, -⟩ := Iir.newDesign_spec residue hres .butterworth f hf hf1 order 1 ho one_pos false gain
  rw [g1] at d1
  cases d1
  obtain ⟨h', k1, -, k3, -, k5, -, k6, -⟩ := Iir.newDesign_spec residue hres .butterworth f hf hf1 order 1 ho one_pos true gain
  rw [h1] at k1
  cases k1
  have cg := freqResp_continuous g.a g.b d5 (wf_ne d3) d6
  have ch := freqResp_continuous h.a h.b k5 (wf_ne k3) k6
  have hin : ∀ u, 0 < u → u < 1 →
        2 * min (‖freqResp g.a g.b f‖ ^ 2) (‖freqResp h.a h.b f‖ ^ 2) ≤ ‖freqResp g.a g.b u‖ ^ 2 + ‖freqResp h.a h.b u‖ ^ 2 ∧
        ‖freqResp g.a g.b u‖ ^ 2 + ‖freqResp h.a h.b u‖ ^ 2 ≤ gain ^ 2 := by
    intro u u0 u1
    obtain ⟨x0, e1, e2⟩ := hsh u u0 u1
    obtain ⟨y0, e3, e4⟩ := hsh f hf hf1
    rw [e1, e2, e3, e4]
    by_cases hg : gain = 0
    · rw [hg]; norm_num
    obtain ⟨c1, c2⟩ := hc hg
    have hg2 : 0 < gain ^ 2 := by positivity
    generalize Real.tan (Real.pi * u / 2) ^ (2 * order.toNat) = x at *
    generalize Real.tan (Real.pi * f / 2) ^ (2 * order.toNat) = y at *
    generalize gain ^ 2 = e at *
    have hPQ : 1 ≤ P * Q := c1.trans (mul_le_mul_of_nonneg_left c2 hP.le)
    constructor
    · set c := min (1 / (1 + P * y)) (y / (y + Q)) with hcd
      have hc0 : 0 < c := lt_min (by positivity) (by positivity)
      have c3 : c ≤ 1 / (1 + P * y) := min_le_left _ _
      have c4 : c ≤ y / (y + Q) := min_le_right _ _
      have hc2 : c ≤ 1 / 2 := c3.trans (by rw [div_le_div_iff₀ (by positivity) (by norm_num)]; linarith)
      have hmin : min (e / (1 + P * y)) (e * y / (y + Q)) = e * c := by
        rw [hcd, mul_min_of_nonneg _ _ hg2.le, mul_one_div, mul_div_assoc]
      rw [hmin, mul_div_assoc, div_eq_mul_one_div e, ← mul_add, mul_left_comm]
      refine mul_le_mul_of_nonneg_left ?_ hg2.le
      rw [le_div_iff₀ (by positivity)] at c3 c4
      have f1 : c * y / (c * y + (1 - c) * x) ≤ 1 / (1 + P * x) := by
        have : 0 < c * y + (1 - c) * x := by have : 0 < (1 - c) * x := mul_pos (by linarith) x0; positivity
        rw [div_le_div_iff₀ this (by positivity)]
        nlinarith [mul_le_mul_of_nonneg_right c3 x0.le]
      have f2 : c * x / (c * x + (1 - c) * y) ≤ x / (x + Q) := by
        have : 0 < c * x + (1 - c) * y := by have : 0 < (1 - c) * y := mul_pos (by linarith) y0; positivity
        rw [div_le_div_iff₀ this (by positivity)]
        nlinarith [mul_le_mul_of_nonneg_right c4 x0.le]
      refine le_trans ?_ (add_le_add f1 f2)
      have p1 : 0 < c * y + (1 - c) * x := by have : 0 < (1 - c) * x := mul_pos (by linarith) x0; positivity
      have p2 : 0 < c * x + (1 - c) * y := by have : 0 < (1 - c) * y := mul_pos (by linarith) y0; positivity
      rw [div_add_div _ _ p1.ne' p2.ne', le_div_iff₀ (by positivity), ← sub_nonneg]
      have : 0 ≤ c * (1 - c) * (1 - 2 * c) * (x - y) ^ 2 :=
        mul_nonneg (mul_nonneg (mul_nonneg hc0.le (by linarith)) (by linarith)) (sq_nonneg _)
      refine this.trans (le_of_eq ?_)
      ring
    · rw [div_add_div _ _ (by positivity) (by positivity), div_le_iff₀ (by positivity)]
      nlinarith [mul_le_mul_of_nonneg_left hPQ (mul_pos hg2 x0).le, mul_pos hg2 x0]
  intro u u0 u1
  have hcl : IsClosed {u : ℝ | 2 * min (‖freqResp g.a g.b f‖ ^ 2) (‖freqResp h.a h.b f‖ ^ 2) ≤ ‖freqResp g.a g.b u‖ ^ 2 + ‖freqResp h.a h.b u‖ ^ 2 ∧
        ‖freqResp g.a g.b u‖ ^ 2 + ‖freqResp h.a h.b u‖ ^ 2 ≤ gain ^ 2} :=
    (isClosed_le continuous_const ((cg.norm.pow 2).add (ch.norm.pow 2))).inter (isClosed_le ((cg.norm.pow 2).add (ch.norm.pow 2)) continuous_const)
  have hsub := hcl.closure_subset_iff.mpr fun v (hv : v ∈ Set.Ioo (0 : ℝ) 1) => hin v hv.1 hv.2
  rw [closure_Ioo (by norm_num)] at hsub
  exact hsub ⟨u0, u1⟩

/-- Order 4 at a fifth of Nyquist. -/
example (residue : List ℝ → List ℝ → List ℂ × List ℂ) (hres : ResidueSpec residue) :=
  C173_power residue hres 0.2 (by norm_num) (by norm_num) 4 (by norm_num) (by norm_num) 3

/-- C173.  The two filters never give out more energy than the square of the gain times what they are given. -/
theorem C173_energy (residue : List ℝ → List ℝ → List ℂ × List ℂ) (hres : ResidueSpec residue) (f : ℝ) (hf : 0 < f) (hf1 : f < 1)
    (order : ℤ) (ho : 0 < order) (ho' : order ≤ 66) (gain : ℝ) :
    ∃ g h, Iir.newDesign residue (some .butterworth) f order 1 false gain none = .ok g ∧
      Iir.newDesign residue (some .butterworth) f order 1 true gain none = .ok h ∧
      ∀ x : List ℝ, x ≠ [] → ∃ y z g' h', g.filter x = (.ok y, g') ∧ h.filter x = (.ok z, h') ∧ y.length = x.length ∧ z.length = x.length ∧
        energy y + energy z ≤ gain ^ 2 * energy x := by
  obtain ⟨g, h, g1, h1, hp⟩ := C173_power residue hres f hf hf1 order ho ho' gain
  refine ⟨g, h, g1, h1, fun x hx => ?_⟩
  obtain ⟨g', d1, d2, d3, d4, d5, -, d6, -⟩ := Iir.newDesign_spec residue hres .butterworth f hf hf1 order 1 ho one_pos false gain
  rw [g1] at d1
  cases d1
  obtain ⟨h', k1, k2, k3, k4, k5, -, k6, -⟩ := Iir.newDesign_spec residue hres .butterworth f hf hf1 order 1 ho one_pos true gain
  rw [h1] at k1
  cases k1
  rw [← sq_abs gain]
  exact C173_iir g h d2 d3 d4 d5 d6 k2 k3 k4 k5 k6 |gain| (abs_nonneg _) (fun u u0 u1 => by rw [sq_abs]; exact (hp u u0 u1).2) x hx

/-- C173.  At half of the Nyquist frequency and up to order 8 the powers sum to one, to within 0.7 %. -/
theorem C173_half (residue : List ℝ → List ℝ → List ℂ × List ℂ) (hres : ResidueSpec residue) (order : ℤ) (ho : 0 < order) (ho' : order ≤ 8) :
    ∃ g h, Iir.newDesign residue (some .butterworth) (1 / 2) order 1 false 1 none = .ok g ∧
      Iir.newDesign residue (some .butterworth) (1 / 2) order 1 true 1 none = .ok h ∧
      ∀ u, 0 ≤ u → u ≤ 1 → 0.993 ≤ ‖freqResp g.a g.b u‖ ^ 2 + ‖freqResp h.a h.b u‖ ^ 2 ∧ ‖freqResp g.a g.b u‖ ^ 2 + ‖freqResp h.a h.b u‖ ^ 2 ≤ 1 := by
  obtain ⟨g, h, g1, h1, hp⟩ := C173_power residue hres (1 / 2) (by norm_num) (by norm_num) order ho (by omega) 1
  refine ⟨g, h, g1, h1, fun u u0 u1 => ?_⟩
  obtain ⟨p1, p2⟩ := hp u u0 u1
  refine ⟨le_trans ?_ p1, by simpa using p2⟩
  obtain ⟨g', c1, c2⟩ := C88_three_db residue hres (1 / 2) false order (by norm_num) (by norm_num) ho ho'
  rw [g1] at c1
  cases c1
  obtain ⟨h', e1, e2⟩ := C88_three_db residue hres (1 / 2) true order (by norm_num) (by norm_num) ho ho'
  rw [h1] at e1
  cases e1
  have hs : 1 / Real.sqrt 2 ≥ 0.7071 := by
    rw [ge_iff_le, le_div_iff₀ (by positivity)]
    have : Real.sqrt 2 ≤ 1.41422 := Real.sqrt_le_iff.mpr ⟨by norm_num, by norm_num⟩
    nlinarith
  have l1 : 0.7047 ≤ ‖freqResp g.a g.b (1 / 2)‖ := by have := (abs_le.mp c2).1; linarith
  have l2 : 0.7047 ≤ ‖freqResp h.a h.b (1 / 2)‖ := by have := (abs_le.mp e2).1; linarith
  have : (0.4965 : ℝ) ≤ min (‖freqResp g.a g.b (1 / 2)‖ ^ 2) (‖freqResp h.a h.b (1 / 2)‖ ^ 2) := le_min (by nlinarith) (by nlinarith)
  linarith

/-- The hypotheses hold: a pair of order 4 at a fifth of the Nyquist frequency. -/
example (residue : List ℝ → List ℝ → List ℂ × List ℂ) (hres : ResidueSpec residue) :=
  C173_energy residue hres 0.2 (by norm_num) (by norm_num) 4 (by norm_num) (by norm_num) 3

example (residue : List ℝ → List ℝ → List ℂ × List ℂ) (hres : ResidueSpec residue) := C173_half residue hres 8 (by norm_num) (by norm_num)

end Verif.Props
