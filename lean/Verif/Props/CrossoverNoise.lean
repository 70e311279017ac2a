import Verif.Props.Crossover
import Verif.Props.MeanPower

/- C173 on white noise: the noise is divided between the low pass and the high pass Butterworth filter as the powers of their responses are. -/

namespace Verif.Props

open MeasureTheory Finset Spec

variable {Ω : Type*} [MeasurableSpace Ω] {μ : Measure Ω} [IsProbabilityMeasure μ]

/-- The mean powers of two responses whose powers sum to between `m` and `M` do so too. -/
private theorem mean_two (g h : Iir ℝ) (hwf : g.WF) (h0 : at0 g.a 0 = 0) (hst : Stable g.a) (kwf : h.WF) (k0 : at0 h.a 0 = 0) (kst : Stable h.a) (m M : ℝ)
    (hM : ∀ u, 0 ≤ u → u ≤ 1 → m ≤ ‖freqResp g.a g.b u‖ ^ 2 + ‖freqResp h.a h.b u‖ ^ 2 ∧ ‖freqResp g.a g.b u‖ ^ 2 + ‖freqResp h.a h.b u‖ ^ 2 ≤ M)
    (N : ℕ) (hN : 0 < N) : ∃ y f z e, g.response N 1 = .ok (y, f) ∧ h.response N 1 = .ok (z, e) ∧ m ≤ meanPower y + meanPower z ∧ meanPower y + meanPower z ≤ M := by
  have hall : ∀ u : ℝ, 0 ≤ u → u < 2 → m ≤ ‖freqResp g.a g.b u‖ ^ 2 + ‖freqResp h.a h.b u‖ ^ 2 ∧ ‖freqResp g.a g.b u‖ ^ 2 + ‖freqResp h.a h.b u‖ ^ 2 ≤ M := by
    intro u u0 u2
    rcases le_total u 1 with u1 | u1
    · exact hM u u0 u1
    · rw [show u = (u - 2) + 2 by ring, freqResp_period, freqResp_period, ← neg_sub 2 u, freqResp_neg, freqResp_neg]
      exact hM _ (by linarith) (by linarith)
  have hga := wf_ne hwf
  have hha := wf_ne kwf
  have hN0 : (0 : ℝ) < N := by exact_mod_cast hN
  obtain ⟨y, f, h1, h2⟩ := response_power g.b (1 :: g.a.tail.map (- ·)) N hN fun u => by rw [dtft_one_sub _ hga h0]; exact (impulse_sum g.a g.b h0 hga hst u).1
  obtain ⟨z, e, k1, k2⟩ := response_power h.b (1 :: h.a.tail.map (- ·)) N hN fun u => by rw [dtft_one_sub _ hha k0]; exact (impulse_sum h.a h.b k0 hha kst u).1
  refine ⟨y, f, z, e, h1, k1, ?_⟩
  simp only [dtft_one_sub _ hga h0] at h2
  simp only [dtft_one_sub _ hha k0] at k2
  have hbin : ∀ k ∈ range N, m ≤ ‖freqResp g.a g.b (2 * k / N)‖ ^ 2 + ‖freqResp h.a h.b (2 * k / N)‖ ^ 2 ∧
      ‖freqResp g.a g.b (2 * k / N)‖ ^ 2 + ‖freqResp h.a h.b (2 * k / N)‖ ^ 2 ≤ M := by
    intro k hk
    have : (k : ℝ) < N := by exact_mod_cast mem_range.mp hk
    exact hall _ (by positivity) (by rw [div_lt_iff₀ hN0]; linarith)
  rw [h2, k2, ← add_div, ← sum_add_distrib, le_div_iff₀ hN0, div_le_iff₀ hN0]
  unfold freqResp at hbin
  constructor
  · have := card_nsmul_le_sum (range N) _ m fun k hk => (hbin k hk).1
    rw [card_range, nsmul_eq_mul] at this
    linarith
  · have := sum_le_card_nsmul (range N) _ M fun k hk => (hbin k hk).2
    rw [card_range, nsmul_eq_mul] at this
    linarith

/-- C173.  White noise of power `σ²` given to both filters: the powers of the noise which they give out sum to no more than `σ²` times the square of the gain, and after
some samples to no less than `σ²` times twice the smaller power of the responses at the frequency of the design, but for as little as one likes. -/
theorem C173_noise (residue : List ℝ → List ℝ → List ℂ × List ℂ) (hres : ResidueSpec residue) (v : ℝ) (hv : 0 < v) (hv1 : v < 1)
    (order : ℤ) (ho : 0 < order) (ho' : order ≤ 66) (gain : ℝ) :
    ∃ g h, Iir.newDesign residue (some .butterworth) v order 1 false gain none = .ok g ∧
      Iir.newDesign residue (some .butterworth) v order 1 true gain none = .ok h ∧
      ∀ ε > 0, ∃ n0 : ℕ, ∀ (N : ℕ) (σ : ℝ) (d : ℕ → ℝ) (x : ℕ → Ω → ℝ), 0 < N → White μ x N σ → ∃ (y z : Ω → List ℝ) (p q : List ℝ) (g' h' : Iir ℝ),
        (∀ ω, ∃ f', g.filter (noisy d x N ω) = (.ok (y ω), f')) ∧ g.filter ((List.range N).map d) = (.ok p, g') ∧
        (∀ ω, ∃ f', h.filter (noisy d x N ω) = (.ok (z ω), f')) ∧ h.filter ((List.range N).map d) = (.ok q, h') ∧
        ∀ n < N, ∫ ω, (at0 (y ω) n - at0 p n) ^ 2 ∂μ + ∫ ω, (at0 (z ω) n - at0 q n) ^ 2 ∂μ ≤ σ ^ 2 * gain ^ 2 ∧
          (n0 ≤ n → σ ^ 2 * (2 * min (‖freqResp g.a g.b v‖ ^ 2) (‖freqResp h.a h.b v‖ ^ 2) - ε) ≤
            ∫ ω, (at0 (y ω) n - at0 p n) ^ 2 ∂μ + ∫ ω, (at0 (z ω) n - at0 q n) ^ 2 ∂μ) := by
  obtain ⟨g, h, g1, h1, hp⟩ := C173_power residue hres v hv hv1 order ho ho' gain
  refine ⟨g, h, g1, h1, fun ε hε => ?_⟩
  obtain ⟨g', d1, d2, d3, d4, d5, -, d6, -⟩ := Iir.newDesign_spec residue hres .butterworth v hv hv1 order 1 ho one_pos false gain
  rw [g1] at d1
  cases d1
  obtain ⟨h', k1, k2, k3, k4, k5, -, k6, -⟩ := Iir.newDesign_spec residue hres .butterworth v hv hv1 order 1 ho one_pos true gain
  rw [h1] at k1
  cases k1
  obtain ⟨G, a1, a2⟩ := C175_iir (μ := μ) g d2 d3 d5 d6
  obtain ⟨H, b1, b2⟩ := C175_iir (μ := μ) h k2 k3 k5 k6
  set m := 2 * min (‖freqResp g.a g.b v‖ ^ 2) (‖freqResp h.a h.b v‖ ^ 2) with hm
  have hGH : ∀ δ > 0, m - δ ≤ G + H ∧ G + H ≤ gain ^ 2 + δ := by
    intro δ hδ
    obtain ⟨N1, e1⟩ := a1 (δ / 2) (half_pos hδ)
    obtain ⟨N2, e2⟩ := b1 (δ / 2) (half_pos hδ)
    obtain ⟨y, f, z, e, f1, f2, f3, f4⟩ := mean_two g h d3 d5 d6 k3 k5 k6 m (gain ^ 2) hp (N1 + N2 + 1) (by omega)
    obtain ⟨y', f', c1, c2⟩ := e1 ((N1 + N2 + 1 : ℕ) : ℤ) (by push_cast; omega)
    obtain ⟨z', e', c3, c4⟩ := e2 ((N1 + N2 + 1 : ℕ) : ℤ) (by push_cast; omega)
    rw [f1] at c1
    rw [f2] at c3
    cases c1
    cases c3
    rw [abs_le] at c2 c4
    constructor <;> linarith [c2.1, c2.2, c4.1, c4.2]
  have hlo : m ≤ G + H := le_of_forall_pos_le_add fun δ hδ => by linarith [(hGH δ hδ).1]
  have hhi : G + H ≤ gain ^ 2 := le_of_forall_pos_le_add fun δ hδ => (hGH δ hδ).2
  obtain ⟨n1, a3⟩ := a2 (ε / 2) (half_pos hε)
  obtain ⟨n2, b3⟩ := b2 (ε / 2) (half_pos hε)
  refine ⟨max n1 n2, fun N σ d x hN hx => ?_⟩
  obtain ⟨y, p, g', y1, y2, y3⟩ := a3 N σ d x hN hx
  obtain ⟨z, q, h', z1, z2, z3⟩ := b3 N σ d x hN hx
  refine ⟨y, z, p, q, g', h', y1, y2, z1, z2, fun n hn => ⟨?_, fun hle => ?_⟩⟩
  · have := mul_le_mul_of_nonneg_left hhi (sq_nonneg σ)
    linarith [(y3 n hn).1, (z3 n hn).1]
  · have := mul_le_mul_of_nonneg_left hlo (sq_nonneg σ)
    have l1 := (y3 n hn).2 (by omega)
    have l2 := (z3 n hn).2 (by omega)
    nlinarith

/-- The hypotheses hold: a pair of order 4 at a fifth of the Nyquist frequency; the noise of two tosses of a coin is white. -/
example (residue : List ℝ → List ℝ → List ℂ × List ℂ) (hres : ResidueSpec residue) :=
  C173_noise (μ := coins) residue hres 0.2 (by norm_num) (by norm_num) 4 (by norm_num) (by norm_num) 3

end Verif.Props
