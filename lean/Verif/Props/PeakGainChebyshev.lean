import Verif.Props.PeakGain

/- C178 of Chebyshev designs: as their response comes back to the gain within the pass band, they too amplify some bounded signal by more than the gain. -/

namespace Verif.Props

open Finset Spec

/-- Where the triangle inequality is an equality all terms have one phase. -/
private theorem aligned (w : ℕ → ℂ) (W : ℂ) (G : ℝ) (hw : HasSum w W) (hn : HasSum (fun i => ‖w i‖) G) (hG : 0 < G) (h : ‖W‖ = G) :
    ∃ φ : ℂ, ‖φ‖ = 1 ∧ ∀ i, w i = (‖w i‖ : ℂ) * φ := by
  have hGc : (G : ℂ) ≠ 0 := by exact_mod_cast hG.ne'
  set φ : ℂ := W / G with hφ
  have hφ1 : ‖φ‖ = 1 := by rw [hφ, norm_div, h, Complex.norm_real, Real.norm_eq_abs, abs_of_pos hG, div_self hG.ne']
  have hcc : (starRingEnd ℂ) φ * φ = 1 := by rw [mul_comm, Complex.mul_conj, Complex.normSq_eq_norm_sq, hφ1]; norm_num
  have hnorm : ∀ i, ‖(starRingEnd ℂ) φ * w i‖ = ‖w i‖ := fun i => by rw [norm_mul, RCLike.norm_conj, hφ1, one_mul]
  have hle : ∀ i, 0 ≤ ‖w i‖ - ((starRingEnd ℂ) φ * w i).re := fun i => by
    have := Complex.re_le_norm ((starRingEnd ℂ) φ * w i)
    rw [hnorm] at this
    linarith
  have hWre : ((starRingEnd ℂ) φ * W).re = G := by
    have : W = G * φ := by rw [hφ]; field_simp
    rw [this, mul_left_comm, hcc, mul_one, Complex.ofReal_re]
  have hz : HasSum (fun i => ‖w i‖ - ((starRingEnd ℂ) φ * w i).re) 0 := by
    have := hn.sub (Complex.hasSum_re (hw.mul_left ((starRingEnd ℂ) φ)))
    rwa [hWre, sub_self] at this
  refine ⟨φ, hφ1, fun i => ?_⟩
  have he := congrFun ((hasSum_zero_iff_of_nonneg hle).mp hz) i
  simp only [Pi.zero_apply] at he
  have hre : ((starRingEnd ℂ) φ * w i).re = ‖(starRingEnd ℂ) φ * w i‖ := by rw [hnorm]; linarith
  have him : ((starRingEnd ℂ) φ * w i).im = 0 := by
    have := Complex.normSq_eq_norm_sq ((starRingEnd ℂ) φ * w i)
    rw [Complex.normSq_apply, ← hre] at this
    have : ((starRingEnd ℂ) φ * w i).im * ((starRingEnd ℂ) φ * w i).im = 0 := by linarith
    exact mul_self_eq_zero.mp this
  have hv : (starRingEnd ℂ) φ * w i = (‖w i‖ : ℂ) := by
    apply Complex.ext
    · rw [hre, hnorm, Complex.ofReal_re]
    · rw [him, Complex.ofReal_im]
  rw [← hv, mul_right_comm, hcc, one_mul]

/-- A response which takes its greatest possible magnitude at two frequencies repeats itself with their distance. -/
private theorem repeats (h : ℕ → ℝ) (G : ℝ) (hG0 : 0 < G) (hG : HasSum (fun n => |h n|) G) (H : ℝ → ℂ)
    (hH : ∀ u : ℝ, Filter.Tendsto (fun n => ∑ i ∈ range n, ((h i : ℝ) : ℂ) * Complex.exp (-(Complex.I * Real.pi * u * i))) Filter.atTop (nhds (H u)))
    (s t : ℝ) (hs : ‖H s‖ = G) (ht : ‖H t‖ = G) (u : ℝ) : ‖H (u + (s - t))‖ = ‖H u‖ := by
  have hn1 : ∀ (u : ℝ) (i : ℕ), ‖Complex.exp (-(Complex.I * Real.pi * u * i))‖ = 1 := fun u i => by
    rw [show -(Complex.I * Real.pi * u * i) = ((-(Real.pi * u * i) : ℝ) : ℂ) * Complex.I by push_cast; ring, Complex.norm_exp_ofReal_mul_I]
  have hnn : ∀ (u : ℝ) (i : ℕ), ‖((h i : ℝ) : ℂ) * Complex.exp (-(Complex.I * Real.pi * u * i))‖ = |h i| := fun u i => by
    rw [norm_mul, hn1, mul_one, Complex.norm_real, Real.norm_eq_abs]
  have hN : ∀ u : ℝ, HasSum (fun i : ℕ => ‖((h i : ℝ) : ℂ) * Complex.exp (-(Complex.I * Real.pi * u * i))‖) G := fun u => by simpa only [hnn] using hG
  have hS : ∀ u : ℝ, HasSum (fun i : ℕ => ((h i : ℝ) : ℂ) * Complex.exp (-(Complex.I * Real.pi * u * i))) (H u) := fun u => by
    have hsm : Summable fun i : ℕ => ((h i : ℝ) : ℂ) * Complex.exp (-(Complex.I * Real.pi * u * i)) := Summable.of_norm (hN u).summable
    rw [← tendsto_nhds_unique hsm.hasSum.tendsto_sum_nat (hH u)]
    exact hsm.hasSum
  obtain ⟨φ, φ1, hφ⟩ := aligned _ _ G (hS s) (hN s) hG0 hs
  obtain ⟨ψ, ψ1, hψ⟩ := aligned _ _ G (hS t) (hN t) hG0 ht
  simp only [hnn] at hφ hψ
  have hψ0 : ψ ≠ 0 := by rw [← norm_ne_zero_iff, ψ1]; exact one_ne_zero
  have key : H (u + (s - t)) = φ / ψ * H u := by
    have hterm : (fun i : ℕ => ((h i : ℝ) : ℂ) * Complex.exp (-(Complex.I * Real.pi * ((u + (s - t) : ℝ) : ℂ) * i))) =
        fun i : ℕ => φ / ψ * (((h i : ℝ) : ℂ) * Complex.exp (-(Complex.I * Real.pi * u * i))) := by
      funext i
      by_cases hi : h i = 0
      · rw [hi]; simp
      · have hc : ((|h i| : ℝ) : ℂ) ≠ 0 := by exact_mod_cast abs_ne_zero.mpr hi
        have hhc : ((h i : ℝ) : ℂ) ≠ 0 := by exact_mod_cast hi
        have ht0 := Complex.exp_ne_zero (-(Complex.I * Real.pi * t * i))
        have e1 : Complex.exp (-(Complex.I * Real.pi * s * i)) * ψ = Complex.exp (-(Complex.I * Real.pi * t * i)) * φ := by
          have a1 := hφ i
          have a2 := hψ i
          apply mul_left_cancel₀ (mul_ne_zero hhc hc)
          linear_combination ((|h i| : ℝ) : ℂ) * ψ * a1 - ((|h i| : ℝ) : ℂ) * φ * a2
        have e2 : Complex.exp (-(Complex.I * Real.pi * ((u + (s - t) : ℝ) : ℂ) * i)) * Complex.exp (-(Complex.I * Real.pi * t * i)) =
            Complex.exp (-(Complex.I * Real.pi * u * i)) * Complex.exp (-(Complex.I * Real.pi * s * i)) := by
          rw [← Complex.exp_add, ← Complex.exp_add]
          congr 1
          push_cast
          ring
        apply mul_right_cancel₀ ht0
        rw [mul_assoc, e2]
        generalize Complex.exp (-(Complex.I * Real.pi * u * i)) = eu at *
        generalize Complex.exp (-(Complex.I * Real.pi * s * i)) = es at *
        generalize Complex.exp (-(Complex.I * Real.pi * t * i)) = et at *
        have e3 : φ / ψ * et = es := by rw [div_mul_eq_mul_div, div_eq_iff hψ0]; linear_combination -e1
        linear_combination -((h i : ℝ) : ℂ) * eu * e3
    have := hS (u + (s - t))
    rw [hterm] at this
    exact this.unique ((hS u).mul_left (φ / ψ))
  rw [key, norm_mul, norm_div, φ1, ψ1, div_one, one_mul]

/-- C178.  A Chebyshev design, low pass or high pass, of order two or more: some signal with samples between -1 and 1 has an output larger than the gain. -/
theorem C178_chebyshev (residue : List ℝ → List ℝ → List ℂ × List ℂ) (hres : ResidueSpec residue) (f : ℝ) (hf : 0 < f)
    (hf1 : f < 1) (order count : ℤ) (ho : 2 ≤ order) (hcount : 0 < count) (complement : Bool) (gain : ℝ) (hg : gain ≠ 0) :
    ∃ g, Iir.newDesign residue (some .chebyshev) f order count complement gain none = .ok g ∧
      ∃ x : List ℝ, x ≠ [] ∧ (∀ v ∈ x, |v| ≤ 1) ∧ ∃ y g', g.filter x = (.ok y, g') ∧ ∃ v ∈ y, |gain| < |v| := by
  have hgp : 0 < |gain| := abs_pos.mpr hg
  obtain ⟨g, κ, g1, k0, hsh⟩ := C89_shape residue hres f hf hf1 order count (by omega) hcount complement gain
  refine ⟨g, g1, ?_⟩
  obtain ⟨g', d1, d2, d3, d4, d5, -, d6, -⟩ := Iir.newDesign_spec residue hres .chebyshev f hf hf1 order count (by omega) hcount complement gain
  rw [g1] at d1
  cases d1
  obtain ⟨g', e1, e2, e3⟩ := C12_design_gain residue hres .chebyshev f hf hf1 order count (by omega) hcount complement gain
  rw [g1] at e1
  cases e1
  obtain ⟨g', t, c1, c2, c3, c4, c5, c6, -⟩ := C89_equiripple residue hres f hf hf1 order count (by omega) hcount complement gain hg
  rw [g1] at c1
  cases c1
  obtain ⟨h, G, -, hG, -, hatt, hle, hlim⟩ := C178_iir g d2 d3 d4 d5 d6
  apply hatt
  by_contra hcon
  push Not at hcon
  have t1 : 0 < t 1 := by
    rw [← c4]
    exact c5 1 order.toNat (by omega) le_rfl
  have t2 : t 1 < 1 := (c5 0 1 (by norm_num) (by omega)).trans c3
  have high : 1 ≤ chebHigh order.toNat := by
    unfold chebHigh
    split
    · exact le_rfl
    · exact Real.one_le_rpow (by norm_num) (by norm_num)
  have ht := c6 1 (by omega)
  rw [if_neg (show ¬ 1 % 2 = 0 by norm_num)] at ht
  have hge : |gain| ≤ ‖freqResp g.a g.b (if complement then 1 - t 1 else t 1)‖ := by rw [ht]; nlinarith
  have hGe : G = |gain| := le_antisymm hcon (hge.trans (hle _))
  have hb : ‖freqResp g.a g.b (if complement then 1 - t 1 else t 1)‖ = G := le_antisymm (hle _) (by rw [hGe]; exact hge)
  have hp : ∀ θ, -1 < θ → θ < 1 → ‖freqResp g.a g.b (if complement then 1 - θ else θ)‖ ≠ 0 := by
    intro θ a1 a2
    have hr := ripple_pos
    rw [hsh θ a1 a2]
    have : 0 < chebResponse order.toNat (κ * Real.tan (Real.pi * θ / 2)) := by unfold chebResponse; positivity
    have := Real.sqrt_pos.mpr this
    positivity
  have hp1 := hp (1 - t 1) (by linarith) (by linarith)
  cases complement
  · simp only [Bool.false_eq_true, if_false] at e2 e3 hb hp1
    have ha : ‖freqResp g.a g.b 0‖ = G := by rw [e2, Complex.norm_real, Real.norm_eq_abs, hGe]
    have := repeats h G (by rw [hGe]; exact hgp) hG _ hlim 0 (t 1) ha hb 1
    rw [e3, show (1 : ℝ) + (0 - t 1) = 1 - t 1 by ring] at this
    exact hp1 (by rw [this]; simp)
  · simp only [if_true, sub_sub_cancel] at e2 e3 hb hp1
    have ha : ‖freqResp g.a g.b 1‖ = G := by rw [e3, Complex.norm_real, Real.norm_eq_abs, hGe]
    have := repeats h G (by rw [hGe]; exact hgp) hG _ hlim 1 (1 - t 1) ha hb 0
    rw [e2, show (0 : ℝ) + (1 - (1 - t 1)) = t 1 by ring] at this
    exact hp1 (by rw [this]; simp)

/-- The hypotheses hold: order 3 at a fifth of the Nyquist frequency. -/
example (residue : List ℝ → List ℝ → List ℂ × List ℂ) (hres : ResidueSpec residue) :=
  C178_chebyshev residue hres 0.2 (by norm_num) (by norm_num) 3 1 (by norm_num) (by norm_num) true (-2) (by norm_num)

end Verif.Props
