/-
C88, filters in cascade: `count` Butterworth filters of the same design one after another, the use for which IirFilter documents its parameter `count`.
-/
import Verif.Props.Butterworth

namespace Verif.Props
open Verif Spec

/-- tan(π x / 8) is below its chord on [0, 1]. -/
theorem tan_le_chord (x : ℝ) (h0 : 0 ≤ x) (h1 : x ≤ 1) : Real.tan (Real.pi / 8 * x) ≤ x * Real.tan (Real.pi / 8) := by
  have hpi := Real.pi_pos
  have hcos : ∀ y ∈ Set.Icc 0 (Real.pi / 4), 0 < Real.cos y := fun y hy => Real.cos_pos_of_mem_Ioo ⟨by linarith [hy.1], by linarith [hy.2]⟩
  have hc : ConvexOn ℝ (Set.Icc 0 (Real.pi / 4)) Real.tan := by
    apply MonotoneOn.convexOn_of_deriv (convex_Icc _ _)
    · intro y hy
      exact (Real.differentiableAt_tan.mpr (hcos y hy).ne').continuousAt.continuousWithinAt
    · intro y hy
      exact (Real.differentiableAt_tan.mpr (hcos y (interior_subset hy)).ne').differentiableWithinAt
    · intro y hy z hz hyz
      rw [Real.deriv_tan, Real.deriv_tan]
      have c1 := hcos z (interior_subset hz)
      apply one_div_le_one_div_of_le (by positivity)
      apply pow_le_pow_left₀ c1.le
      have := interior_subset hz
      exact Real.cos_le_cos_of_nonneg_of_le_pi (interior_subset hy).1 (by linarith [this.2]) hyz
  have := hc.2 (show (0 : ℝ) ∈ Set.Icc 0 (Real.pi / 4) from ⟨le_rfl, by positivity⟩) (show Real.pi / 8 ∈ Set.Icc 0 (Real.pi / 4) from ⟨by positivity, by linarith⟩)
    (show 0 ≤ 1 - x by linarith) h0 (by ring)
  simp only [smul_eq_mul, mul_zero, zero_add, Real.tan_zero] at this
  rwa [mul_comm x (Real.pi / 8)] at this

theorem tan_eighth : Real.tan (Real.pi / 8) ≤ 0.41422 := by
  have hpi := Real.pi_pos
  have ht : 0 < Real.tan (Real.pi / 8) := Real.tan_pos_of_pos_of_lt_pi_div_two (by positivity) (by linarith)
  have h2 : Real.tan (2 * (Real.pi / 8)) = 2 * Real.tan (Real.pi / 8) / (1 - Real.tan (Real.pi / 8) ^ 2) := Real.tan_two_mul
  rw [show 2 * (Real.pi / 8) = Real.pi / 4 by ring, Real.tan_pi_div_four] at h2
  have hne : 1 - Real.tan (Real.pi / 8) ^ 2 ≠ 0 := by
    intro h; rw [h] at h2; simp at h2
  field_simp at h2
  nlinarith

theorem cascade_numeric (N : ℕ) (ρ n σ P p K g B : ℝ) (hρ : 0 < ρ) (hn : 0 ≤ n) (hρn : ρ * n ≤ 1) (hσ : 1 ≤ σ) (hP0 : 0 < P) (hP : P ≤ p) (hp : p ≤ g) (hg : g ≤ 0.70711)
    (hK1 : 1 ≤ K) (hK2 : K ≤ 1.0549) (hB : (0.70711 - P) * (1 - ρ * n * P / (2 * σ * 1.0549)) ^ N ≤ B) : (g - p) * (1 - ρ * n * p / (2 * σ * K)) ^ N ≤ B := by
  have hp0 : 0 < p := lt_of_lt_of_le hP0 hP
  have hle : ρ * n * P / (2 * σ * 1.0549) ≤ ρ * n * p / (2 * σ * K) := by
    apply div_le_div₀ (by positivity)
    · exact mul_le_mul_of_nonneg_left hP (by positivity)
    · positivity
    · exact mul_le_mul_of_nonneg_left hK2 (by positivity)
  have hnn : 0 ≤ 1 - ρ * n * p / (2 * σ * K) := by
    have : ρ * n * p / (2 * σ * K) ≤ 1 := by
      rw [div_le_one (by positivity)]
      have h1 : ρ * n * p ≤ 1 * 1 := mul_le_mul hρn (by linarith) hp0.le (by norm_num)
      have h2 : 1 * 1 ≤ σ * K := mul_le_mul hσ hK1 (by norm_num) (by linarith)
      linarith
    linarith
  refine le_trans ?_ hB
  exact mul_le_mul (by linarith) (pow_le_pow_left₀ hnn (by linarith) N) (pow_nonneg hnn _) (by linarith)

/-- C88.  Filters in cascade, for design frequencies up to one quarter of Nyquist: two filters of order up to 8, three of order 2 to 8, or four of order
3 to 6 have together the response 2^{-1/2} (-3 dB) at the design frequency within 0.031. -/
theorem C88_cascade (residue : List ℝ → List ℝ → List ℂ × List ℂ) (hres : ResidueSpec residue) (f : ℝ) (complement : Bool) (order count : ℤ)
    (hf : 0 < (if complement then 1 - f else f)) (hf1 : (if complement then 1 - f else f) ≤ 1 / 4)
    (hoc : (count = 2 ∧ 1 ≤ order ∧ order ≤ 8) ∨ (count = 3 ∧ 2 ≤ order ∧ order ≤ 8) ∨ (count = 4 ∧ 3 ≤ order ∧ order ≤ 6)) :
    ∃ g, Iir.newDesign residue (some .butterworth) f order count complement 1 none = .ok g ∧ |‖freqResp g.a g.b f‖ ^ count.toNat - 1 / Real.sqrt 2| ≤ 0.031 := by
  have hpi := Real.pi_pos
  have hpi2 := Real.pi_gt_d6
  have hf2 : 0 < f ∧ f < 1 := by cases complement <;> simp at hf hf1 ⊢ <;> constructor <;> linarith
  set f' := if complement then 1 - f else f with hf'
  set K := 2 / (Real.pi * f') * Real.tan (Real.pi * f' / 2) with hK
  have hK1 : 1 ≤ K := by
    have := (Real.lt_tan (x := Real.pi * f' / 2) (by positivity) (by nlinarith)).le
    rw [hK, div_mul_eq_mul_div, le_div_iff₀ (by positivity)]
    linarith
  have hK2 : K ≤ 1.0549 := by
    have h3 := tan_le_chord (4 * f') (by linarith) (by linarith)
    rw [show Real.pi / 8 * (4 * f') = Real.pi * f' / 2 by ring] at h3
    have h4 : 4 * f' * Real.tan (Real.pi / 8) ≤ 4 * f' * 0.41422 := mul_le_mul_of_nonneg_left tan_eighth (by linarith)
    rw [hK, div_mul_eq_mul_div, div_le_iff₀ (by positivity)]
    nlinarith
  have hsq2 : Real.sqrt 2 ≥ 1.41421 := Real.le_sqrt_of_sq_le (by norm_num)
  have hg0 : 1 / Real.sqrt 2 ≤ 0.70711 := by
    rw [div_le_iff₀ (by positivity)]; linarith
  have key : ∀ (n c N : ℕ) (ρ σ q : ℝ), 499 = N → order = n → count = c → 0 < n → n ≤ 8 → 2 ≤ c → ρ = (if n > 6 then 0.015 else 0.03) → 1 ≤ σ →
      (1 + 1 / σ ^ (2 * n)) ^ c ≤ 2 → 0 < q → q ^ 2 * (1 + 1.0549 ^ (2 * n)) ≤ 1 →
      (0.70711 - q ^ c) * (1 - ρ * n * q ^ c / (2 * σ * 1.0549)) ^ N ≤ 0.031 →
      ∃ g, Iir.newDesign residue (some .butterworth) f order count complement 1 none = .ok g ∧ |‖freqResp g.a g.b f‖ ^ count.toNat - 1 / Real.sqrt 2| ≤ 0.031 := by
    intro n c N ρ σ q hN hn hc hn0 hn8 hc2 hρ hσ hσc hq hq2 hB
    have hon : order.toNat = n := by omega
    have hcn : count.toNat = c := by omega
    obtain ⟨g, γ, h1, h2, h3, h4, h5⟩ := C88_cutoff residue hres f hf2.1 hf2.2 order count (by omega) (by omega) (by omega) complement 1 f' ρ K _ σ hf'
      (by rw [hρ]; exact if_congr (by omega) rfl rfl) hK rfl hσ (by rw [hon, hcn]; exact hσc)
    refine ⟨g, h1, ?_⟩
    rw [h2, abs_one, one_mul]
    rw [abs_of_nonpos (by linarith)]
    rw [hN, hon, hcn] at h5
    rw [hcn]
    set w := 1 / Real.sqrt (1 + K ^ (2 * n)) with hw
    have hqw : q ≤ w := by
      have hw0 : 0 < Real.sqrt (1 + K ^ (2 * n)) := Real.sqrt_pos.mpr (by positivity)
      rw [hw, le_div_iff₀ hw0]
      have : q ^ 2 * (1 + K ^ (2 * n)) ≤ 1 := by
        refine le_trans (mul_le_mul_of_nonneg_left ?_ (by positivity)) hq2
        have := pow_le_pow_left₀ (by linarith) hK2 (2 * n)
        linarith
      have h6 : (q * Real.sqrt (1 + K ^ (2 * n))) ^ 2 ≤ 1 ^ 2 := by
        rw [mul_pow, Real.sq_sqrt (by positivity), one_pow]; exact this
      exact (pow_le_pow_iff_left₀ (by positivity) (by norm_num) two_ne_zero).mp h6
    have hw1 : w ≤ 1 / Real.sqrt 2 := by
      apply one_div_le_one_div_of_le (by positivity)
      apply Real.sqrt_le_sqrt
      have := one_le_pow₀ hK1 (n := 2 * n)
      linarith
    have hwc : w ^ c ≤ 1 / Real.sqrt 2 := by
      refine le_trans (pow_le_of_le_one (by positivity) (by linarith) (by omega)) hw1
    have hor : (order : ℝ) = n := by rw [hn]; simp
    rw [hor] at h5
    have hn8' : (n : ℝ) ≤ 8 := by exact_mod_cast hn8
    have hρ0 : 0 < ρ := by rw [hρ]; split <;> norm_num
    have hρ1 : ρ ≤ 0.03 := by rw [hρ]; split <;> norm_num
    have hfin : max (10e3 / 2 ^ 52) ((1 / Real.sqrt 2 - w ^ c) * (1 - ρ * n * w ^ c / (2 * σ * K)) ^ N) ≤ (0.031 : ℝ) :=
      max_le (by norm_num) (cascade_numeric N ρ n σ (q ^ c) (w ^ c) K _ _ hρ0 (by positivity) (by nlinarith) hσ (by positivity) (pow_le_pow_left₀ hq.le hqw c) hwc hg0 hK1 hK2 hB)
    linarith
  have hcases : (count = 2 ∧ (order = 1 ∨ order = 2 ∨ order = 3 ∨ order = 4 ∨ order = 5 ∨ order = 6 ∨ order = 7 ∨ order = 8)) ∨
    (count = 3 ∧ (order = 2 ∨ order = 3 ∨ order = 4 ∨ order = 5 ∨ order = 6 ∨ order = 7 ∨ order = 8)) ∨
    (count = 4 ∧ (order = 3 ∨ order = 4 ∨ order = 5 ∨ order = 6)) := by omega
  rcases hcases with ⟨hc, h | h | h | h | h | h | h | h⟩ | ⟨hc, h | h | h | h | h | h | h⟩ | ⟨hc, h | h | h | h⟩
  · exact key 1 2 _ 0.03 1.554 0.687 rfl h hc (by norm_num) (by norm_num) (by norm_num) (by norm_num) (by norm_num) (by norm_num) (by norm_num) (by norm_num)
      (by rw [show 499 = 249 + 250 from rfl, pow_add]; norm_num)
  · exact key 2 2 _ 0.03 1.247 0.668 rfl h hc (by norm_num) (by norm_num) (by norm_num) (by norm_num) (by norm_num) (by norm_num) (by norm_num) (by norm_num)
      (by rw [show 499 = 249 + 250 from rfl, pow_add]; norm_num)
  · exact key 3 2 _ 0.03 1.159 0.648 rfl h hc (by norm_num) (by norm_num) (by norm_num) (by norm_num) (by norm_num) (by norm_num) (by norm_num) (by norm_num)
      (by rw [show 499 = 249 + 250 from rfl, pow_add]; norm_num)
  · exact key 4 2 _ 0.03 1.117 0.628 rfl h hc (by norm_num) (by norm_num) (by norm_num) (by norm_num) (by norm_num) (by norm_num) (by norm_num) (by norm_num)
      (by rw [show 499 = 249 + 250 from rfl, pow_add]; norm_num)
  · exact key 5 2 _ 0.03 1.093 0.607 rfl h hc (by norm_num) (by norm_num) (by norm_num) (by norm_num) (by norm_num) (by norm_num) (by norm_num) (by norm_num)
      (by rw [show 499 = 249 + 250 from rfl, pow_add]; norm_num)
  · exact key 6 2 _ 0.03 1.077 0.587 rfl h hc (by norm_num) (by norm_num) (by norm_num) (by norm_num) (by norm_num) (by norm_num) (by norm_num) (by norm_num)
      (by rw [show 499 = 249 + 250 from rfl, pow_add]; norm_num)
  · exact key 7 2 _ 0.015 1.066 0.566 rfl h hc (by norm_num) (by norm_num) (by norm_num) (by norm_num) (by norm_num) (by norm_num) (by norm_num) (by norm_num)
      (by rw [show 499 = 249 + 250 from rfl, pow_add]; norm_num)
  · exact key 8 2 _ 0.015 1.057 0.546 rfl h hc (by norm_num) (by norm_num) (by norm_num) (by norm_num) (by norm_num) (by norm_num) (by norm_num) (by norm_num)
      (by rw [show 499 = 249 + 250 from rfl, pow_add]; norm_num)
  · exact key 2 3 _ 0.03 1.401 0.668 rfl h hc (by norm_num) (by norm_num) (by norm_num) (by norm_num) (by norm_num) (by norm_num) (by norm_num) (by norm_num)
      (by rw [show 499 = 249 + 250 from rfl, pow_add]; norm_num)
  · exact key 3 3 _ 0.03 1.252 0.648 rfl h hc (by norm_num) (by norm_num) (by norm_num) (by norm_num) (by norm_num) (by norm_num) (by norm_num) (by norm_num)
      (by rw [show 499 = 249 + 250 from rfl, pow_add]; norm_num)
  · exact key 4 3 _ 0.03 1.184 0.628 rfl h hc (by norm_num) (by norm_num) (by norm_num) (by norm_num) (by norm_num) (by norm_num) (by norm_num) (by norm_num)
      (by rw [show 499 = 249 + 250 from rfl, pow_add]; norm_num)
  · exact key 5 3 _ 0.03 1.145 0.607 rfl h hc (by norm_num) (by norm_num) (by norm_num) (by norm_num) (by norm_num) (by norm_num) (by norm_num) (by norm_num)
      (by rw [show 499 = 249 + 250 from rfl, pow_add]; norm_num)
  · exact key 6 3 _ 0.03 1.12 0.587 rfl h hc (by norm_num) (by norm_num) (by norm_num) (by norm_num) (by norm_num) (by norm_num) (by norm_num) (by norm_num)
      (by rw [show 499 = 249 + 250 from rfl, pow_add]; norm_num)
  · exact key 7 3 _ 0.015 1.102 0.566 rfl h hc (by norm_num) (by norm_num) (by norm_num) (by norm_num) (by norm_num) (by norm_num) (by norm_num) (by norm_num)
      (by rw [show 499 = 249 + 250 from rfl, pow_add]; norm_num)
  · exact key 8 3 _ 0.015 1.089 0.546 rfl h hc (by norm_num) (by norm_num) (by norm_num) (by norm_num) (by norm_num) (by norm_num) (by norm_num) (by norm_num)
      (by rw [show 499 = 249 + 250 from rfl, pow_add]; norm_num)
  · exact key 3 4 _ 0.03 1.321 0.648 rfl h hc (by norm_num) (by norm_num) (by norm_num) (by norm_num) (by norm_num) (by norm_num) (by norm_num) (by norm_num)
      (by rw [show 499 = 249 + 250 from rfl, pow_add]; norm_num)
  · exact key 4 4 _ 0.03 1.232 0.628 rfl h hc (by norm_num) (by norm_num) (by norm_num) (by norm_num) (by norm_num) (by norm_num) (by norm_num) (by norm_num)
      (by rw [show 499 = 249 + 250 from rfl, pow_add]; norm_num)
  · exact key 5 4 _ 0.03 1.182 0.607 rfl h hc (by norm_num) (by norm_num) (by norm_num) (by norm_num) (by norm_num) (by norm_num) (by norm_num) (by norm_num)
      (by rw [show 499 = 249 + 250 from rfl, pow_add]; norm_num)
  · exact key 6 4 _ 0.03 1.15 0.587 rfl h hc (by norm_num) (by norm_num) (by norm_num) (by norm_num) (by norm_num) (by norm_num) (by norm_num) (by norm_num)
      (by rw [show 499 = 249 + 250 from rfl, pow_add]; norm_num)

/-- Two filters of order 4 for a tenth of Nyquist, and their mirror image. -/
example : (0 : ℝ) < (if true then 1 - 0.9 else 0.9) ∧ (if true then 1 - 0.9 else 0.9) ≤ (1 / 4 : ℝ) ∧
    (((2 : ℤ) = 2 ∧ (1 : ℤ) ≤ 4 ∧ (4 : ℤ) ≤ 8) ∨ ((2 : ℤ) = 3 ∧ (2 : ℤ) ≤ 4 ∧ (4 : ℤ) ≤ 8) ∨ ((2 : ℤ) = 4 ∧ (3 : ℤ) ≤ 4 ∧ (4 : ℤ) ≤ 6)) := by norm_num

end Verif.Props
