import Verif.Props.ComplexTransform
import Mathlib.Analysis.SpecialFunctions.Trigonometric.Basic
import Mathlib.Tactic.LinearCombination

/- Property C84: symmetrical components by ComplexTransform (diamondback/transforms/complex_transform.py). -/

namespace Verif.Props

open Complex Verif

/-- A third of a turn. -/
noncomputable def third : ℂ := ⟨-(1 / 2), Real.sqrt 3 / 2⟩

/-- It is the cube root of unity `exp(2πi / 3)`. -/
theorem third_exp : third = cexp (2 * Real.pi * I / 3) ∧ third ^ 3 = 1 ∧ 1 + third + third ^ 2 = 0 := by
  have h3 : Real.sqrt 3 * Real.sqrt 3 = 3 := Real.mul_self_sqrt (by norm_num)
  have hsum : 1 + third + third ^ 2 = 0 := by
    apply Complex.ext
    · simp [third, pow_two]; nlinarith
    · simp [third, pow_two]; ring
  refine ⟨?_, ?_, hsum⟩
  · have hc : Real.cos (2 * Real.pi / 3) = -(1 / 2) := by
      rw [show 2 * Real.pi / 3 = Real.pi - Real.pi / 3 by ring, Real.cos_pi_sub, Real.cos_pi_div_three]
    have hs : Real.sin (2 * Real.pi / 3) = Real.sqrt 3 / 2 := by
      rw [show 2 * Real.pi / 3 = Real.pi - Real.pi / 3 by ring, Real.sin_pi_sub, Real.sin_pi_div_three]
    rw [show (2 * Real.pi * I / 3 : ℂ) = ((2 * Real.pi / 3 : ℝ) : ℂ) * I by push_cast; ring, Complex.exp_mul_I]
    apply Complex.ext
    · simp only [third, add_re, mul_re, I_re, I_im, ← Complex.ofReal_cos, ← Complex.ofReal_sin, ofReal_re, ofReal_im, hc, hs]; ring
    · simp only [third, add_im, mul_im, I_re, I_im, ← Complex.ofReal_cos, ← Complex.ofReal_sin, ofReal_re, ofReal_im, hc, hs]; ring
  · linear_combination (third - 1) * hsum

/-- The output for one sample, in terms of the cube root of unity. -/
theorem toComplex_third (p : Fin 3 → ℝ) : ct.toComplex true p = 2 / 3 * (p 0 + third * p 1 + third ^ 2 * p 2) := by
  have h3 : Real.sqrt 3 * Real.sqrt 3 = 3 := Real.mul_self_sqrt (by norm_num)
  have h2 : third ^ 2 = ⟨-(1 / 2), -(Real.sqrt 3 / 2)⟩ := by
    apply Complex.ext
    · simp [third, pow_two]; nlinarith
    · simp [third, pow_two]; ring
  rw [ct.toComplex_spec, h2]
  have h23 : (2 / 3 : ℂ) = ((2 / 3 : ℝ) : ℂ) := by push_cast; rfl
  rw [h23]
  apply Complex.ext <;> simp [third] <;> ring

/-- C84.  Three phases `Re(a k exp(iθ))` give the positive sequence turning forward and the conjugate of the negative sequence turning backward; the zero sequence has no effect. -/
theorem C84_sequences (x : List ((Fin 3 → ℂ) × ℝ)) (hx : x ≠ []) :
    ct.transform (.three (x.map fun s k => (s.1 k * cexp (s.2 * I)).re)) true = .ok (.vector (x.map fun s =>
      (s.1 0 + third * s.1 1 + third ^ 2 * s.1 2) / 3 * cexp (s.2 * I) + (starRingEnd ℂ) ((s.1 0 + third ^ 2 * s.1 1 + third * s.1 2) / 3 * cexp (s.2 * I)))) := by
  have hl : ¬ (x.map fun s : (Fin 3 → ℂ) × ℝ => fun k => (s.1 k * cexp (s.2 * I)).re).length = 0 := by simpa using hx
  simp only [ct.transform, if_neg hl, List.map_map]
  congr 2
  apply List.map_congr_left
  rintro ⟨a, θ⟩ _
  have hre : ∀ z : ℂ, (z.re : ℂ) = (z + (starRingEnd ℂ) z) / 2 := fun z => Complex.re_eq_add_conj z
  obtain ⟨-, hc, -⟩ := third_exp
  have hconj : (starRingEnd ℂ) third = third ^ 2 := by
    have h3 : Real.sqrt 3 * Real.sqrt 3 = 3 := Real.mul_self_sqrt (by norm_num)
    apply Complex.ext
    · simp [third, pow_two]; nlinarith
    · simp [third, pow_two]; ring
  simp only [Function.comp_apply, toComplex_third, hre, map_add, map_mul, map_div₀, map_pow, hconj, map_ofNat]
  generalize (starRingEnd ℂ) (a 0) = b0
  generalize (starRingEnd ℂ) (a 1) = b1
  generalize (starRingEnd ℂ) (a 2) = b2
  generalize cexp (θ * I) = e
  generalize (starRingEnd ℂ) e = e'
  linear_combination (-(1 : ℂ) / 3 * b1 * e' * third) * hc

/-- An unbalanced sample. -/
example := C84_sequences [(![1, I, 2], 3)] (by simp)

/-- C84.  A balanced system of three phases is turned into a phasor of the same amplitude and angle; with the phases in the opposite order it turns backward. -/
theorem C84_balanced (x : List (ℝ × ℝ)) (hx : x ≠ []) :
    ct.transform (.three (x.map fun s => ![s.1 * Real.cos s.2, s.1 * Real.cos (s.2 - 2 * Real.pi / 3), s.1 * Real.cos (s.2 + 2 * Real.pi / 3)])) true =
      .ok (.vector (x.map fun s => s.1 * cexp (s.2 * I))) ∧
    ct.transform (.three (x.map fun s => ![s.1 * Real.cos s.2, s.1 * Real.cos (s.2 + 2 * Real.pi / 3), s.1 * Real.cos (s.2 - 2 * Real.pi / 3)])) true =
      .ok (.vector (x.map fun s => s.1 * cexp (-(s.2 * I)))) := by
  have h3 : Real.sqrt 3 * Real.sqrt 3 = 3 := Real.mul_self_sqrt (by norm_num)
  have hc : Real.cos (2 * Real.pi / 3) = -(1 / 2) := by
    rw [show 2 * Real.pi / 3 = Real.pi - Real.pi / 3 by ring, Real.cos_pi_sub, Real.cos_pi_div_three]
  have hs : Real.sin (2 * Real.pi / 3) = Real.sqrt 3 / 2 := by
    rw [show 2 * Real.pi / 3 = Real.pi - Real.pi / 3 by ring, Real.sin_pi_sub, Real.sin_pi_div_three]
  have he : ∀ θ : ℝ, cexp (θ * I) = ⟨Real.cos θ, Real.sin θ⟩ := by
    intro θ
    rw [Complex.exp_mul_I]
    apply Complex.ext <;> simp [← Complex.ofReal_cos, ← Complex.ofReal_sin]
  have he' : ∀ θ : ℝ, cexp (-(θ * I)) = ⟨Real.cos θ, -Real.sin θ⟩ := by
    intro θ
    have := he (-θ)
    simpa using this
  constructor
  · have hl : ¬ (x.map fun s : ℝ × ℝ => ![s.1 * Real.cos s.2, s.1 * Real.cos (s.2 - 2 * Real.pi / 3), s.1 * Real.cos (s.2 + 2 * Real.pi / 3)]).length = 0 := by simpa using hx
    simp only [ct.transform, if_neg hl, List.map_map]
    congr 2
    apply List.map_congr_left
    rintro ⟨A, θ⟩ _
    simp only [Function.comp_apply, ct.toComplex_spec, he, if_true, mul_one, Matrix.cons_val, Real.cos_sub, Real.cos_add, hc, hs]
    generalize Real.cos θ = u
    generalize Real.sin θ = v
    apply Complex.ext
    · simp; ring
    · simp; linear_combination (A * v / 3) * h3
  · have hl : ¬ (x.map fun s : ℝ × ℝ => ![s.1 * Real.cos s.2, s.1 * Real.cos (s.2 + 2 * Real.pi / 3), s.1 * Real.cos (s.2 - 2 * Real.pi / 3)]).length = 0 := by simpa using hx
    simp only [ct.transform, if_neg hl, List.map_map]
    congr 2
    apply List.map_congr_left
    rintro ⟨A, θ⟩ _
    simp only [Function.comp_apply, ct.toComplex_spec, he', if_true, mul_one, Matrix.cons_val, Real.cos_sub, Real.cos_add, hc, hs]
    generalize Real.cos θ = u
    generalize Real.sin θ = v
    apply Complex.ext
    · simp; ring
    · simp; linear_combination (-A * v / 3) * h3

/-- C84.  A part common to the three phases has no effect, for both settings. -/
theorem C84_common (x : List ((Fin 3 → ℝ) × ℝ)) (neutral : Bool) :
    ct.transform (.three (x.map fun s k => s.1 k + s.2)) neutral = ct.transform (.three (x.map Prod.fst)) neutral := by
  simp only [ct.transform, List.length_map, List.map_map]
  split
  · rfl
  · congr 2
    apply List.map_congr_left
    rintro ⟨p, c⟩ _
    simp only [Function.comp_apply, ct.toComplex_spec]
    congr 4 <;> ring_nf

example := C84_common [(![1, 2, 3], 5), (![0, 1, -1], 2)] true

/-- C84.  Energy: the squared magnitude is two thirds of the sum of the squared deviations of the phases from their mean; without the neutral setting, a third of that (the gain has
magnitude `1 / √3`). -/
theorem C84_energy (p : Fin 3 → ℝ) (neutral : Bool) : ∃ y, ct.transform (.three [p]) neutral = .ok (.vector [y]) ∧
    Complex.normSq y = (if neutral then 1 else 1 / 3) * (2 / 3 * ((p 0 - (p 0 + p 1 + p 2) / 3) ^ 2 + (p 1 - (p 0 + p 1 + p 2) / 3) ^ 2 + (p 2 - (p 0 + p 1 + p 2) / 3) ^ 2)) := by
  have h3 : Real.sqrt 3 * Real.sqrt 3 = 3 := Real.mul_self_sqrt (by norm_num)
  refine ⟨ct.toComplex neutral p, by simp [ct.transform], ?_⟩
  have hg : Complex.normSq (if neutral then 1 else ct.gain) = if neutral then 1 else 1 / 3 := by
    cases neutral
    · simp only [Bool.false_eq_true, if_false, ct.gain, map_mul, Complex.normSq_ofReal]
      rw [Complex.normSq_eq_norm_sq (cexp _), show (-(I * Real.pi / 6) : ℂ) = ((-(Real.pi / 6) : ℝ) : ℂ) * I by push_cast; ring, Complex.norm_exp_ofReal_mul_I]
      rw [Real.mul_self_sqrt (by norm_num)]; norm_num
    · simp
  rw [ct.toComplex_spec, map_mul, hg, mul_comm]
  congr 1
  rw [Complex.normSq_apply]
  simp
  linear_combination ((p 1 - p 2) ^ 2 / 9) * h3

example := C84_energy ![1, 2, 3] false

/-- C84.  The phases taken in the opposite rotation give the conjugate; a cyclic change turns the result by a third of a turn. -/
theorem C84_order (x : List (Fin 3 → ℝ)) (hx : x ≠ []) : ∃ y, ct.transform (.three x) true = .ok (.vector y) ∧
    ct.transform (.three (x.map fun p => ![p 0, p 2, p 1])) true = .ok (.vector (y.map (starRingEnd ℂ))) ∧
    ct.transform (.three (x.map fun p => ![p 2, p 0, p 1])) true = .ok (.vector (y.map (third * ·))) := by
  have hl : ¬ x.length = 0 := by simpa using hx
  obtain ⟨-, hc, -⟩ := third_exp
  refine ⟨x.map (ct.toComplex true), by simp [ct.transform, hx], ?_, ?_⟩
  · simp only [ct.transform, List.length_map, hl, if_false, List.map_map]
    congr 2
    apply List.map_congr_left
    intro p _
    simp only [Function.comp_apply, ct.toComplex_spec, if_true, mul_one, Matrix.cons_val, map_add, map_mul, Complex.conj_ofReal, Complex.conj_I]
    push_cast
    ring
  · simp only [ct.transform, List.length_map, hl, if_false, List.map_map]
    congr 2
    apply List.map_congr_left
    intro p _
    simp only [Function.comp_apply, toComplex_third, Matrix.cons_val]
    linear_combination (-(2 : ℂ) / 3 * p 2) * hc

/-- Two samples. -/
example := C84_order [![230, -115, -115], ![1, 2, 3]] (by simp)

/-- C84.  The transform is linear over the reals in both directions, for both settings. -/
theorem C84_linear (c d : ℝ) (x : List ((Fin 3 → ℝ) × (Fin 3 → ℝ))) (z : List (ℂ × ℂ)) (neutral : Bool) (hx : x ≠ []) (hz : z ≠ []) :
    (∃ y y', ct.transform (.three (x.map Prod.fst)) neutral = .ok (.vector y) ∧ ct.transform (.three (x.map Prod.snd)) neutral = .ok (.vector y') ∧
      ct.transform (.three (x.map fun s k => c * s.1 k + d * s.2 k)) neutral = .ok (.vector (List.zipWith (fun u v => c * u + d * v) y y'))) ∧
    ∃ y y', ct.transform (.vector (z.map Prod.fst)) neutral = .ok (.three y) ∧ ct.transform (.vector (z.map Prod.snd)) neutral = .ok (.three y') ∧
      ct.transform (.vector (z.map fun s => c * s.1 + d * s.2)) neutral = .ok (.three (List.zipWith (fun u v k => c * u k + d * v k) y y')) := by
  constructor
  · refine ⟨x.map (fun s => ct.toComplex neutral s.1), x.map (fun s => ct.toComplex neutral s.2), by simp [ct.transform, hx], by simp [ct.transform, hx], ?_⟩
    simp only [ct.transform, List.length_map, List.length_eq_zero_iff, hx, if_false, List.map_map, List.zipWith_map, List.zipWith_self]
    congr 2
    apply List.map_congr_left
    intro s _
    simp only [Function.comp_apply, ct.toComplex_spec]
    push_cast
    ring
  · refine ⟨z.map (fun s => ct.toThree neutral s.1), z.map (fun s => ct.toThree neutral s.2), by simp [ct.transform, hz], by simp [ct.transform, hz], ?_⟩
    simp only [ct.transform, List.length_map, List.length_eq_zero_iff, hz, if_false, List.map_map, List.zipWith_map, List.zipWith_self]
    congr 2
    apply List.map_congr_left
    intro s _
    have hv : (if neutral = true then (c * s.1 + d * s.2 : ℂ) else (c * s.1 + d * s.2) / ct.gain) =
        c * (if neutral = true then s.1 else s.1 / ct.gain) + d * (if neutral = true then s.2 else s.2 / ct.gain) := by
      split_ifs <;> ring
    simp only [Function.comp_apply, ct.toThree_spec, hv]
    generalize (if neutral = true then s.1 else s.1 / ct.gain) = u
    generalize (if neutral = true then s.2 else s.2 / ct.gain) = v
    funext k
    fin_cases k <;> simp <;> ring

/-- The hypotheses are met: one sample of a balanced system, at its crest, is `A, -A/2, -A/2`. -/
example : ct.transform (.three [![2, 2 * Real.cos (0 - 2 * Real.pi / 3), 2 * Real.cos (0 + 2 * Real.pi / 3)]]) true = .ok (.vector [2]) := by
  have := (C84_balanced [(2, 0)] (by simp)).1
  simpa using this

end Verif.Props
