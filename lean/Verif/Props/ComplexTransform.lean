import Verif.Model.ComplexTransform
import Mathlib.Tactic.FinCases
import Mathlib.Tactic.NormNum
import Mathlib.Tactic.LinearCombination
import Mathlib.Analysis.SpecialFunctions.Trigonometric.Basic

/-
Properties C45, C46 of ComplexTransform (diamondback/transforms/complex_transform.py).
-/

namespace Verif.Props

open Complex

theorem ct.inverse : ct.coefficient⁻¹ = !![1, 0, 1/2; -(1/2), (1/2) * Real.sqrt 3, 1/2; -(1/2), -(1/2) * Real.sqrt 3, 1/2] := by
  have h3 : Real.sqrt 3 * Real.sqrt 3 = 3 := Real.mul_self_sqrt (by norm_num)
  apply Matrix.inv_eq_right_inv
  ext i j
  fin_cases i <;> fin_cases j <;>
    simp [ct.coefficient, Matrix.mul_apply, Fin.sum_univ_three] <;> first | done | (ring_nf; done) | nlinarith

theorem ct.gain_ne : ct.gain ≠ 0 := by
  unfold ct.gain
  apply mul_ne_zero
  · have : Real.sqrt (1/3) ≠ 0 := by
      apply (Real.sqrt_pos.mpr (by norm_num)).ne'
    exact_mod_cast this
  · exact Complex.exp_ne_zero _

theorem ct.toThree_spec (neutral : Bool) (x : ℂ) : ct.toThree neutral x =
    let v := if neutral then x else x / ct.gain
    ![v.re, -(1/2) * v.re + (1/2) * Real.sqrt 3 * v.im, -(1/2) * v.re - (1/2) * Real.sqrt 3 * v.im] := by
  unfold ct.toThree
  rw [ct.inverse]
  ext i
  fin_cases i <;> simp <;> ring

theorem ct.toComplex_spec (neutral : Bool) (x : Fin 3 → ℝ) : ct.toComplex neutral x =
    (((2 / 3 * (x 0 - x 1 / 2 - x 2 / 2) : ℝ) : ℂ) + I * ((2 / 3 * (Real.sqrt 3 / 2 * (x 1 - x 2)) : ℝ) : ℂ)) *
      (if neutral then 1 else ct.gain) := by
  unfold ct.toComplex
  have h0 : ct.coefficient.mulVec x 0 = 2 / 3 * (x 0 - x 1 / 2 - x 2 / 2) := by
    simp [ct.coefficient, Matrix.mulVec, dotProduct, Fin.sum_univ_three]; ring
  have h1 : ct.coefficient.mulVec x 1 = 2 / 3 * (Real.sqrt 3 / 2 * (x 1 - x 2)) := by
    simp [ct.coefficient, Matrix.mulVec, dotProduct, Fin.sum_univ_three]; ring
  simp only [h0, h1]
  cases neutral <;> simp

theorem ct.sample_roundtrip (neutral : Bool) (x : ℂ) : ct.toComplex neutral (ct.toThree neutral x) = x := by
  rw [ct.toComplex_spec, ct.toThree_spec]
  have h3 : Real.sqrt 3 * Real.sqrt 3 = 3 := Real.mul_self_sqrt (by norm_num)
  have key : ∀ v : ℂ, (((2 / 3 * (v.re - (-(1/2) * v.re + (1/2) * Real.sqrt 3 * v.im) / 2
      - (-(1/2) * v.re - (1/2) * Real.sqrt 3 * v.im) / 2) : ℝ) : ℂ) +
      I * ((2 / 3 * (Real.sqrt 3 / 2 * ((-(1/2) * v.re + (1/2) * Real.sqrt 3 * v.im) - (-(1/2) * v.re - (1/2) * Real.sqrt 3 * v.im))) : ℝ) : ℂ))
      = v := by
    intro v
    rw [show (2 / 3 * (v.re - (-(1/2) * v.re + (1/2) * Real.sqrt 3 * v.im) / 2
      - (-(1/2) * v.re - (1/2) * Real.sqrt 3 * v.im) / 2) : ℝ) = v.re by ring,
      show (2 / 3 * (Real.sqrt 3 / 2 * ((-(1/2) * v.re + (1/2) * Real.sqrt 3 * v.im) - (-(1/2) * v.re - (1/2) * Real.sqrt 3 * v.im))) : ℝ)
        = v.im by linear_combination (v.im / 3) * h3, mul_comm I]
    exact Complex.re_add_im v
  simp only [Matrix.cons_val]
  rw [key]
  cases neutral
  · simp [ct.gain_ne]
  · simp

/-- C45.  Complex → three-phase → complex is the identity, for both neutral settings, every nonempty signal. -/
theorem C45_complex_roundtrip (x : List ℂ) (hx : x ≠ []) (neutral : Bool) :
    ∃ y, ct.transform (.vector x) neutral = .ok (.three y) ∧ y.length = x.length ∧
      ct.transform (.three y) neutral = .ok (.vector x) := by
  have hl : ¬ x.length = 0 := by simpa using hx
  refine ⟨x.map (ct.toThree neutral), by simp [ct.transform, hx], by simp, ?_⟩
  simp only [ct.transform, List.length_map, hl, if_false, List.map_map]
  congr 2
  conv_rhs => rw [← List.map_id x]
  apply List.map_congr_left
  intro v _
  exact ct.sample_roundtrip neutral v

example := C45_complex_roundtrip [1, I, 2 - I] (by simp) true

/-- C45.  Every three-phase result sums to zero in every sample. -/
theorem C45_three_sums_to_zero (x : List ℂ) (neutral : Bool) (y : List (Fin 3 → ℝ))
    (h : ct.transform (.vector x) neutral = .ok (.three y)) : ∀ p ∈ y, p 0 + p 1 + p 2 = 0 := by
  unfold ct.transform at h
  simp only at h
  split at h
  · cases h
  · cases h
    intro p hp
    obtain ⟨v, _, rfl⟩ := List.mem_map.mp hp
    rw [ct.toThree_spec]
    simp only [Matrix.cons_val]
    ring

/-- The hypothesis holds of every vector, by `C45_complex_roundtrip`. -/
example : ∃ y, ct.transform (.vector [1, I, 2 - I]) true = .ok (.three y) := by
  obtain ⟨y, h, -⟩ := C45_complex_roundtrip [1, I, 2 - I] (by simp) true
  exact ⟨y, h⟩

/-- C45.  Three-phase → complex → three-phase subtracts the mean of the three phases (the neutral) in every sample, for both
neutral settings. -/
theorem C45_three_roundtrip (x : List (Fin 3 → ℝ)) (hx : x ≠ []) (neutral : Bool) :
    ∃ y, ct.transform (.three x) neutral = .ok (.vector y) ∧
      ct.transform (.vector y) neutral = .ok (.three (x.map fun p i => p i - (p 0 + p 1 + p 2) / 3)) := by
  have hl : ¬ x.length = 0 := by simpa using hx
  have h3 : Real.sqrt 3 * Real.sqrt 3 = 3 := Real.mul_self_sqrt (by norm_num)
  refine ⟨x.map (ct.toComplex neutral), by simp [ct.transform, hx], ?_⟩
  simp only [ct.transform, List.length_map, hl, if_false, List.map_map]
  congr 2
  apply List.map_congr_left
  intro p _
  simp only [Function.comp_apply]
  rw [ct.toThree_spec, ct.toComplex_spec]
  have hv : (if neutral = true then (((2 / 3 * (p 0 - p 1 / 2 - p 2 / 2) : ℝ) : ℂ) +
      I * ((2 / 3 * (Real.sqrt 3 / 2 * (p 1 - p 2)) : ℝ) : ℂ)) * (if neutral then 1 else ct.gain)
      else (((2 / 3 * (p 0 - p 1 / 2 - p 2 / 2) : ℝ) : ℂ) +
      I * ((2 / 3 * (Real.sqrt 3 / 2 * (p 1 - p 2)) : ℝ) : ℂ)) * (if neutral then 1 else ct.gain) / ct.gain) =
      (((2 / 3 * (p 0 - p 1 / 2 - p 2 / 2) : ℝ) : ℂ) + I * ((2 / 3 * (Real.sqrt 3 / 2 * (p 1 - p 2)) : ℝ) : ℂ)) := by
    cases neutral
    · simp [ct.gain_ne]
    · simp
  simp only [hv]
  have hre : ((((2 / 3 * (p 0 - p 1 / 2 - p 2 / 2) : ℝ) : ℂ) + I * ((2 / 3 * (Real.sqrt 3 / 2 * (p 1 - p 2)) : ℝ) : ℂ))).re
      = 2 / 3 * (p 0 - p 1 / 2 - p 2 / 2) := by
    rw [mul_comm I, Complex.add_re, Complex.re_ofReal_mul, Complex.I_re, Complex.ofReal_re]; ring
  have him : ((((2 / 3 * (p 0 - p 1 / 2 - p 2 / 2) : ℝ) : ℂ) + I * ((2 / 3 * (Real.sqrt 3 / 2 * (p 1 - p 2)) : ℝ) : ℂ))).im
      = 2 / 3 * (Real.sqrt 3 / 2 * (p 1 - p 2)) := by
    rw [mul_comm I, Complex.add_im, Complex.im_ofReal_mul, Complex.I_im, Complex.ofReal_im]; ring
  rw [hre, him]
  ext i
  fin_cases i
  · simp; ring
  · simp
    linear_combination ((p 1 - p 2) / 6) * h3
  · simp
    linear_combination (-(p 1 - p 2) / 6) * h3

example := C45_three_roundtrip [![1, 2, 3], ![4, 5, 7]] (by simp) false

/-- C45.  The three-phase round trip is the identity exactly on signals whose phases sum to zero. -/
theorem C45_three_roundtrip_iff (x : List (Fin 3 → ℝ)) (hx : x ≠ []) (neutral : Bool) :
    (∃ y, ct.transform (.three x) neutral = .ok (.vector y) ∧ ct.transform (.vector y) neutral = .ok (.three x)) ↔
      ∀ p ∈ x, p 0 + p 1 + p 2 = 0 := by
  obtain ⟨y, h1, h2⟩ := C45_three_roundtrip x hx neutral
  constructor
  · rintro ⟨y', _, g2⟩
    exact C45_three_sums_to_zero y' neutral x g2
  · intro h
    refine ⟨y, h1, ?_⟩
    rw [h2]
    congr 2
    conv_rhs => rw [← List.map_id x]
    apply List.map_congr_left
    intro p hp
    ext i
    rw [h p hp]; simp

/-- A case with and a case without sum zero. -/
example : (∃ y, ct.transform (.three [![1, -2, 1]]) true = .ok (.vector y) ∧ ct.transform (.vector y) true = .ok (.three [![1, -2, 1]])) ∧
    ¬ ∃ y, ct.transform (.three [![1, 2, 1]]) true = .ok (.vector y) ∧ ct.transform (.vector y) true = .ok (.three [![1, 2, 1]]) := by
  constructor
  · rw [C45_three_roundtrip_iff _ (by simp)]
    simp; norm_num
  · rw [C45_three_roundtrip_iff _ (by simp)]
    simp; norm_num

/-- C46.  Meaning of `neutral=False`: three line-to-line signals give the same complex signal as the line-to-neutral ones they
are the differences of. -/
theorem C46_line_to_line (x : List (Fin 3 → ℝ)) :
    ct.transform (.three (x.map fun p => ![p 0 - p 1, p 1 - p 2, p 2 - p 0])) false = ct.transform (.three x) true := by
  simp only [ct.transform, List.length_map, List.map_map]
  split
  · rfl
  · congr 2
    apply List.map_congr_left
    intro p _
    simp only [Function.comp_apply, ct.toComplex_spec, Matrix.cons_val, if_true, mul_one, Bool.false_eq_true, if_false]
    have h3 : (Real.sqrt 3 : ℂ) * Real.sqrt 3 = 3 := by
      have : Real.sqrt 3 * Real.sqrt 3 = 3 := Real.mul_self_sqrt (by norm_num)
      exact_mod_cast this
    have hg : ct.gain = 1 / 2 - I * Real.sqrt 3 / 6 := by
      unfold ct.gain
      rw [show -(I * (Real.pi : ℂ) / 6) = ((-(Real.pi / 6) : ℝ) : ℂ) * I by push_cast; ring, Complex.exp_mul_I,
        ← Complex.ofReal_cos, ← Complex.ofReal_sin, Real.cos_neg, Real.sin_neg, Real.cos_pi_div_six, Real.sin_pi_div_six]
      have hs : Real.sqrt (1/3) = Real.sqrt 3 / 3 := by
        rw [Real.sqrt_eq_iff_mul_self_eq (by norm_num) (by positivity)]
        have : Real.sqrt 3 * Real.sqrt 3 = 3 := Real.mul_self_sqrt (by norm_num)
        nlinarith
      rw [hs]
      push_cast
      linear_combination (1 / 6 : ℂ) * h3
    rw [hg]
    push_cast
    have hI := Complex.I_mul_I
    linear_combination (((p 0 : ℂ) + p 1 - 2 * p 2) / 18) * h3 -
      (((p 0 : ℂ) + p 1 - 2 * p 2) / 18 * ((Real.sqrt 3 : ℂ) * Real.sqrt 3)) * hI

example := C46_line_to_line [![1, 2, 4], ![0, -1, 1]]

/-- C45.  Empty signals and other shapes are rejected. -/
theorem C45_rejects (x : ctIn) (neutral : Bool) (h : x = .vector [] ∨ x = .three [] ∨ x = .other) :
    ct.transform x neutral = .error .valueError := by
  rcases h with rfl | rfl | rfl <;> rfl

example : ∀ p ∈ [(![1, -2, 1] : Fin 3 → ℝ)], p 0 + p 1 + p 2 = 0 := by
  intro p hp
  rw [List.mem_singleton.mp hp]
  simp; norm_num

end Verif.Props
