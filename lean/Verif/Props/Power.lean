import Verif.Model.ComplexTransformC
import Verif.Props.Sequences

/- Property C150: instantaneous power of three-phase signals through ComplexTransform, and what becomes of a complex three-phase array
(diamondback/transforms/complex_transform.py). -/

namespace Verif.Props

open Complex Verif ComplexConjugate

private theorem normSq_gain : normSq ct.gain = 1 / 3 := by
  have h : ‖ct.gain‖ = Real.sqrt (1 / 3) := by
    unfold ct.gain
    rw [show (-(I * Real.pi / 6) : ℂ) = ((-(Real.pi / 6) : ℝ) : ℂ) * I by push_cast; ring]
    rw [norm_mul, Complex.norm_exp_ofReal_mul_I, mul_one, Complex.norm_real, Real.norm_eq_abs, abs_of_nonneg (Real.sqrt_nonneg _)]
  rw [Complex.normSq_eq_norm_sq, h, Real.sq_sqrt (by norm_num)]

private theorem toComplex_false (p : Fin 3 → ℝ) : ct.toComplex false p = ct.toComplex true p * ct.gain := by
  simp [ct.toComplex]

private theorem mul_conj_false (p q : Fin 3 → ℝ) :
    ct.toComplex false p * conj (ct.toComplex false q) = (1 / 3 : ℝ) * (ct.toComplex true p * conj (ct.toComplex true q)) := by
  rw [toComplex_false, toComplex_false, map_mul, ← normSq_gain, ← Complex.mul_conj]
  ring

private theorem power_sample (v i : Fin 3 → ℝ) :
    (ct.toComplex true v * conj (ct.toComplex true i)).re =
      2 / 3 * (v 0 * i 0 + v 1 * i 1 + v 2 * i 2 - (v 0 + v 1 + v 2) * (i 0 + i 1 + i 2) / 3) ∧
    (ct.toComplex true v * conj (ct.toComplex true i)).im =
      2 / 3 / Real.sqrt 3 * ((v 1 - v 2) * i 0 + (v 2 - v 0) * i 1 + (v 0 - v 1) * i 2) := by
  have h3 : Real.sqrt 3 * Real.sqrt 3 = 3 := Real.mul_self_sqrt (by norm_num)
  have h0 : Real.sqrt 3 ≠ 0 := (Real.sqrt_pos.mpr (by norm_num)).ne'
  have hd : 2 / 3 / Real.sqrt 3 = 2 / 9 * Real.sqrt 3 := by field_simp; nlinarith
  have key : ∀ a b c d : ℝ, ((a : ℂ) + I * b) * 1 * conj (((c : ℂ) + I * d) * 1) = ⟨a * c + b * d, b * c - a * d⟩ := by
    intro a b c d
    apply Complex.ext <;> simp <;> ring
  rw [ct.toComplex_spec, ct.toComplex_spec, hd, if_pos rfl, key]
  constructor
  · linear_combination (1 / 9 * (v 1 - v 2) * (i 1 - i 2)) * h3
  · ring

/-- C150: the power of the three phases, voltage times current of each, is three halves of the real part of the product of one complex
signal with the conjugate of the other, plus the product of the sums over three, which the complex signals do not contain; the factor
is nine halves for line to line quantities (`neutral = False`). -/
theorem C150_power (x : List ((Fin 3 → ℝ) × (Fin 3 → ℝ))) (hx : x ≠ []) (neutral : Bool) :
    ∃ V J : List ℂ, ct.transform (.three (x.map Prod.fst)) neutral = .ok (.vector V) ∧
      ct.transform (.three (x.map Prod.snd)) neutral = .ok (.vector J) ∧
      x.map (fun p => ∑ k, p.1 k * p.2 k) =
        List.zipWith (· + ·) (List.zipWith (fun a b => (if neutral then 3 / 2 else 9 / 2) * (a * conj b).re) V J)
          (x.map fun p => (∑ k, p.1 k) * (∑ k, p.2 k) / 3) := by
  refine ⟨(x.map Prod.fst).map (ct.toComplex neutral), (x.map Prod.snd).map (ct.toComplex neutral), by simp [ct.transform, hx],
    by simp [ct.transform, hx], ?_⟩
  rw [List.map_map, List.map_map, List.zipWith_map, List.zipWith_self, List.zipWith_map, List.zipWith_self]
  apply List.map_congr_left
  rintro ⟨v, i⟩ _
  have hp := (power_sample v i).1
  cases neutral
  · simp only [Function.comp_apply, mul_conj_false, Complex.re_ofReal_mul, hp, Fin.sum_univ_three, Bool.false_eq_true, if_false]
    ring
  · simp only [Function.comp_apply, hp, Fin.sum_univ_three, if_true]
    ring

/-- A sample of voltages and currents. -/
example := C150_power [(![230, -115, -115], ![4, -1, -3])] (by simp) true

/-- C150: for phases which sum to zero (no neutral current) the product alone gives the power, and its imaginary part the
instantaneous reactive power, from the differences of the other two voltages. -/
theorem C150_reactive (x : List ((Fin 3 → ℝ) × (Fin 3 → ℝ))) (hx : x ≠ []) (h0 : ∀ p ∈ x, p.2 0 + p.2 1 + p.2 2 = 0) :
    ∃ V J : List ℂ, ct.transform (.three (x.map Prod.fst)) true = .ok (.vector V) ∧
      ct.transform (.three (x.map Prod.snd)) true = .ok (.vector J) ∧
      List.zipWith (fun a b => 3 / 2 * (a * conj b)) V J = x.map (fun p => (⟨∑ k, p.1 k * p.2 k,
        ((p.1 1 - p.1 2) * p.2 0 + (p.1 2 - p.1 0) * p.2 1 + (p.1 0 - p.1 1) * p.2 2) / Real.sqrt 3⟩ : ℂ)) := by
  refine ⟨(x.map Prod.fst).map (ct.toComplex true), (x.map Prod.snd).map (ct.toComplex true), by simp [ct.transform, hx],
    by simp [ct.transform, hx], ?_⟩
  rw [List.map_map, List.map_map, List.zipWith_map, List.zipWith_self]
  apply List.map_congr_left
  rintro ⟨v, i⟩ hm
  have hz : i 0 + i 1 + i 2 = 0 := h0 _ hm
  obtain ⟨hr, hi⟩ := power_sample v i
  rw [show (3 / 2 : ℂ) = ((3 / 2 : ℝ) : ℂ) by push_cast; rfl]
  apply Complex.ext
  · simp only [Function.comp_apply, Complex.re_ofReal_mul, hr, hz, Fin.sum_univ_three]
    ring
  · simp only [Function.comp_apply, Complex.im_ofReal_mul, hi]
    ring

example : ∀ p ∈ [((![230, -115, -115] : Fin 3 → ℝ), (![4, -1, -3] : Fin 3 → ℝ))], p.2 0 + p.2 1 + p.2 2 = 0 := by
  intro p hp
  rw [List.mem_singleton.mp hp]
  simp; norm_num

private theorem toComplexC_third (x : Fin 3 → ℂ) :
    ct.toComplexC true x = 2 / 3 * (x 0 + third * x 1 + third ^ 2 * x 2) := by
  have h3 : Real.sqrt 3 * Real.sqrt 3 = 3 := Real.mul_self_sqrt (by norm_num)
  have h1 : third = -(1 / 2) + Real.sqrt 3 / 2 * I := by
    apply Complex.ext <;> simp [third]
  have h2 : third ^ 2 = -(1 / 2) - Real.sqrt 3 / 2 * I := by
    have := third_exp.2.2
    linear_combination this - h1
  unfold ct.toComplexC
  rw [h2, h1]
  simp [ct.coefficient, Matrix.mulVec, dotProduct, Fin.sum_univ_three]
  ring

private theorem toComplexC_neutral (neutral : Bool) (x : Fin 3 → ℂ) :
    ct.toComplexC neutral x = ct.toComplexC true x * (if neutral then 1 else ct.gain) := by
  cases neutral <;> simp [ct.toComplexC]

private theorem toComplex_neutral (neutral : Bool) (x : Fin 3 → ℝ) :
    ct.toComplex neutral x = ct.toComplex true x * (if neutral then 1 else ct.gain) := by
  cases neutral <;> simp [ct.toComplex]

/-- C150: a complex three-phase array is not refused; the result is the transform of the real parts plus `j` times that of the imaginary
parts.  An array of real values gives what it gives as a real array. -/
theorem C150_parts (x : List (Fin 3 → ℂ)) (hx : x ≠ []) (neutral : Bool) :
    ∃ y r i : List ℂ, ct.transformC x neutral = .ok y ∧
      ct.transform (.three (x.map fun p k => (p k).re)) neutral = .ok (.vector r) ∧
      ct.transform (.three (x.map fun p k => (p k).im)) neutral = .ok (.vector i) ∧
      y = List.zipWith (fun a b => a + I * b) r i := by
  refine ⟨_, _, _, by rw [ct.transformC, if_neg (by simpa using hx)], by simp only [ct.transform, List.length_map]; rw [if_neg (by simpa using hx)],
    by simp only [ct.transform, List.length_map]; rw [if_neg (by simpa using hx)], ?_⟩
  rw [List.map_map, List.map_map, List.zipWith_map, List.zipWith_self]
  apply List.map_congr_left
  intro p _
  simp only [Function.comp_apply]
  rw [toComplexC_neutral, toComplex_neutral, toComplex_neutral neutral (fun k => (p k).im), toComplexC_third, toComplex_third, toComplex_third]
  have h : ∀ k, p k = ((p k).re : ℂ) + I * ((p k).im : ℂ) := fun k => by
    rw [mul_comm]; exact (Complex.re_add_im (p k)).symm
  generalize (if neutral then (1 : ℂ) else ct.gain) = g
  linear_combination (2 / 3 * g) * (h 0 + third * h 1 + third ^ 2 * h 2)

/-- A complex sample. -/
example := C150_parts [![1, I, -1], ![0, 1, 2 * I]] (by simp) false

/-- C150: with rotating phasors instead of real phases the result is twice the positive sequence; the negative sequence, which the
transform of real phases keeps (C84), is lost. -/
theorem C150_analytic (x : List ((Fin 3 → ℂ) × ℝ)) (hx : x ≠ []) :
    ct.transformC (x.map fun p k => p.1 k * cexp (I * p.2)) true =
      .ok (x.map fun p => 2 * ((p.1 0 + third * p.1 1 + third ^ 2 * p.1 2) / 3) * cexp (I * p.2)) := by
  rw [ct.transformC, if_neg (by simpa using hx), List.map_map]
  congr 1
  apply List.map_congr_left
  intro p _
  simp only [Function.comp_apply]
  rw [toComplexC_third]
  ring

example : [((![1, 2, 3] : Fin 3 → ℂ), (0.5 : ℝ))] ≠ [] := by simp

/-- C150: every complex three-phase array of negative and zero sequence gives zeros, whatever its amplitude and for both settings. -/
theorem C150_lost (x : List (ℂ × ℂ)) (hx : x ≠ []) (neutral : Bool) :
    ct.transformC (x.map fun p => ![p.2 + p.1, p.2 + third * p.1, p.2 + third ^ 2 * p.1]) neutral = .ok (List.replicate x.length 0) := by
  rw [ct.transformC, if_neg (by simpa using hx), List.map_map]
  congr 1
  rw [List.eq_replicate_iff]
  refine ⟨by simp, ?_⟩
  intro b hb
  obtain ⟨p, _, rfl⟩ := List.mem_map.mp hb
  simp only [Function.comp_apply]
  rw [toComplexC_neutral, toComplexC_third]
  have h3 := third_exp.2.1
  have hs := third_exp.2.2
  have : (2 / 3 : ℂ) * ((![p.2 + p.1, p.2 + third * p.1, p.2 + third ^ 2 * p.1] : Fin 3 → ℂ) 0 +
      third * (![p.2 + p.1, p.2 + third * p.1, p.2 + third ^ 2 * p.1] : Fin 3 → ℂ) 1 +
      third ^ 2 * (![p.2 + p.1, p.2 + third * p.1, p.2 + third ^ 2 * p.1] : Fin 3 → ℂ) 2) = 0 := by
    simp
    linear_combination (p.2 + p.1) * hs + third * p.1 * h3
  rw [this, zero_mul]

/-- Two samples. -/
example := C150_lost [(1, I), (2, 0)] (by simp) true

end Verif.Props
