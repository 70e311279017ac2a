import Verif.Spec.Signal
import Mathlib.Analysis.SpecialFunctions.Complex.Circle
import Mathlib.Analysis.Calculus.Deriv.Basic
import Mathlib.MeasureTheory.Integral.IntegralEqImproper

/- Specification vocabulary for transfer functions: no reference to the models. -/

namespace Verif.Spec

open Finset

/-- The polynomial with coefficients `u`, highest power first, at `s`. -/
noncomputable def sAt (u : List ℝ) (s : ℂ) : ℂ := ∑ i ∈ range u.length, ((at0 u i : ℝ) : ℂ) * s ^ (u.length - 1 - i)

/-- The sum of `c_i z^{-i}`. -/
noncomputable def zAt (c : List ℝ) (z : ℂ) : ℂ := ∑ i ∈ range c.length, ((at0 c i : ℝ) : ℂ) * z⁻¹ ^ i

/-- No root of `u` is a root of its derivative. -/
def SimpleRoots (u : List ℝ) : Prop := ∀ s, sAt u s = 0 → deriv (sAt u) s ≠ 0

/-- `g` is the impulse response of the continuous system with the transfer function `v / u`: its Laplace transform is `v / u`. -/
def IsImpulseResponse (u v : List ℝ) (g : ℝ → ℝ) : Prop := Continuous g ∧ ∃ σ : ℝ, ∀ s : ℂ, σ < s.re → sAt u s ≠ 0 ∧
  MeasureTheory.IntegrableOn (fun t : ℝ => (g t : ℂ) * Complex.exp (-(s * t))) (Set.Ioi 0) ∧
  ∫ t : ℝ in Set.Ioi 0, (g t : ℂ) * Complex.exp (-(s * t)) = sAt v s / sAt u s

end Verif.Spec
