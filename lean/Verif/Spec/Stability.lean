import Verif.Spec.Signal
import Mathlib.Analysis.Complex.Basic
import Mathlib.Order.Interval.Finset.Nat

/-
Specification vocabulary for rational transfer functions: no reference to the models.
-/

namespace Verif.Spec

open Finset

/-- `s` is a root of the real polynomial with coefficients `u`, highest power first. -/
def IsRootOf (u : List ℝ) (s : ℂ) : Prop := ∑ i ∈ range u.length, ((at0 u i : ℝ) : ℂ) * s ^ (u.length - 1 - i) = 0

/-- `z` is a pole of the recursion `y_n = ∑_{i≥1} a_i y_{n-i} + ...`: `z^N = ∑_{i=1}^N a_i z^{N-i}`. -/
def Pole (a : List ℝ) (z : ℂ) : Prop :=
  z ^ (a.length - 1) = ∑ i ∈ Icc 1 (a.length - 1), ((at0 a i : ℝ) : ℂ) * z ^ (a.length - 1 - i)

/-- Every pole is strictly inside the unit circle. -/
def Stable (a : List ℝ) : Prop := ∀ z, Pole a z → ‖z‖ < 1

end Verif.Spec
