import Mathlib.Analysis.Complex.Norm

/-
What is assumed of the elementary operations on the complex numbers of a machine.
-/

namespace Verif.Spec

/-- Sums, differences and products are within `u` of the exact result relatively (of the operands, for sums and differences) and `η` absolutely; conjugation is exact. -/
structure MachineC {F : Type*} [Add F] [Sub F] [Mul F] (val : F → ℂ) (conj : F → F) (u η : ℝ) : Prop where
  add : ∀ x y, ‖val (x + y) - (val x + val y)‖ ≤ u * (‖val x‖ + ‖val y‖) + η
  sub : ∀ x y, ‖val (x - y) - (val x - val y)‖ ≤ u * (‖val x‖ + ‖val y‖) + η
  mul : ∀ x y, ‖val (x * y) - val x * val y‖ ≤ u * (‖val x‖ * ‖val y‖) + η
  conj : ∀ x, val (conj x) = (starRingEnd ℂ) (val x)

end Verif.Spec
