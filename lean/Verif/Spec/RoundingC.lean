import Verif.Spec.Rounding
import Mathlib.Analysis.Complex.Norm

/-
What is assumed of complex machine arithmetic.
-/

namespace Verif.Spec

open Finset

/-- `Rounded` for complex numbers. -/
structure RoundedC {F : Type*} [Add F] [Mul F] [Dot F] [Zero F] (val : F → ℂ) (n : ℕ) (u η : ℝ) : Prop where
  zero : val 0 = 0
  add : ∀ x y, ‖val (x + y) - (val x + val y)‖ ≤ u * (‖val x‖ + ‖val y‖) + η
  mul : ∀ x y, ‖val (x * y) - val x * val y‖ ≤ u * ‖val x * val y‖ + η
  dot : ∀ a b, a.length = n → b.length = n →
    ‖val (dot a b) - ∑ i ∈ range n, val (at0 a i) * val (at0 b i)‖ ≤ u * (∑ i ∈ range n, ‖val (at0 a i) * val (at0 b i)‖) + η

end Verif.Spec
