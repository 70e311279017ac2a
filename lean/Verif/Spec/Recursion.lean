import Verif.Spec.Signal
import Mathlib.Order.Interval.Finset.Nat

namespace Verif.Spec

open Finset

variable {R : Type*}

/-- The documented recursion of an IIR filter, with zero before time zero:
`y_n = ∑_{i=1}^{n} a_i y_{n-i} + ∑_{i=0}^{n} b_i x_{n-i}`. -/
def Recursion [Semiring R] (a b x y : List R) : Prop :=
  y.length = x.length ∧ ∀ n, n < x.length →
    at0 y n = (∑ i ∈ Icc 1 n, at0 a i * at0 y (n - i)) + ∑ i ∈ range (n + 1), at0 b i * at0 x (n - i)

end Verif.Spec
