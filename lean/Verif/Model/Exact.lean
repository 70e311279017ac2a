import Verif.Model.Py
import Mathlib.Algebra.Ring.Defs
import Mathlib.Algebra.BigOperators.Group.List.Basic
import Mathlib.Algebra.Order.Floor.Ring

/-
Exact arithmetic: over a semiring the dot product is the sum of products.
-/

namespace Verif

/-- numpy's `a.dot(b)` for equal lengths, in exact arithmetic (used e.g. by fir_filter.py:263).
Simplification: no rounding. -/
instance ringDot {R : Type*} [Semiring R] : Dot R where
  dot a b := (List.zipWith (· * ·) a b).sum

theorem dot_def {R : Type*} [Semiring R] (a b : List R) : dot a b = (List.zipWith (· * ·) a b).sum := rfl

/-- Conversion of a real number stored into an integer array: truncation toward zero (used through
`numpy.array(s, type(b[0]))`, fir_filter.py:211, when the coefficients are integers). -/
def truncInt {R : Type*} [Ring R] [LinearOrder R] [FloorRing R] (x : R) : R :=
  if 0 ≤ x then (⌊x⌋ : ℤ) else (⌈x⌉ : ℤ)

end Verif
