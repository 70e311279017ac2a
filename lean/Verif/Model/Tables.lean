import Verif.Model.Iir
import Verif.Model.Exact

/-
Model of the coefficient tables and constructors of diamondback/filters/derivative_filter.py (class DerivativeFilter) and
diamondback/filters/integral_filter.py (class IntegralFilter).  Their `filter` methods only call the inherited ones.
Simplification: exact arithmetic in a field instead of floating point (the tables are products by 1/2, 1/12, …).
-/

namespace Verif

variable {K : Type _} [Field K]

/-- `numpy.array(v) * c` (derivative_filter.py:103-120, integral_filter.py:82-88). -/
def scaled (c : K) (v : List K) : List K := v.map (· * c)

/-- DerivativeFilter.B (derivative_filter.py:103-120). -/
def Derivative.table : ℤ → ℤ → Option (List K)
  | 1, 1 => some [1, -1]
  | 1, 2 => some (scaled (1 / 2) [1, 0, -1])
  | 1, 4 => some (scaled (1 / 12) [-1, 8, 0, -8, 1])
  | 2, 2 => some [1, -2, 1]
  | 2, 4 => some (scaled (1 / 4) [1, 0, -2, 0, 1])
  | 2, 6 => some (scaled (1 / 24) [-1, 8, 1, -16, 1, 8, -1])
  | 2, 8 => some (scaled (1 / 144) [1, -16, 64, 16, -130, 16, 64, -16, 1])
  | 3, 4 => some (scaled (1 / 2) [1, -2, 0, 2, -1])
  | 3, 6 => some (scaled (1 / 8) [1, 0, -3, 0, 3, 0, -1])
  | 3, 8 => some (scaled (1 / 48) [-1, 8, 2, -24, 0, 24, -2, -8, 1])
  | _, _ => none

/-- DerivativeFilter.__init__ (derivative_filter.py:122-135); both lookups raise ValueError. -/
def Derivative.new (derivative order : ℤ) : Res (Fir K) :=
  match Derivative.table derivative order with
  | none => .error .valueError
  | some b => Fir.new id b none

/-- IntegralFilter.B (integral_filter.py:82-88). -/
def Integral.table : ℤ → Option (List K)
  | 0 => some [1]
  | 1 => some (scaled (1 / 2) [1, 1])
  | 2 => some (scaled (1 / 6) [1, 4, 1])
  | 3 => some (scaled (1 / 8) [1, 3, 3, 1])
  | 4 => some (scaled (1 / 90) [7, 32, 12, 32, 7])
  | _ => none

/-- IntegralFilter.__init__ (integral_filter.py:90-100). -/
def Integral.new [DecidableEq K] (order : ℤ) : Res (Iir K) :=
  match Integral.table order with
  | none => .error .valueError
  | some b => Iir.new id (some [0, 1]) (some b) none

end Verif
