import Verif.Spec.Signal
import Mathlib.Data.Real.Basic
import Mathlib.Algebra.Order.BigOperators.Group.Finset
import Mathlib.Order.Interval.Finset.Nat

/- Specification vocabulary for two channel filter banks: no reference to the models. -/

namespace Verif.Spec

open Finset

/-- The signal with integer time, zero outside. -/
def zext (l : List ℝ) (t : ℤ) : ℝ := if 0 ≤ t then at0 l t.toNat else 0

/-- Correlation of the coefficients with themselves shifted by `2 l`. -/
def shiftCorr (b : List ℝ) (l : ℕ) : ℝ := ∑ k ∈ range b.length, at0 b k * at0 b (k + 2 * l)

/-- Distance of the coefficients from orthogonality to their even shifts: zero for an orthogonal bank. -/
noncomputable def bankError (b : List ℝ) : ℝ := |2 * shiftCorr b 0 - 1| + ∑ l ∈ Icc 1 (b.length - 1), 4 * |shiftCorr b l|

end Verif.Spec
