import Verif.Spec.Signal
import Mathlib.Data.Real.Basic
import Mathlib.Algebra.BigOperators.Group.Finset.Basic

/-
The delay of a ramp, in the coefficients of a recursion.
-/

namespace Verif.Spec

open Finset

/-- The mean index of the numerator `b` plus the index sum of the recursion `a` over one minus the sum of `a`. -/
noncomputable def rampDelay (a b : List ℝ) : ℝ :=
  (∑ i ∈ range b.length, at0 b i * i) / ∑ i ∈ range b.length, at0 b i + (∑ i ∈ range a.length, at0 a i * i) / (1 - ∑ i ∈ range a.length, at0 a i)

end Verif.Spec
