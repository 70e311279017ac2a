import Verif.Model.Assign
import Verif.Spec.Signal
import Mathlib.Order.Interval.Finset.Nat
import Mathlib.Data.Real.Basic
import Mathlib.Algebra.Group.Nat.Even

/-
A caller which assigns new coefficients to a filter before each sample (coefficients scheduled or adapted while the signal passes), and what it
should see.  Larger blocks are covered: the coefficients stay the same within a block.
-/

namespace Verif.Spec

open Finset

variable {R : Type*}

/-- `for n in range(N): f.b = B[n]; y += f.filter([x[n]])` for a FirFilter. -/
def firSchedule [Dot R] (B : ℕ → List R) (x : ℕ → R) (f : Fir R) : ℕ → Res (List R) × Fir R
  | 0 => (.ok [], f)
  | n + 1 =>
    match firSchedule B x f n with
    | (.error e, g) => (.error e, g)
    | (.ok y, g) =>
      match (g.setB (B n)).filter [x n] with
      | (.error e, g') => (.error e, g')
      | (.ok v, g') => (.ok (y ++ v), g')

/-- `for n in range(N): f.a = A[n]; f.b = B[n]; y += f.filter([x[n]])` for an IirFilter. -/
def iirSchedule [Add R] [Mul R] [Dot R] (A B : ℕ → List R) (x : ℕ → R) (f : Iir R) : ℕ → Res (List R) × Iir R
  | 0 => (.ok [], f)
  | n + 1 =>
    match iirSchedule A B x f n with
    | (.error e, g) => (.error e, g)
    | (.ok y, g) =>
      match ((g.setA (A n)).setB (B n)).filter [x n] with
      | (.error e, g') => (.error e, g')
      | (.ok v, g') => (.ok (y ++ v), g')

/-- What the delay line remembers of sample `n`: the recursion with the coefficients which are in force at the NEXT sample. -/
def Remembered [Semiring R] (A : ℕ → List R) (x w : ℕ → R) : Prop :=
  ∀ n, w n = x n + ∑ k ∈ Icc 1 n, at0 (A (n + 1)) k * w (n - k)

/-- The output at sample `n`: the coefficients of now, applied to what is remembered. -/
def scheduledOutput [Semiring R] (A B : ℕ → List R) (x w : ℕ → R) (n : ℕ) : R :=
  at0 (B n) 0 * (x n + ∑ k ∈ Icc 1 n, at0 (A n) k * w (n - k)) + ∑ k ∈ Icc 1 n, at0 (B n) k * w (n - k)

/-- Two recursions which differ in the sign of one coefficient, in turn. -/
noncomputable def flipped (n : ℕ) : List ℝ := if Even n then [0, 9 / 5, -(9 / 10)] else [0, -(9 / 5), -(9 / 10)]

end Verif.Spec
