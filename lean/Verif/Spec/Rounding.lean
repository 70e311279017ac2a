import Verif.Model.Py
import Verif.Spec.Signal
import Mathlib.Data.Real.Basic
import Mathlib.Algebra.Order.BigOperators.Group.Finset

/-
Machine arithmetic for error bounds: `val` is the exact value of a machine number.  Overflow is excluded.
-/

namespace Verif.Spec

open Finset

/-- Sums, products and dot products of `n` terms have a relative error `u` (relative to the absolute terms) and an absolute error `η` (underflow, or the
step of a fixed point format). -/
structure Rounded {F : Type*} [Add F] [Mul F] [Dot F] [Zero F] (val : F → ℝ) (n : ℕ) (u η : ℝ) : Prop where
  zero : val 0 = 0
  add : ∀ x y, |val (x + y) - (val x + val y)| ≤ u * (|val x| + |val y|) + η
  mul : ∀ x y, |val (x * y) - val x * val y| ≤ u * |val x * val y| + η
  dot : ∀ a b, a.length = n → b.length = n →
    |val (dot a b) - ∑ i ∈ range n, val (at0 a i) * val (at0 b i)| ≤ u * (∑ i ∈ range n, |val (at0 a i) * val (at0 b i)|) + η

/-- An order of summation: which partial sums are formed. -/
inductive SumTree where
  | leaf (i : ℕ)
  | node (l r : SumTree)

/-- The indices summed. -/
def SumTree.leaves : SumTree → List ℕ
  | .leaf i => [i]
  | .node l r => l.leaves ++ r.leaves

/-- The sum of the terms `p` in that order, each partial sum rounded by `fl`. -/
def SumTree.eval (fl : ℝ → ℝ) (p : ℕ → ℝ) : SumTree → ℝ
  | .leaf i => p i
  | .node l r => fl (l.eval fl p + r.eval fl p)

end Verif.Spec
