import Mathlib.Algebra.BigOperators.Group.Finset.Basic
import Mathlib.Algebra.Ring.Defs

/-
Specification vocabulary for signals: no reference to the models.
-/

namespace Verif.Spec

open Finset

variable {R : Type*}

/-- The value of a list signal at an index, zero outside. -/
def at0 [Zero R] (l : List R) (i : ℕ) : R := l.getD i 0

/-- Causal convolution `∑_{i ≤ n} b_i x_{n-i}`. -/
def conv [Semiring R] (b x : List R) (n : ℕ) : R :=
  ∑ i ∈ range (n + 1), at0 b i * at0 x (n - i)

/-- Contribution of the initial state, most recent past sample first: `∑_{i > n} b_i s_{i-n-1}`. -/
def tail [Semiring R] (b s : List R) (n : ℕ) : R :=
  ∑ i ∈ range b.length, if n < i then at0 b i * at0 s (i - n - 1) else 0

end Verif.Spec
