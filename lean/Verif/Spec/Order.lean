import Mathlib.Order.Defs.LinearOrder
import Mathlib.Order.Interval.Finset.Nat
import Mathlib.Data.Finset.Lattice.Fold

/-
Specification vocabulary for order statistics and morphology.
-/

namespace Verif.Spec

variable {R K : Type*}

/-- `p` lists the positions of `l` in nondecreasing order of value (any order among equal values): what
`numpy.argsort` guarantees. -/
def IsArgsort [LinearOrder K] (argsort : List K → List ℕ) : Prop :=
  ∀ l : List K, (argsort l).Perm (List.range l.length) ∧ ((argsort l).filterMap (fun i => l[i]?)).Pairwise (· ≤ ·)

/-- `y` is an element of `window` of rank `i` with respect to `key`: at most `i` elements are strictly smaller and more
than `i` are at most as large. -/
def IsRank [LinearOrder K] (key : R → K) (window : List R) (i : ℕ) (y : R) : Prop :=
  y ∈ window ∧ window.countP (fun w => key w < key y) ≤ i ∧ i < window.countP (fun w => key w ≤ key y)

/-- Erosion of a two-sided signal over the window `n-N..n`. -/
def erode [LinearOrder R] (N : ℕ) (x : ℤ → R) (n : ℤ) : R :=
  (Finset.range (N + 1)).inf' ⟨0, by simp⟩ (fun i => x (n - i))

/-- Dilation of a two-sided signal over the window `n-N..n`. -/
def dilate [LinearOrder R] (N : ℕ) (x : ℤ → R) (n : ℤ) : R :=
  (Finset.range (N + 1)).sup' ⟨0, by simp⟩ (fun i => x (n - i))

/-- A list as a two-sided signal, zero before time 0. -/
def twoSided [Zero R] (l : List R) (n : ℤ) : R := if n < 0 then 0 else l.getD n.toNat 0

end Verif.Spec
