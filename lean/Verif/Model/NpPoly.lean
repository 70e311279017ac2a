import Mathlib.Algebra.Polynomial.Roots
import Mathlib.Analysis.Complex.Polynomial.Basic
import Verif.Spec.Signal

/-
The numpy polynomial functions used by the repository (numpy library code, not in /repo): coefficient lists, highest power first.
`numpy.roots` is exact: every root as often as its multiplicity, in some order.
-/

namespace Verif

open Polynomial

variable {R : Type _}

/-- The polynomial with the given coefficients, highest power first (the convention of numpy.poly, roots and polyval) (fir_filter.py:190, 317,
iir_filter.py:178, 249, 252, z_transform.py:108, 110, 114). -/
noncomputable def np.toPoly [Semiring R] : List R → R[X]
  | [] => 0
  | c :: cs => C c * X ^ cs.length + np.toPoly cs

/-- numpy.polyval: Horner's rule (fir_filter.py:190, iir_filter.py:178, polynomial_rate_filter.py:132). -/
def np.polyval [Semiring R] (c : List R) (x : R) : R := c.foldl (fun acc a => acc * x + a) 0

/-- numpy.convolve of nonempty arrays (mode full): schoolbook product, one row of partial products per element of `a` (iir_filter.py:233, 244,
z_transform.py:119, 123). -/
def np.convolve [Semiring R] : List R → List R → List R
  | [], b => List.replicate (b.length - 1) 0
  | x :: a, b => List.zipWith (· + ·) (b.map (x * ·) ++ List.replicate a.length 0) (0 :: np.convolve a b)

/-- numpy.roots (fir_filter.py:317, iir_filter.py:370-371, z_transform.py:108, 110). -/
noncomputable def np.roots (c : List ℂ) : List ℂ := (np.toPoly c).roots.toList

/-- numpy.poly for a nonempty array of roots: `a = ones(1); for zero in roots: a = convolve(a, [1, -zero])` (iir_filter.py:249, 252,
z_transform.py:114). -/
def np.poly [Ring R] (r : List R) : List R := r.foldl (fun a z => np.convolve a [1, -z]) [1]

end Verif
