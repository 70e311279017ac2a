import Verif.Spec.Signal
import Mathlib.Data.Real.Basic
import Mathlib.Algebra.Ring.Parity

/- Specification vocabulary for rate conversion: no reference to the models. -/

namespace Verif.Spec

open Finset

/-- `m` is `x` rounded to the nearest integer, ties to even. -/
def IsRound (x : ℝ) (m : ℤ) : Prop := |x - m| ≤ 1 / 2 ∧ (|x - m| = 1 / 2 → Even m)

/-- Value at `t` of the polynomial with coefficients `c`, highest power first. -/
def polyAt (c : List ℝ) (t : ℝ) : ℝ := ∑ i ∈ range c.length, at0 c i * t ^ (c.length - 1 - i)

/-- Squared error of the polynomial `c` against the data `d` at the abscissae -1, 0, 1, 2. -/
def sqErr (d c : List ℝ) : ℝ := ∑ i ∈ range 4, (at0 d i - polyAt c (i - 1)) ^ 2

/-- The norm by which an underdetermined fit is chosen: coefficients weighted by the norms of the columns of the Vandermonde matrix. -/
def fitNorm (c : List ℝ) : ℝ :=
  ∑ j ∈ range c.length, (∑ i ∈ range 4, ((i : ℝ) - 1) ^ (2 * (c.length - 1 - j))) * at0 c j ^ 2

/-- `c` is the least squares polynomial of degree `order` for the data `d` at -1, 0, 1, 2; among several the one of least norm. -/
def IsPolyfit (order : ℕ) (d c : List ℝ) : Prop :=
  c.length = order + 1 ∧ ∀ e : List ℝ, e.length = order + 1 →
    sqErr d c ≤ sqErr d e ∧ (sqErr d c = sqErr d e → fitNorm c ≤ fitNorm e)

/-- The signal extended by one sample at the end, along the line through the last two. -/
def extend1 (x : List ℝ) (n : ℕ) : ℝ :=
  if n < x.length then at0 x n else 2 * at0 x (x.length - 1) - at0 x (x.length - 2)

/-- The signal extended along the lines through its end samples; the index is an integer from -1 to `length + 1`. -/
def extend (x : List ℝ) (n : ℤ) : ℝ :=
  if n < 0 then 2 * at0 x 0 - at0 x 1
  else if n < x.length then at0 x n.toNat
  else if n = x.length then 2 * at0 x (x.length - 1) - at0 x (x.length - 2)
  else 3 * at0 x (x.length - 1) - 2 * at0 x (x.length - 2)

/-- The sample `j` places before `x[n]`, when `s` holds the samples before `x[0]`: `s[1]` is the last of them, `s[0]` is not used. -/
def pastSample (x s : List ℝ) (n j : ℕ) : ℝ := if j ≤ n then at0 x (n - j) else at0 s (j - n)

/-- Weighted sum of the latest samples. -/
def weigh (row : List ℝ) (x s : List ℝ) (n : ℕ) : ℝ := ∑ j ∈ range row.length, at0 row j * pastSample x s n j

end Verif.Spec
