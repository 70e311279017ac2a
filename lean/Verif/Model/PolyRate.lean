import Verif.Model.Py
import Verif.Model.NpPoly
import Verif.Model.Response
import Mathlib.Algebra.Order.Floor.Ring

/-
Model of diamondback/filters/polynomial_rate_filter.py, class PolynomialRateFilter, and of the numpy functions round, interp and
linspace it uses (library code, not in /repo).  `numpy.polyfit(u, data, order)` for the fixed abscissae u = -1, 0, 1, 2 is the parameter
`polyfit`; theorems assume that it is the least squares fit (Spec.IsPolyfit).  Simplifications: exact real arithmetic; the rate is a
Python float, so that 1.0 / 0.0 raises.
-/

namespace Verif

/-- numpy.round: to nearest, ties to even (polynomial_rate_filter.py:110, polyphase_rate_filter.py:152, 158). -/
noncomputable def np.round (x : ℝ) : ℤ :=
  if x - ⌊x⌋ < 1 / 2 then ⌊x⌋
  else if x - ⌊x⌋ > 1 / 2 then ⌊x⌋ + 1
  else if ⌊x⌋ % 2 = 0 then ⌊x⌋ else ⌊x⌋ + 1

/-- numpy.interp at one point, on the list of the pairs (abscissa, value), abscissae increasing (polynomial_rate_filter.py:115). -/
noncomputable def np.interp : List (ℝ × ℝ) → ℝ → ℝ
  | [], _ => 0
  | [(_, y)], _ => y
  | (a, y) :: (b, z) :: t, x =>
    if x < b then (if x ≤ a then y else (z - y) / (b - a) * (x - a) + y) else np.interp ((b, z) :: t) x

/-- A PolynomialRateFilter instance (polynomial_rate_filter.py:90-91). -/
structure PolyRate where
  order : ℤ
  rate : ℝ

/-- PolynomialRateFilter.__init__ (polynomial_rate_filter.py:76-91). -/
noncomputable def PolyRate.new (rate : ℝ) (order : ℤ) : Res PolyRate :=
  if rate < 0 then .error .valueError
  else if order ≤ 0 then .error .valueError
  else .ok { order := order, rate := rate }

/-- The setters (polynomial_rate_filter.py:60-74). -/
def PolyRate.setOrder (p : PolyRate) (order : ℤ) : Res Unit × PolyRate :=
  if order ≤ 0 then (.error .valueError, p) else (.ok (), { p with order := order })

/-- The rate setter (polynomial_rate_filter.py:70-74). -/
noncomputable def PolyRate.setRate (p : PolyRate) (rate : ℝ) : Res Unit × PolyRate :=
  if rate < 0 then (.error .valueError, p) else (.ok (), { p with rate := rate })

/-- polynomial_rate_filter.py:131-134: the inner loop; `n` is `len(y) - jj`.  Returns the samples written, the index and `len(y) - jj` afterwards. -/
noncomputable def prate.inner (b : List ℝ) (v : ℝ) : ℕ → ℝ → List ℝ × ℝ × ℕ
  | 0, index => ([], index, 0)
  | n + 1, index =>
    if index < 1 then
      let (ys, index', n') := prate.inner b v n (index + v)
      (np.polyval b index :: ys, index', n')
    else ([], index, n + 1)

/-- polynomial_rate_filter.py:128-136: the outer loop; `m` is `cc - ii`, `xs` is `x[ii:]`, `n` is `len(y) - jj`. -/
noncomputable def prate.outer (polyfit : List ℝ → List ℝ) (v : ℝ) : ℕ → List ℝ → ℝ → ℕ → List ℝ
  | 0, _, _, _ => []
  | m + 1, xs, index, n =>
    let (ys, index', n') := if index < 1 then prate.inner (polyfit (xs.take 4)) v n index else ([], index, n)
    ys ++ prate.outer polyfit v m xs.tail (index' - 1) n'

/-- PolynomialRateFilter.filter (polynomial_rate_filter.py:93-138).  The argument is a 1-D array, or `none` for an array of another
dimension.  In the loop branch `y[: min(jj, len(y))]` is the list of the samples written. -/
noncomputable def PolyRate.filter (polyfit : ℕ → List ℝ → List ℝ) (p : PolyRate) (x : Option (List ℝ)) : Res (List ℝ) :=
  match x with
  | none => .error .valueError
  | some x =>
    if x.length < 2 then .error .valueError
    else
      let cc := x.length
      let jj := (np.round (cc * p.rate)).toNat
      if p.order = 1 then
        let x := x ++ [2 * x.getD (x.length - 1) 0 - x.getD (x.length - 2) 0]
        let u := np.linspace 0 ((x.length : ℝ) - 1) x.length
        let n := ⌊(x.length : ℝ) * p.rate + 0.5⌋.toNat
        let v := (np.linspace 0 ((n : ℝ) - 1) n).map (· / p.rate)
        let y := v.map (np.interp (u.zip x))
        .ok (y.take (min jj y.length))
      else if p.rate = 0 then .error .zeroDivisionError
      else
        let x := [2 * x.getD 0 0 - x.getD 1 0] ++ x ++
          [2 * x.getD (x.length - 1) 0 - x.getD (x.length - 2) 0, 3 * x.getD (x.length - 1) 0 - 2 * x.getD (x.length - 2) 0]
        .ok (prate.outer (polyfit p.order.toNat) (1 / p.rate) cc x 0 jj)

end Verif
