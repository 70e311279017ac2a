import Verif.Model.Polyphase
import Verif.Model.PolyRate

/-!
The loops of the rate filters with rounded times (polynomial_rate_filter.py:109-138, polyphase_rate_filter.py:136-168).

Both filters keep a time `index` which is increased by a step for every output and decreased by the length of an interval for every sample.  Here `fl`
rounds the result of every operation on times: the length `len(x) * rate`, the step, the sum and the difference.

Simplifications.  As in `PolyRate.filter` and `Polyphase.filter`, which are the case `fl = id` (`C117_exact`).  The weights, the fits and the sums of
products are exact; their rounding is the subject of C78.
-/

namespace Verif

/-- Lines 131-134 of polynomial_rate_filter.py with rounded times. -/
noncomputable def prate.innerF (fl : ℝ → ℝ) (b : List ℝ) (v : ℝ) : ℕ → ℝ → List ℝ × ℝ × ℕ
  | 0, index => ([], index, 0)
  | n + 1, index =>
    if index < 1 then
      let (ys, index', n') := prate.innerF fl b v n (fl (index + v))
      (np.polyval b index :: ys, index', n')
    else ([], index, n + 1)

/-- Lines 128-136 of polynomial_rate_filter.py with rounded times. -/
noncomputable def prate.outerF (fl : ℝ → ℝ) (polyfit : List ℝ → List ℝ) (v : ℝ) : ℕ → List ℝ → ℝ → ℕ → List ℝ
  | 0, _, _, _ => []
  | m + 1, xs, index, n =>
    let (ys, index', n') := if index < 1 then prate.innerF fl (polyfit (xs.take 4)) v n index else ([], index, n)
    ys ++ prate.outerF fl polyfit v m xs.tail (fl (index' - 1)) n'

/-- PolynomialRateFilter.filter of an order other than one (polynomial_rate_filter.py:105-108, 109-110, 117-138) for a one dimensional signal, with
rounded times. -/
noncomputable def PolyRate.filterF (fl : ℝ → ℝ) (polyfit : ℕ → List ℝ → List ℝ) (p : PolyRate) (x : List ℝ) : Res (List ℝ) :=
  if x.length < 2 then .error .valueError
  else if p.rate = 0 then .error .zeroDivisionError
  else
    let y := [2 * x.getD 0 0 - x.getD 1 0] ++ x ++
      [2 * x.getD (x.length - 1) 0 - x.getD (x.length - 2) 0, 3 * x.getD (x.length - 1) 0 - 2 * x.getD (x.length - 2) 0]
    .ok (prate.outerF fl (polyfit p.order.toNat) (fl (1 / p.rate)) x.length y 0 (np.round (fl (x.length * p.rate))).toNat)

/-- Lines 163-167 of polyphase_rate_filter.py with rounded times. -/
noncomputable def pp.innerF (fl : ℝ → ℝ) (rr : ℝ) : List ℝ → ℝ → List ℝ → List ℝ × ℝ × List ℝ
  | [], index, s => ([], index, s)
  | x :: xs, index, s => if index ≥ rr then pp.innerF fl rr xs (fl (index - rr)) (shiftRight (s.set 0 x)) else (x :: xs, index, s)

/-- Lines 157-167 of polyphase_rate_filter.py with rounded times. -/
noncomputable def pp.bodyF (fl : ℝ → ℝ) (B : List (List ℝ)) (rate : ℝ) (t : pp.St) : Res Unit × pp.St :=
  let emitted : Res Unit × pp.St :=
    if t.index < B.length then
      let kk := min (np.round t.index) (B.length - 1)
      if rate = 0 then (.error .zeroDivisionError, t)
      else
        let t := { t with index := fl (t.index + fl (B.length / rate)), s := t.s.set 0 (t.xs.headD 0) }
        match np.row B kk with
        | .error e => (.error e, t)
        | .ok row => (.ok (), { t with y := t.y ++ [dot row t.s], n := t.n - 1 })
    else (.ok (), t)
  match emitted with
  | (.error e, t) => (.error e, t)
  | (.ok (), t) =>
    let (xs, index, s) := pp.innerF fl B.length t.xs t.index t.s
    (.ok (), { t with xs := xs, index := index, s := s })

/-- At most `fuel` passes of the outer loop; the bound below suffices (`C117_polyphase`) (polyphase_rate_filter.py:156-167). -/
noncomputable def pp.loopF (fl : ℝ → ℝ) (B : List (List ℝ)) (rate : ℝ) : ℕ → pp.St → Res Unit × pp.St
  | 0, t => (.ok (), t)
  | fuel + 1, t =>
    if pp.guard t then
      match pp.bodyF fl B rate t with
      | (.error e, t) => (.error e, t)
      | (.ok (), t) => pp.loopF fl B rate fuel t
    else (.ok (), t)

/-- The local variables before the loop (polyphase_rate_filter.py:152-155). -/
noncomputable def Polyphase.startF (fl : ℝ → ℝ) (p : Polyphase) (x : List ℝ) : pp.St :=
  { index := p.index, s := p.s, xs := x, y := [], n := (np.round (fl (x.length * p.rate))).toNat }

/-- PolyphaseRateFilter.filter (polyphase_rate_filter.py:136-168) with rounded times. -/
noncomputable def Polyphase.filterF (fl : ℝ → ℝ) (B : List (List ℝ)) (p : Polyphase) (x : List ℝ) : Res (List ℝ) × Polyphase :=
  if x = [] then (.error .valueError, p)
  else
    match pp.loopF fl B p.rate (x.length + (np.round (fl (x.length * p.rate))).toNat) (p.startF fl x) with
    | (.error e, t) => (.error e, { p with index := t.index, s := t.s })
    | (.ok (), t) => (.ok t.y, { p with index := t.index, s := t.s })

end Verif
