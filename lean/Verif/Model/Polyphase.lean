import Verif.Model.FirDesign
import Verif.Model.PolyRate
import Verif.Model.Exact

/-
Model of diamondback/filters/polyphase_rate_filter.py, class PolyphaseRateFilter.  Simplifications: exact real arithmetic; the array
`B` has any shape with at least one row and column (the code has 256 rows and 15 columns); the class variable is passed as an argument; a
one dimensional signal of real numbers; `x[ii:]` is the list of the remaining samples and `len(y) - jj` the count of free places.
-/

namespace Verif

/-- A PolyphaseRateFilter instance (polyphase_rate_filter.py:132-134). -/
structure Polyphase where
  index : ℝ
  rate : ℝ
  s : List ℝ

/-- numpy.isclose with the default tolerances (polyphase_rate_filter.py:101). -/
noncomputable def np.isclose (a b : ℝ) : Bool := open scoped Classical in decide (|a - b| ≤ 1e-8 + 1e-5 * |b|)

/-- `numpy.reshape(b, (rr, cc), "F")`: element (i, j) is `b[i + rr * j]` (polyphase_rate_filter.py:128). -/
def np.reshapeF (rr cc : ℕ) (b : List ℝ) : List (List ℝ) :=
  (List.range rr).map fun i => (List.range cc).map fun j => b.getD (i + rr * j) 0

/-- polyphase_rate_filter.py:127-131: the bank; every row is divided by its sum. -/
noncomputable def Polyphase.bank (rr cc : ℕ) (b : List ℝ) : List (List ℝ) :=
  (np.reshapeF rr cc b).map fun row => row.map (· / row.sum)

/-- PolyphaseRateFilter.__init__ (polyphase_rate_filter.py:113-134) for the class variable `B`, of the shape (rr, cc); returns the new class
variable too. -/
noncomputable def Polyphase.new (rr cc : ℕ) (B : List (List ℝ)) (rate : ℝ) : Res Polyphase × List (List ℝ) := open scoped Classical in
  if rate < 0 ∨ rate > rr then (.error .valueError, B)
  else
    let p : Polyphase := { index := 0, rate := rate, s := List.replicate cc 0 }
    if B.all fun row => row.all fun v => decide (v = 0) then
      match fir.design (some .hann) (0.85 / rr) (cc * rr - 1) 1 false 1 with
      | .error e => (.error e, B)
      | .ok b => (.ok p, Polyphase.bank rr cc b)
    else (.ok p, B)

/-- The rate setter (polyphase_rate_filter.py:97-103). -/
noncomputable def Polyphase.setRate (rr : ℕ) (p : Polyphase) (rate : ℝ) : Res Unit × Polyphase :=
  if rate < 0 ∨ rate > rr then (.error .valueError, p)
  else (.ok (), { p with index := if np.isclose p.rate rate then p.index else 0, rate := rate })

/-- PolyphaseRateFilter.reset (polyphase_rate_filter.py:170-181), scalar argument. -/
def Polyphase.reset (p : Polyphase) (x : ℝ) : Polyphase := { p with s := p.s.map fun _ => x }

/-- `b[kk, :]` for a Python integer: negative indices count from the end (polyphase_rate_filter.py:161). -/
def np.row (B : List (List ℝ)) (kk : ℤ) : Res (List ℝ) :=
  match B[(if kk < 0 then kk + B.length else kk).toNat]? with
  | some row => if kk + B.length < 0 then .error .indexError else .ok row
  | none => .error .indexError

/-- The local variables of `filter` and the fields it changes (polyphase_rate_filter.py:152-155). -/
structure pp.St where
  index : ℝ
  s : List ℝ
  xs : List ℝ
  y : List ℝ
  n : ℕ

/-- The inner loop (polyphase_rate_filter.py:163-167). -/
noncomputable def pp.inner (rr : ℝ) : List ℝ → ℝ → List ℝ → List ℝ × ℝ × List ℝ
  | [], index, s => ([], index, s)
  | x :: xs, index, s => if index ≥ rr then pp.inner rr xs (index - rr) (shiftRight (s.set 0 x)) else (x :: xs, index, s)

/-- One pass of the outer loop (polyphase_rate_filter.py:157-167); an exception leaves the fields as they are at that moment. -/
noncomputable def pp.body (B : List (List ℝ)) (rate : ℝ) (t : pp.St) : Res Unit × pp.St :=
  let emitted : Res Unit × pp.St :=
    if t.index < B.length then
      let kk := min (np.round t.index) (B.length - 1)
      if rate = 0 then (.error .zeroDivisionError, t)
      else
        let t := { t with index := t.index + B.length / rate, s := t.s.set 0 (t.xs.headD 0) }
        match np.row B kk with
        | .error e => (.error e, t)
        | .ok row => (.ok (), { t with y := t.y ++ [dot row t.s], n := t.n - 1 })
    else (.ok (), t)
  match emitted with
  | (.error e, t) => (.error e, t)
  | (.ok (), t) =>
    let (xs, index, s) := pp.inner B.length t.xs t.index t.s
    (.ok (), { t with xs := xs, index := index, s := s })

/-- The condition of the outer loop (polyphase_rate_filter.py:156). -/
def pp.guard (t : pp.St) : Bool := !t.xs.isEmpty && decide (0 < t.n)

/-- At most `fuel` passes of the outer loop.  `C36_terminates` shows that the condition is false afterwards for the bound used below
(polyphase_rate_filter.py:156-167). -/
noncomputable def pp.loop (B : List (List ℝ)) (rate : ℝ) : ℕ → pp.St → Res Unit × pp.St
  | 0, t => (.ok (), t)
  | fuel + 1, t =>
    if pp.guard t then
      match pp.body B rate t with
      | (.error e, t) => (.error e, t)
      | (.ok (), t) => pp.loop B rate fuel t
    else (.ok (), t)

/-- The local variables before the loop (polyphase_rate_filter.py:152-155). -/
noncomputable def Polyphase.start (p : Polyphase) (x : List ℝ) : pp.St :=
  { index := p.index, s := p.s, xs := x, y := [], n := (np.round (x.length * p.rate)).toNat }

/-- PolyphaseRateFilter.filter (polyphase_rate_filter.py:136-168). -/
noncomputable def Polyphase.filter (B : List (List ℝ)) (p : Polyphase) (x : List ℝ) : Res (List ℝ) × Polyphase :=
  if x = [] then (.error .valueError, p)
  else
    match pp.loop B p.rate (x.length + (np.round (x.length * p.rate)).toNat) (p.start x) with
    | (.error e, t) => (.error e, { p with index := t.index, s := t.s })
    | (.ok (), t) => (.ok t.y, { p with index := t.index, s := t.s })

end Verif
