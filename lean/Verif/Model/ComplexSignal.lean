import Verif.Model.ComplexFilter
import Verif.Model.Pid
import Verif.Model.Rank
import Verif.Model.Window
import Verif.Model.Polyphase
import Verif.Model.Wavelet

/-
Signals of complex type in the classes whose coefficients are real.  numpy keeps the real part, with a warning, when a complex number is stored in
an array of real type (`ElemType.real.store`).  FirFilter, IirFilter, PidFilter and RankFilter are the models of the other files with that
conversion; here are the classes whose models are for real signals only.  Exact arithmetic.
-/

namespace Verif

open Complex

/-- numpy.interp at one point for complex values: the formula of `np.interp` for the real and for the imaginary part (polynomial_rate_filter.py:115).
-/
noncomputable def np.interpC : List (ℝ × ℂ) → ℝ → ℂ
  | [], _ => 0
  | [(_, y)], _ => y
  | (a, y) :: (b, z) :: t, x =>
    if x < b then (if x ≤ a then y else (z - y) / ((b - a : ℝ) : ℂ) * ((x - a : ℝ) : ℂ) + y) else np.interpC ((b, z) :: t) x

/-- polynomial_rate_filter.py:131-134 with complex coefficients; `y` is an array of real type (line 117). -/
noncomputable def prate.innerC (b : List ℂ) (v : ℝ) : ℕ → ℝ → List ℂ × ℝ × ℕ
  | 0, index => ([], index, 0)
  | n + 1, index =>
    if index < 1 then
      let (ys, index', n') := prate.innerC b v n (index + v)
      (ElemType.real.store (np.polyval b (index : ℂ)) :: ys, index', n')
    else ([], index, n + 1)

/-- polynomial_rate_filter.py:128-136; `polyfit` is numpy.polyfit for complex data. -/
noncomputable def prate.outerC (polyfit : List ℂ → List ℂ) (v : ℝ) : ℕ → List ℂ → ℝ → ℕ → List ℂ
  | 0, _, _, _ => []
  | m + 1, xs, index, n =>
    let (ys, index', n') := if index < 1 then prate.innerC (polyfit (xs.take 4)) v n index else ([], index, n)
    ys ++ prate.outerC polyfit v m xs.tail (index' - 1) n'

/-- PolynomialRateFilter.filter (polynomial_rate_filter.py:93-138) for a complex array of one dimension. -/
noncomputable def PolyRate.filterC (polyfit : ℕ → List ℂ → List ℂ) (p : PolyRate) (x : List ℂ) : Res (List ℂ) :=
  if x.length < 2 then .error .valueError
  else
    let cc := x.length
    let jj := (np.round (cc * p.rate)).toNat
    if p.order = 1 then
      let x := x ++ [2 * x.getD (x.length - 1) 0 - x.getD (x.length - 2) 0]
      let u := np.linspace 0 ((x.length : ℝ) - 1) x.length
      let n := ⌊(x.length : ℝ) * p.rate + 0.5⌋.toNat
      let v := (np.linspace 0 ((n : ℝ) - 1) n).map (· / p.rate)
      let y := v.map (np.interpC (u.zip x))
      .ok (y.take (min jj y.length))
    else if p.rate = 0 then .error .zeroDivisionError
    else
      let x := [2 * x.getD 0 0 - x.getD 1 0] ++ x ++
        [2 * x.getD (x.length - 1) 0 - x.getD (x.length - 2) 0, 3 * x.getD (x.length - 1) 0 - 2 * x.getD (x.length - 2) 0]
      .ok (prate.outerC (polyfit p.order.toNat) (1 / p.rate) cc x 0 jj)

/-- WindowFilter.filter (window_filter.py:90-106) for a complex array of one dimension. -/
noncomputable def Window.filterC (w : Window) (x : List ℂ) : Res (List ℂ) :=
  if x.length ≠ w.b.length then .error .valueError else .ok (List.zipWith (fun (b : ℝ) (v : ℂ) => (b : ℂ) * v) w.b x)

/-- The local variables of PolyphaseRateFilter.filter for a complex signal; the state (polyphase_rate_filter.py:134) and the output (line 152) are
arrays of real type. -/
structure pp.StC where
  index : ℝ
  s : List ℝ
  xs : List ℂ
  y : List ℝ
  n : ℕ

/-- The inner loop (polyphase_rate_filter.py:163-167). -/
noncomputable def pp.innerC (rr : ℝ) : List ℂ → ℝ → List ℝ → List ℂ × ℝ × List ℝ
  | [], index, s => ([], index, s)
  | x :: xs, index, s => if index ≥ rr then pp.innerC rr xs (index - rr) (shiftRight (s.set 0 x.re)) else (x :: xs, index, s)

/-- One pass of the outer loop (polyphase_rate_filter.py:157-167). -/
noncomputable def pp.bodyC (B : List (List ℝ)) (rate : ℝ) (t : pp.StC) : Res Unit × pp.StC :=
  let emitted : Res Unit × pp.StC :=
    if t.index < B.length then
      let kk := min (np.round t.index) (B.length - 1)
      if rate = 0 then (.error .zeroDivisionError, t)
      else
        let t := { t with index := t.index + B.length / rate, s := t.s.set 0 (t.xs.headD 0).re }
        match np.row B kk with
        | .error e => (.error e, t)
        | .ok row => (.ok (), { t with y := t.y ++ [dot row t.s], n := t.n - 1 })
    else (.ok (), t)
  match emitted with
  | (.error e, t) => (.error e, t)
  | (.ok (), t) =>
    let (xs, index, s) := pp.innerC B.length t.xs t.index t.s
    (.ok (), { t with xs := xs, index := index, s := s })

/-- The outer loop (polyphase_rate_filter.py:156), with at most `fuel` passes. -/
noncomputable def pp.loopC (B : List (List ℝ)) (rate : ℝ) : ℕ → pp.StC → Res Unit × pp.StC
  | 0, t => (.ok (), t)
  | fuel + 1, t =>
    if !t.xs.isEmpty && decide (0 < t.n) then
      match pp.bodyC B rate t with
      | (.error e, t) => (.error e, t)
      | (.ok (), t) => pp.loopC B rate fuel t
    else (.ok (), t)

/-- PolyphaseRateFilter.filter (polyphase_rate_filter.py:136-168) for a complex signal. -/
noncomputable def Polyphase.filterC (B : List (List ℝ)) (p : Polyphase) (x : List ℂ) : Res (List ℝ) × Polyphase :=
  if x = [] then (.error .valueError, p)
  else
    match pp.loopC B p.rate (x.length + (np.round (x.length * p.rate)).toNat)
        { index := p.index, s := p.s, xs := x, y := [], n := (np.round (x.length * p.rate)).toNat } with
    | (.error e, t) => (.error e, { p with index := t.index, s := t.s })
    | (.ok (), t) => (.ok t.y, { p with index := t.index, s := t.s })

/-- `fir_filter[kk].s[:] = 0.0; fir_filter[kk].filter(l)` for `FirFilter(b=b)` with real `b` and a complex line (wavelet_transform.py:546, 551-552). -/
noncomputable def wav.firC (b : List ℝ) (l : List ℂ) : List ℂ :=
  match Fir.new ElemType.real.store (b.map fun v : ℝ => (v : ℂ)) none with
  | .error _ => []
  | .ok f => match (f.filter l).1 with
    | .error _ => []
    | .ok u => u

/-- Analysis of a complex line (wavelet_transform.py:550-553); `y` is a complex array. -/
noncomputable def wav.analyseC (b : List ℝ × List ℝ) (l : List ℂ) : List ℂ :=
  let odds := fun u : List ℂ => (List.range (u.length / 2)).map fun k => u.getD (2 * k + 1) 0
  odds (wav.firC b.1 l) ++ odds (wav.firC b.2 l)

/-- Synthesis of a complex line (wavelet_transform.py:573-578); `u` and `w` are arrays of real type, so the assignment to `u[::2]` keeps the real parts. -/
noncomputable def wav.synthesiseC (b : List ℝ × List ℝ) (l : List ℂ) : List ℂ :=
  let n := l.length
  (List.zipWith (· + ·) ((wav.fir b.1 (wav.up n ((l.take (n / 2)).map re))).map (2 * ·))
    ((wav.fir b.2 (wav.up n ((l.drop (n / 2)).map re))).map (2 * ·))).map fun v : ℝ => (v : ℂ)

/-- A complex array of two dimensions (wavelet_transform.py:536). -/
structure ArrC where
  rows : ℕ
  cols : ℕ
  val : ℕ → ℕ → ℂ

/-- As `wav.mapRows`, for complex arrays (wavelet_transform.py:549-554, 580-587). -/
def wav.mapRowsC (f : List ℂ → List ℂ) (rr cc : ℕ) (v : ℕ → ℕ → ℂ) : ℕ → ℕ → ℂ := fun i j =>
  if i < rr ∧ j < cc then (f ((List.range cc).map fun j => v i j)).getD j 0 else v i j

/-- As `wav.mapCols`, for complex arrays (wavelet_transform.py:556-560, 571-578). -/
def wav.mapColsC (f : List ℂ → List ℂ) (rr cc : ℕ) (v : ℕ → ℕ → ℂ) : ℕ → ℕ → ℂ := fun i j =>
  if i < rr ∧ j < cc then (f ((List.range rr).map fun i => v i j)).getD i 0 else v i j

/-- WaveletTransform.transform of a complex array (wavelet_transform.py:536-564), `inverse = False`, as `wav.forward`. -/
noncomputable def wav.forwardC (b : List ℝ × List ℝ) : ℕ → ArrC → Res ArrC
  | 0, _ => .error .valueError
  | count + 1, x =>
    if x.rows = 0 then .error .valueError
    else if wav.bad x.rows x.cols (count + 1) then .error .valueError
    else
      let rr := max (x.rows / 2 ^ (count + 1) * 2 ^ (count + 1)) 1
      let cc := max (x.cols / 2 ^ (count + 1) * 2 ^ (count + 1)) 1
      if x.cols = 0 ∧ rr > 1 then .error .indexError
      else
        let v := if cc > 1 then wav.mapRowsC (wav.analyseC b) rr cc x.val else x.val
        let y := if rr > 1 then wav.mapColsC (wav.analyseC b) rr cc v else v
        if count + 1 > 1 then
          let ii := max (rr / 2) 1
          let jj := max (cc / 2) 1
          match wav.forwardC b count { rows := min ii x.rows, cols := min jj x.cols, val := y } with
          | .error e => .error e
          | .ok r => .ok { x with val := fun i j => if i < ii ∧ j < jj then r.val i j else y i j }
        else .ok { x with val := y }

/-- The same with `inverse = True` (wavelet_transform.py:565-587). -/
noncomputable def wav.backwardC (b : List ℝ × List ℝ) : ℕ → ArrC → Res ArrC
  | 0, _ => .error .valueError
  | count + 1, x =>
    if x.rows = 0 then .error .valueError
    else if wav.bad x.rows x.cols (count + 1) then .error .valueError
    else
      let rr := max (x.rows / 2 ^ (count + 1) * 2 ^ (count + 1)) 1
      let cc := max (x.cols / 2 ^ (count + 1) * 2 ^ (count + 1)) 1
      if x.cols = 0 ∧ rr > 1 then .error .indexError
      else
        let inner : Res (ℕ → ℕ → ℂ) :=
          if count + 1 > 1 then
            let ii := max (rr / 2) 1
            let jj := max (cc / 2) 1
            match wav.backwardC b count { rows := min ii x.rows, cols := min jj x.cols, val := x.val } with
            | .error e => .error e
            | .ok r => .ok (fun i j => if i < ii ∧ j < jj then r.val i j else x.val i j)
          else .ok x.val
        match inner with
        | .error e => .error e
        | .ok y =>
          let y := if rr > 1 then wav.mapColsC (wav.synthesiseC b) rr cc y else y
          let y := if cc > 1 then wav.mapRowsC (wav.synthesiseC b) rr cc y else y
          .ok { x with val := y }

/-- WaveletTransform.transform (wavelet_transform.py:515-590) of a complex array of two dimensions. -/
noncomputable def Wavelet.transformC (w : Wavelet) (x : ArrC) (count : ℤ) (inverse : Bool) : Res ArrC :=
  if inverse then wav.backwardC w.synthesis count.toNat x else wav.forwardC w.analysis count.toNat x

end Verif
