import Verif.Model.Fir
import Verif.Model.Iir
import Verif.Model.Rank
import Verif.Model.Pid
import Verif.Model.Goertzel
import Verif.Model.Adaptive
import Verif.Model.Polyphase
import Verif.Model.RateRounded

/-!
Calls of `filter` with a sample which numpy refuses to store as a number, for instance a row of a two dimensional array (ValueError), `None` (TypeError) or a
text which is no number (ValueError).  No filter looks for such samples before its loop, so the exception leaves the instance as it is at that moment.

`x` is the list of the samples before the refused one and `e` the exception raised by the store.  Where the whole signal is looked at before the loop
(GoertzelFilter, the complex filters, PolyphaseRateFilter) only two dimensional arrays with `n` rows are modelled.

Simplifications.  A row of a two dimensional array has at least two elements; numpy stores a row with one element, with a warning.
-/

namespace Verif

variable {R K F : Type _}

/-- The loop with a refused sample after the samples `x`: `refuse` is the state which the exception leaves (fir_filter.py:259-263,
iir_filter.py:305-311, rank_filter.py:86-90). -/
def refuseAfter {σ ι ο : Type _} (step : σ → ι → Res ο × σ) (refuse : σ → PyErr × σ) (st : σ) (x : List ι) : Res (List ο) × σ :=
  match runLoop step st x with
  | (.error e, st') => (.error e, st')
  | (.ok _, st') => (.error (refuse st').1, (refuse st').2)

/-- fir_filter.py:260-262: the state is shifted before the store, which finds no element if the state is empty. -/
def Fir.refuse (e : PyErr) (f : Fir R) : PyErr × Fir R :=
  let s := if f.s.length > 1 then shiftRight f.s else f.s
  (if s.length = 0 then .indexError else e, { f with s := s })

/-- FirFilter.filter (fir_filter.py:242-264); also of DerivativeFilter and IntegralFilter. -/
def Fir.filterBad [Dot R] (e : PyErr) (f : Fir R) (x : List R) : Res (List R) × Fir R :=
  if f.b.length = 0 then (.error .indexError, f) else refuseAfter Fir.step (Fir.refuse e) f x

/-- iir_filter.py:306-309: the recursion and the shift precede the store. -/
def Iir.refuse [Add R] [Dot R] (e : PyErr) (f : Iir R) : PyErr × Iir R :=
  if f.s.length > 1 then
    if f.a.length = f.s.length then (e, { f with s := shiftRight (f.s.modifyHead (fun s0 => f.cast (s0 + dot f.a f.s))) })
    else (.valueError, f)
  else (if f.s.length = 0 then .indexError else e, f)

/-- IirFilter.filter (iir_filter.py:288-312). -/
def Iir.filterBad [Add R] [Mul R] [Dot R] (e : PyErr) (f : Iir R) (x : List R) : Res (List R) × Iir R :=
  if f.b.length = 0 then (.error .indexError, f) else refuseAfter Iir.step (Iir.refuse e) f x

/-- RankFilter.filter (rank_filter.py:69-91): the store comes first (line 87). -/
def Rank.filterBad (e : PyErr) (argsort : List K → List Nat) (key : R → K) (f : Rank R) (x : List R) : Res (List R) × Rank R :=
  refuseAfter (Rank.step argsort key) (fun f => (if f.s.length = 0 then .indexError else e, f)) f x

/-- PidFilter.filter (pid_filter.py:66-89): the difference is computed and stored first (line 84). -/
def Pid.filterBad [Add R] [Sub R] [Dot R] [LT K] [DecidableLT K] [IsNan K] (e : PyErr) (mag : R → K) (f : Pid R K) (x : List R) : Res (List R) × Pid R K :=
  refuseAfter (Pid.step mag) (fun f => (e, f)) f x

/-- GoertzelFilter.filter (goertzel_filter.py:98-127) of `n` rows: line 118 passes the first row to IirFilter.filter. -/
def Goertzel.filterRows [Add R] [Dot R] (g : Goertzel R F) (n : ℕ) : Res (List R) × Goertzel R F :=
  if n = 0 then (.error .valueError, g)
  else match g.w[g.index]? with
    | none => (.error .indexError, g)
    | some _ => (.error (g.iir.refuse .valueError).1, { g with iir := (g.iir.refuse .valueError).2 })

/-- PolyphaseRateFilter.filter (polyphase_rate_filter.py:136-168) of `n` rows: lines 157-161 or line 164. -/
noncomputable def Polyphase.filterRows (B : List (List ℝ)) (p : Polyphase) (n : ℕ) : Res (List ℝ) × Polyphase :=
  if n = 0 then (.error .valueError, p)
  else if (np.round (n * p.rate)).toNat = 0 then (.ok [], p)
  else if p.index < B.length then
    if p.rate = 0 then (.error .zeroDivisionError, p) else (.error .valueError, { p with index := p.index + B.length / p.rate })
  else (.error .valueError, p)

/-- The local variable `phase` of ComplexExponentialFilter.filter: a number, or a row of numbers after `phase += x[ii]` with a row
(complex_exponential_filter.py:88). -/
inductive CExp.Phase where
  | number (v : ℝ)
  | row

/-- Lines 86-88 of complex_exponential_filter.py for `n` rows: the exponential of a row is a row, which cannot be stored. -/
def CExp.rowsLoop : ℕ → CExp.Phase → Res CExp.Phase
  | 0, phase => .ok phase
  | n + 1, .number _ => CExp.rowsLoop n .row
  | _ + 1, .row => .error .valueError

/-- ComplexExponentialFilter.filter (complex_exponential_filter.py:68-93) of `n` rows, `large` if one of the numbers is above 1 in magnitude (line 82).  The
condition of line 90 has no truth value for a row. -/
noncomputable def CExp.filterRows (f : CExp) (large : Bool) (n : ℕ) : Res Unit × CExp :=
  if n = 0 ∨ large then (.error .valueError, f)
  else
    match CExp.rowsLoop n (.number f.phase) with
    | .error e => (.error e, f)
    | .ok .row => (.error .valueError, f)
    | .ok (.number v) =>
      match f.setPhase (wrapPhase v) with
      | (.error e, f') => (.error e, f')
      | (.ok (), f') => (.ok (), f')

/-- ComplexBandpassFilter.filter (complex_bandpass_filter.py:98-133) of `n` rows: line 122 moves the oscillator, line 130 raises. -/
noncomputable def Bandpass.filterRows (f : Bandpass) (n : ℕ) : Res (List (ℂ × ℂ × ℂ)) × Bandpass :=
  if n = 0 then (.error .valueError, f)
  else match f.osc.filter (List.replicate n f.frequency) with
    | (.error e, osc') => (.error e, { f with osc := osc' })
    | (.ok _, osc') => (.error .valueError, { f with osc := osc' })

/-- ComplexFrequencyFilter.filter (complex_frequency_filter.py:101-139) of `n` rows: the row is used in line 135, before anything is assigned. -/
noncomputable def FreqF.filterRows (f : FreqF) (n : ℕ) : Res (List (ℝ × ℂ × ℂ)) × FreqF :=
  if n = 0 then (.error .valueError, f) else refuseAfter FreqF.step (fun f => (.valueError, f)) f []

end Verif
