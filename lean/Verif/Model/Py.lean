/-
Python/numpy vocabulary shared by all models: exceptions as values, the sample loop, array shifting.
-/

namespace Verif

/-- Python exceptions raised by the modelled code.  Messages are not modelled (raised at places such as fir_filter.py:257, gaussian_model.py:79,
gaussian_mixture_model.py:140). -/
inductive PyErr where
  | valueError
  | typeError
  | indexError
  | zeroDivisionError
  | runtimeError
  | other
  deriving DecidableEq, Repr

/-- Result of a Python call: a value or an exception (every `raise`, such as fir_filter.py:257). -/
abbrev Res (α : Type _) := Except PyErr α

/-- The recurring loop `for ii in range(0, len(x)): ...; y[ii] = ...` of the `filter` methods
(e.g. diamondback/filters/fir_filter.py:259-263): run `step` on every sample, collect the outputs; an exception
stops the loop and leaves the object as it is at that moment. -/
def runLoop {σ : Type _} {ι : Type _} {ο : Type _} (step : σ → ι → Res ο × σ) :
    σ → List ι → Res (List ο) × σ
  | st, [] => (.ok [], st)
  | st, x :: xs =>
    match step st x with
    | (.error e, st') => (.error e, st')
    | (.ok y, st') =>
      match runLoop step st' xs with
      | (.error e, st'') => (.error e, st'')
      | (.ok ys, st'') => (.ok (y :: ys), st'')

/-- `s[1:] = s[:-1]` (diamondback/filters/fir_filter.py:261): every element moves one place to the right, the last
one is lost, `s[0]` keeps its value.  numpy handles the overlap as if the right side were copied first. -/
def shiftRight {R : Type _} : List R → List R
  | [] => []
  | a :: t => a :: (a :: t).dropLast

/-- numpy's 1-D `dot` as an uninterpreted operation: the order of summation and the rounding are not fixed (fir_filter.py:263, iir_filter.py:307,
311, polyphase_rate_filter.py:161). -/
class Dot (R : Type _) where
  dot : List R → List R → R

export Dot (dot)

end Verif
