import Verif.Model.Log

/-
Specification of Log: what the documentation promises, without handlers.  The state is the table of levels, the current level, the current stream, and what was written to streams by Log's handler.
`upper`, `entryText` and the types of the arguments are those of the model.
-/

namespace Verif.Spec

open Verif

/-- Events: the calls of Log, and direct uses of loguru by the application. -/
inductive LogEvent where
  | level (l : Option Text)
  | stream (st : StreamArg)
  | write (l : Option Text) (e : Entry) (frames : List (Text × ℕ))
  | take
  | insert (h : Handler)
  | remove (id : ℕ)
  | define (n : Text) (no : ℕ)
  | log (no : ℕ) (text : Text)

/-- The stream of Log: not yet chosen, or chosen, with the identity of the handler and whether it is still there. -/
inductive Current where
  | lazy
  | at (id sink : ℕ) (live : Bool)

/-- The state of the specification; `taken` counts identities. -/
structure Ideal where
  levels : Text → Option ℕ
  threshold : ℕ
  taken : ℕ
  current : Current
  written : List (ℕ × Text)

/-- After import. -/
def Ideal.init : Ideal := { levels := fun n => loguru.levels.lookup n, threshold := 20, taken := 1, current := .lazy, written := [] }

/-- The current stream is lost, unless none was chosen. -/
def Current.drop : Current → Current
  | .lazy => .lazy
  | .at id sink _ => .at id sink false

/-- Something written by Log's handler, if there is one. -/
def Ideal.put (a : Ideal) (text : Text) : Ideal :=
  match a.current with
  | .at _ sink true => { a with written := a.written ++ [(sink, text)] }
  | _ => a

/-- A new stream. -/
def Ideal.stream (a : Ideal) (st : StreamArg) : Ideal × Res Unit :=
  if st.truthy = false ∨ st.hasWrite = false then (a, .error .valueError)
  else if st.callable = false then ({ a with taken := a.taken + 1, current := a.current.drop }, .error .typeError)
  else ({ a with taken := a.taken + 1, current := .at a.taken st.sink true }, .ok ())

/-- An entry, once a stream was chosen: written exactly if its level is at least the current one. -/
def Ideal.entry (a : Ideal) (l : Option Text) (e : Entry) (frames : List (Text × ℕ)) : Ideal × Res Unit :=
  match l.bind fun l => a.levels (upper l) with
  | none => (a, .error .valueError)
  | some no =>
    if a.threshold ≤ no then
      match entryText e frames with
      | .error x => (a, .error x)
      | .ok text => (a.put text, .ok ())
    else (a, .ok ())

/-- One event. -/
def Ideal.step (stdout : StreamArg) (a : Ideal) : LogEvent → Ideal × Res Unit
  | .level l =>
    match l.bind fun l => a.levels (upper l) with
    | none => (a, .error .valueError)
    | some no => ({ a with threshold := no }, .ok ())
  | .stream st => a.stream st
  | .write l e frames =>
    match a.current with
    | .at _ _ _ => a.entry l e frames
    | .lazy =>
      match a.stream stdout with
      | (a', .error x) => (a', .error x)
      | (a', .ok ()) => a'.entry l e frames
  | .take => ({ a with taken := a.taken + 1 }, .ok ())
  | .insert _ => (a, .ok ())
  | .remove id =>
    match a.current with
    | .at id' sink live => ({ a with current := .at id' sink (live && id ≠ id') }, .ok ())
    | .lazy => (a, .ok ())
  | .define n no => (if a.levels n = none then { a with levels := fun m => if m = n then some no else a.levels m } else a, .ok ())
  | .log _ text => (a.put text, .ok ())

/-- All events of a history: the last state, and the results. -/
def Ideal.run (stdout : StreamArg) (a : Ideal) (events : List LogEvent) : Ideal × List (Res Unit) :=
  events.foldl (fun r e => ((r.1.step stdout e).1, r.2 ++ [(r.1.step stdout e).2])) (a, [])

end Verif.Spec
