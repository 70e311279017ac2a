import Verif.Model.Heap
import Verif.Model.Threads

/-
FirFilter and IirFilter in a program of several threads (diamondback/filters/fir_filter.py:242-277, iir_filter.py:288-327).  A call is a program of
atomic steps on the arrays of the process, one step for each statement which changes an array; between two steps any other thread may run.
Simplifications: as in Verif/Model/Heap.lean; the array which `filter` returns has a place `y` of its own from the beginning; an augmented
assignment such as line 307 is one step.  Finer steps would make no difference where C123 finds that threads do not interfere.
-/

namespace Verif

variable {R : Type}

/-- The arrays of the process, by their places (fir_filter.py:211, 258). -/
abbrev Arrays (R : Type) := ℕ → List R

/-- A step which gives the array at `l` new contents (fir_filter.py:261-263, 277, iir_filter.py:307-311, 326-327). -/
def assign (l : ℕ) (v : Arrays R → List R) (k : Arrays R → Prog (Arrays R) (Res Unit)) : Prog (Arrays R) (Res Unit) :=
  .act (fun s => Function.update s l (v s)) k

/-- The loop of FirFilter.filter from `ii` on (fir_filter.py:259-263). -/
def FirRef.loop [Dot R] (f : FirRef R) (x y : ℕ) : ℕ → ℕ → Prog (Arrays R) (Res Unit)
  | _, 0 => .ret (.ok ())
  | ii, n + 1 =>
    -- lines 260-261
    assign f.s (fun s => if (s f.s).length > 1 then shiftRight (s f.s) else s f.s) fun _ =>
    -- line 262
    assign f.s (fun s => match (s x)[ii]? with | some v => (s f.s).modifyHead fun _ => f.cast v | none => s f.s) fun s =>
    if (s x)[ii]?.isNone ∨ (s f.s).length = 0 then .ret (.error .indexError)
    else
    -- line 263
    assign y (fun s => if (s f.b).length = (s f.s).length then (s y).set ii (f.cast (dot (s f.b) (s f.s))) else s y) fun s =>
    if (s f.b).length = (s f.s).length then FirRef.loop f x y (ii + 1) n else .ret (.error .valueError)

/-- FirFilter.filter (fir_filter.py:256-264). -/
def FirRef.call [Zero R] [Dot R] (f : FirRef R) (x y : ℕ) : Prog (Arrays R) (Res Unit) :=
  assign y (fun s => if (s x).length = 0 ∨ (s f.b).length = 0 then s y else List.replicate (s x).length 0) fun s =>
  if (s x).length = 0 then .ret (.error .valueError)
  else if (s f.b).length = 0 then .ret (.error .indexError)
  else f.loop x y 0 (s x).length

/-- FirFilter.reset (fir_filter.py:275-277). -/
def FirRef.callReset (f : FirRef R) : ResetArg R → Prog (Arrays R) (Res Unit)
  | .nonScalar => .ret (.error .valueError)
  | .scalar v => assign f.s (fun s => (s f.s).map fun _ => f.cast v) fun _ => .ret (.ok ())

/-- The loop of IirFilter.filter from `ii` on (iir_filter.py:305-311). -/
def IirRef.loop [Add R] [Mul R] [Dot R] (f : IirRef R) (x y : ℕ) : ℕ → ℕ → Prog (Arrays R) (Res Unit)
  | _, 0 => .ret (.ok ())
  | ii, n + 1 =>
    -- lines 306-307
    assign f.s (fun s => if (s f.s).length > 1 ∧ (s f.a).length = (s f.s).length then (s f.s).modifyHead (fun v => f.cast (v + dot (s f.a) (s f.s))) else s f.s) fun s =>
    if (s f.s).length > 1 ∧ (s f.a).length ≠ (s f.s).length then .ret (.error .valueError)
    else
    -- line 308
    assign f.s (fun s => if (s f.s).length > 1 then shiftRight (s f.s) else s f.s) fun _ =>
    -- line 309
    assign f.s (fun s => match (s x)[ii]? with | some v => (s f.s).modifyHead fun _ => f.cast v | none => s f.s) fun s =>
    if (s x)[ii]?.isNone ∨ (s f.s).length = 0 then .ret (.error .indexError)
    else
    -- lines 310-311
    assign y (fun s =>
      match (s f.b).head? with
      | none => s y
      | some b0 =>
        match bcAdd ((s f.a).map (· * b0)) (s f.b) with
        | .error _ => s y
        | .ok c => if c.length = (s f.s).length then (s y).set ii (f.cast (dot c (s f.s))) else s y) fun s =>
    match (s f.b).head? with
    | none => .ret (.error .indexError)
    | some b0 =>
      match bcAdd ((s f.a).map (· * b0)) (s f.b) with
      | .error e => .ret (.error e)
      | .ok c => if c.length = (s f.s).length then IirRef.loop f x y (ii + 1) n else .ret (.error .valueError)

/-- IirFilter.filter (iir_filter.py:302-312). -/
def IirRef.call [Zero R] [Add R] [Mul R] [Dot R] (f : IirRef R) (x y : ℕ) : Prog (Arrays R) (Res Unit) :=
  assign y (fun s => if (s x).length = 0 ∨ (s f.b).length = 0 then s y else List.replicate (s x).length 0) fun s =>
  if (s x).length = 0 then .ret (.error .valueError)
  else if (s f.b).length = 0 then .ret (.error .indexError)
  else f.loop x y 0 (s x).length

/-- `with lock:` around a call, by the caller (no counterpart in /repo: fir_filter.py and iir_filter.py take no lock). -/
def Prog.release {S Q : Type} : Prog S Q → Prog S Q
  | .ret r => .rel (.ret r)
  | .act f k => .act f fun s => (k s).release
  | .acq k => .acq k.release
  | .rel k => .rel k.release

/-- `with lock:` around a call, by the caller (no counterpart in /repo: fir_filter.py and iir_filter.py take no lock). -/
def Prog.locked {S Q : Type} (p : Prog S Q) : Prog S Q := .acq p.release

end Verif
