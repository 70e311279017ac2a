import Verif.Model.Py

/-
Model of diamondback/filters/fir_filter.py, class FirFilter: explicit-coefficient construction, filter, reset.
(The design branch of the constructor is in Verif/Model/FirDesign.lean.)
-/

namespace Verif

/-- A FirFilter instance (fir_filter.py:103-122, 211).  `cast` is the conversion numpy applies when a value is stored in
an array of the dtype `type(b[0])`: the state is created with that dtype (line 211) and so is the output (line 258).
It is the identity for float and complex coefficient arrays and truncation for integer ones.
Simplification: `b` and `s` always hold numpy arrays (a list assigned through the setters would make `filter` raise
AttributeError), and the dtype of `y` and `s` is the one fixed at construction. -/
structure Fir (R : Type _) where
  cast : R → R
  b : List R
  s : List R

variable {R : Type _}

/-- `numpy.concatenate((v, numpy.zeros(n - len(v))))` when `len(v) < n` (fir_filter.py:206-209). -/
def padTo [Zero R] (n : Nat) (v : List R) : List R := v ++ List.replicate (n - v.length) 0

/-- FirFilter.__init__ with explicit coefficients `b` (fir_filter.py:156-159 and 200-211); `none` models the default
`None`.  An empty `b` goes to the design branch in the code (line 160); here the empty case stands for the check of
lines 202-203.  The conversion `numpy.array(s, type(b[0]))` of line 211 casts every given state value. -/
def Fir.new [Zero R] (cast : R → R) (b : List R) (s : Option (List R)) : Res (Fir R) :=
  let s := s.getD []
  if b.length = 0 then .error .valueError
  else
    let b' := if b.length < s.length then padTo s.length b else b
    let s' := if s.length < b'.length then padTo b'.length s else s
    .ok { cast := cast, b := b', s := s'.map cast }

/-- Body of the loop of FirFilter.filter (fir_filter.py:260-263).  `s[0] = x[ii]` raises IndexError on an empty state,
`b.dot(s)` raises ValueError when the lengths differ; by then the sample has been shifted in.  `self.b[0]` of line 258, which raises IndexError if an
empty array was assigned to `b`, comes before the loop; as the loop does not change `b` it is part of the body here. -/
def Fir.step [Dot R] (f : Fir R) (x : R) : Res R × Fir R :=
  if f.b.length = 0 then (.error .indexError, f) else
  let s1 := if f.s.length > 1 then shiftRight f.s else f.s
  match s1 with
  | [] => (.error .indexError, f)
  | _ :: t =>
    let f' := { f with s := f.cast x :: t }
    if f'.b.length = f'.s.length then (.ok (f'.cast (dot f'.b f'.s)), f') else (.error .valueError, f')

/-- FirFilter.filter (fir_filter.py:242-264).  `numpy.array(list(x))` of lines 254-255 is the identity on `List R`. -/
def Fir.filter [Dot R] (f : Fir R) (x : List R) : Res (List R) × Fir R :=
  if x.length = 0 then (.error .valueError, f) else runLoop Fir.step f x

/-- Argument of `reset`: numpy.isscalar distinguishes scalars from everything else (fir_filter.py:275, iir_filter.py:323). -/
inductive ResetArg (R : Type _) where
  | scalar (x : R)
  | nonScalar

/-- FirFilter.reset (fir_filter.py:266-277). -/
def Fir.reset (f : Fir R) : ResetArg R → Res Unit × Fir R
  | .nonScalar => (.error .valueError, f)
  | .scalar x => (.ok (), { f with s := f.s.map (fun _ => f.cast x) })

/-- FirFilter.b setter (fir_filter.py:112-114). -/
def Fir.setB (f : Fir R) (b : List R) : Fir R := { f with b := b }

/-- FirFilter.s setter (fir_filter.py:120-122). -/
def Fir.setS (f : Fir R) (s : List R) : Fir R := { f with s := s }

/-- One public call on an instance, for histories (fir_filter.py:242, 266). -/
inductive FirOp (R : Type _) where
  | filter (x : List R)
  | reset (a : ResetArg R)

/-- Apply one public call; the result of `reset` carries no samples (fir_filter.py:242-277). -/
def Fir.apply [Dot R] (f : Fir R) : FirOp R → Res (List R) × Fir R
  | .filter x => f.filter x
  | .reset a =>
    match f.reset a with
    | (.ok (), f') => (.ok [], f')
    | (.error e, f') => (.error e, f')

/-- Object after a history of public calls; exceptions are caught by the caller, who keeps using the object (fir_filter.py:242-277). -/
def Fir.after [Dot R] (f : Fir R) (ops : List (FirOp R)) : Fir R :=
  ops.foldl (fun g op => (g.apply op).2) f

/-- Call `filter` once per chunk and concatenate what is returned; stop at the first exception (the `filter` methods, such as fir_filter.py:242). -/
def callChunks {σ ι ο : Type _} (filt : σ → List ι → Res (List ο) × σ) : σ → List (List ι) → Res (List ο) × σ
  | st, [] => (.ok [], st)
  | st, c :: cs =>
    match filt st c with
    | (.error e, st') => (.error e, st')
    | (.ok ys, st') =>
      match callChunks filt st' cs with
      | (.error e, st'') => (.error e, st'')
      | (.ok zs, st'') => (.ok (ys ++ zs), st'')

end Verif
