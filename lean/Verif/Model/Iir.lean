import Verif.Model.Fir
import Mathlib.Algebra.Field.Defs
import Mathlib.Algebra.BigOperators.Group.List.Basic

/-
Model of diamondback/filters/iir_filter.py, class IirFilter: explicit-coefficient construction, filter, reset.
(The design branch of the constructor is in Verif/Model/IirDesign.lean.)
-/

namespace Verif

variable {R : Type _}

/-- An IirFilter instance (iir_filter.py:106-117, 204-205), which extends FirFilter by the recursive coefficients `a`.
`cast` as in `Fir`. -/
structure Iir (R : Type _) where
  cast : R → R
  a : List R
  b : List R
  s : List R

/-- IirFilter.__init__ with explicit coefficients (iir_filter.py:153-158 and 192-205).  When both `a` and `b` are empty
the code enters the design branch; the empty case here stands for the rejection of the default style "" (line 161).
`cast` is the conversion to the dtype of the padded `b`.  The dtype promotion to complex (lines 200-201) changes no
value. -/
def Iir.new [Zero R] [DecidableEq R] (cast : R → R) (a b : Option (List R)) (s : Option (List R)) : Res (Iir R) :=
  let a := a.getD []
  let b := b.getD []
  if a.length = 0 ∧ b.length = 0 then .error .valueError
  else
    -- lines 194-195: `if (len(a) > 0) and (a[0])`
    if a.length > 0 ∧ a.head? ≠ some 0 then .error .valueError
    else
      let a' := if a.length < b.length then padTo b.length a else a
      let b' := if b.length < a'.length then padTo a'.length b else b
      -- lines 202-203
      if a'.head? ≠ some 0 then .error .valueError
      else
        match Fir.new cast b' s with
        | .error e => .error e
        | .ok f => .ok { cast := f.cast, a := a', b := f.b, s := f.s }

/-- numpy addition of 1-D arrays with broadcasting (used by iir_filter.py:310, `self.a * self.b[0] + self.b`). -/
def bcAdd [Add R] (u v : List R) : Res (List R) :=
  if u.length = v.length then .ok (List.zipWith (· + ·) u v)
  else
    match u, v with
    | [u0], v => .ok (v.map (u0 + ·))
    | u, [v0] => .ok (u.map (· + v0))
    | _, _ => .error .valueError

/-- Body of the loop of IirFilter.filter (iir_filter.py:306-311), with `self.b[0]` of line 304 as in `Fir.step`. -/
def Iir.step [Add R] [Mul R] [Dot R] (f : Iir R) (x : R) : Res R × Iir R :=
  if f.b.length = 0 then (.error .indexError, f) else
  -- lines 306-308; on failure `a.dot(s)` raises before anything is stored
  let s1 : Res (List R) :=
    if f.s.length > 1 then
      if f.a.length = f.s.length then .ok (shiftRight (f.s.modifyHead (fun s0 => f.cast (s0 + dot f.a f.s))))
      else .error .valueError
    else .ok f.s
  match s1 with
  | .error e => (.error e, f)
  | .ok [] => (.error .indexError, f)
  | .ok (_ :: t) =>
    let f' := { f with s := f.cast x :: t }
    match f.b with
    | [] => (.error .indexError, f')
    | b0 :: _ =>
      match bcAdd (f.a.map (· * b0)) f.b with
      | .error e => (.error e, f')
      | .ok c =>
        if c.length = f'.s.length then (.ok (f.cast (dot c f'.s)), f') else (.error .valueError, f')

/-- IirFilter.filter (iir_filter.py:288-312). -/
def Iir.filter [Add R] [Mul R] [Dot R] (f : Iir R) (x : List R) : Res (List R) × Iir R :=
  if x.length = 0 then (.error .valueError, f) else runLoop Iir.step f x

/-- IirFilter.reset (iir_filter.py:314-327), for equal lengths of `a` and `b`.  Simplification: numpy division by a zero
sum yields inf/nan with a warning, the field division used here yields zero; the theorems exclude that case. -/
def Iir.reset [Field R] (f : Iir R) : ResetArg R → Res Unit × Iir R
  | .nonScalar => (.error .valueError, f)
  | .scalar x =>
    match f.s with
    | [] => (.error .indexError, f)
    | _ :: t =>
      let b0 := f.b.headD 0
      let c := List.zipWith (· + ·) (f.a.tail.map (· * b0)) f.b.tail
      (.ok (), { f with s := f.cast x :: t.map (fun _ => f.cast (x * (1 - b0) / c.sum)) })

/-- One public call on an instance, for histories (iir_filter.py:288, 314). -/
inductive IirOp (R : Type _) where
  | filter (x : List R)
  | reset (a : ResetArg R)

/-- Apply one public call (iir_filter.py:288-327). -/
def Iir.apply [Field R] [Dot R] (f : Iir R) : IirOp R → Res (List R) × Iir R
  | .filter x => f.filter x
  | .reset a =>
    match f.reset a with
    | (.ok (), f') => (.ok [], f')
    | (.error e, f') => (.error e, f')

/-- Object after a history of public calls (iir_filter.py:288-327). -/
def Iir.after [Field R] [Dot R] (f : Iir R) (ops : List (IirOp R)) : Iir R :=
  ops.foldl (fun g op => (g.apply op).2) f

end Verif
