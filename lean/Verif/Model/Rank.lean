import Verif.Model.Fir

/-
Model of diamondback/filters/rank_filter.py, class RankFilter.
-/

namespace Verif

/-- A RankFilter instance (rank_filter.py:42-67).  The forward coefficients (`ones(order+1)/(order+1)`, line 66) are
never used by `filter` and are omitted. -/
structure Rank (R : Type _) where
  s : List R
  index : Int

variable {R K : Type _}

/-- RankFilter.__init__ (rank_filter.py:55-67).  The FirFilter constructor creates a zero state of the length of `b`
(fir_filter.py:208-211). -/
def Rank.new [Zero R] (index order : Int) : Res (Rank R) :=
  if index < 0 ∨ index > order then .error .valueError
  else .ok { s := List.replicate (order + 1).toNat 0, index := index }

/-- RankFilter.index setter (rank_filter.py:49-53). -/
def Rank.setIndex (f : Rank R) (index : Int) : Res Unit × Rank R :=
  if index < 0 ∨ index > (f.s.length : Int) - 1 then (.error .valueError, f)
  else (.ok (), { f with index := index })

/-- Python indexing `l[i]` of a sequence by an int: negative indices count from the end (rank_filter.py:88). -/
def pyGet (l : List R) (i : Int) : Res R :=
  let j := if i < 0 then i + l.length else i
  if j < 0 then .error .indexError
  else match l[j.toNat]? with
    | some v => .ok v
    | none => .error .indexError

/-- Body of the loop of RankFilter.filter (rank_filter.py:86-90).  `argsort` is numpy.argsort, whose default quicksort is
not stable: it is a parameter, constrained in the theorems to return *some* sorting permutation.  `key` is `abs`.
Simplification: the sample and the result have the type of the state; conversions are added by `Rank.filterAs`. -/
def Rank.step (argsort : List K → List Nat) (key : R → K) (f : Rank R) (x : R) : Res R × Rank R :=
  match f.s with
  | [] => (.error .indexError, f)
  | _ :: t =>
    let s := x :: t
    let sorted := (argsort (s.map key)).filterMap (fun i => s[i]?)
    match pyGet sorted f.index with
    | .error e => (.error e, { f with s := s })
    | .ok y => (.ok y, { f with s := if s.length > 1 then shiftRight s else s })

/-- RankFilter.filter (rank_filter.py:69-91). -/
def Rank.filter (argsort : List K → List Nat) (key : R → K) (f : Rank R) (x : List R) : Res (List R) × Rank R :=
  if x.length = 0 then (.error .valueError, f) else runLoop (Rank.step argsort key) f x

/-- RankFilter.filter (rank_filter.py:69-91) with the conversions of numpy: `store` when a sample is stored in the float state (line 87; the real part
of a complex sample, with a warning), `out` when an element of the state is stored in `y`, which has the type of the samples (lines 85 and 88;
truncation for an integer signal).  Nothing is read back from `y`. -/
def Rank.filterAs (store out : R → R) (argsort : List K → List Nat) (key : R → K) (f : Rank R) (x : List R) : Res (List R) × Rank R :=
  match f.filter argsort key (x.map store) with
  | (.error e, f') => (.error e, f')
  | (.ok y, f') => (.ok (y.map out), f')

/-- reset, inherited from FirFilter (fir_filter.py:266-277). -/
def Rank.reset (f : Rank R) : ResetArg R → Res Unit × Rank R
  | .nonScalar => (.error .valueError, f)
  | .scalar x => (.ok (), { f with s := f.s.map (fun _ => x) })

/-- One public call (rank_filter.py:50, 69, fir_filter.py:121, 266). -/
inductive RankOp (R : Type _) where
  | filter (x : List R)
  | reset (a : ResetArg R)
  | setIndex (i : Int)

/-- Apply one public call; only the object afterwards matters here (rank_filter.py:49-53, 69-91, fir_filter.py:120-122, 266-277). -/
def Rank.apply (argsort : List K → List Nat) (key : R → K) (f : Rank R) : RankOp R → Rank R
  | .filter x => (f.filter argsort key x).2
  | .reset a => (f.reset a).2
  | .setIndex i => (f.setIndex i).2

/-- Object after a history of calls (rank_filter.py:49-53, 69-91, fir_filter.py:120-122, 266-277). -/
def Rank.after (argsort : List K → List Nat) (key : R → K) (f : Rank R) (ops : List (RankOp R)) : Rank R :=
  ops.foldl (Rank.apply argsort key) f

end Verif
