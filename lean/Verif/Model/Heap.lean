import Verif.Model.Iir

/-
FirFilter and IirFilter once more, statement by statement on a heap of numpy arrays (diamondback/filters/fir_filter.py:200-277,
iir_filter.py:192-205 and 288-327).  An array is a place in the heap; objects hold places; `self.s[...] = ...` writes in place; `numpy.array`,
`numpy.concatenate` and `numpy.zeros` make new arrays.  Simplifications: one dimension; temporaries of an expression are not placed in the heap;
places are never collected; one conversion `cast` for each object as in `Fir`.
-/

namespace Verif

variable {R : Type _}

/-- The arrays which exist; the place of an array is its number (fir_filter.py:211, iir_filter.py:205). -/
abbrev Heap (R : Type _) := List (List R)

/-- Contents of an array (fir_filter.py:263, iir_filter.py:307, 310-311). -/
def Heap.read (h : Heap R) (l : Nat) : List R := h.getD l []

/-- Assignment to elements of an array, in place (fir_filter.py:261-263, 277, iir_filter.py:307-311, 326-327). -/
def Heap.store (h : Heap R) (l : Nat) (a : List R) : Heap R := h.set l a

/-- A new array (fir_filter.py:201, 205-211, 255, 258, iir_filter.py:193, 197, 199, 205). -/
def Heap.alloc (h : Heap R) (a : List R) : Nat × Heap R := (h.length, h ++ [a])

/-- An argument `list | numpy.ndarray` (fir_filter.py:132-133, 242, iir_filter.py:127-129, 288). -/
inductive Arg (R : Type _) where
  | list (v : List R)
  | array (l : Nat)

/-- Values of the argument (fir_filter.py:200-205, 254-255, iir_filter.py:192-193, 300-301). -/
def Arg.read (h : Heap R) : Arg R → List R
  | .list v => v
  | .array l => h.read l

/-- `if not isinstance(x, numpy.ndarray): x = numpy.array(list(x))` (fir_filter.py:200-201, 204-205, 254-255; iir_filter.py:192-193, 300-301). -/
def Arg.toArray (h : Heap R) : Arg R → Nat × Heap R
  | .list v => h.alloc v
  | .array l => (l, h)

/-- `if len(v) < n: v = numpy.concatenate((v, numpy.zeros(n - len(v))))` (fir_filter.py:206-209, iir_filter.py:196-197). -/
def Heap.pad [Zero R] (h : Heap R) (v : Nat) (n : Nat) : Nat × Heap R :=
  if (h.read v).length < n then h.alloc (padTo n (h.read v)) else (v, h)

/-- `for ii in range(0, n)`, from `ii` on (fir_filter.py:259, iir_filter.py:305). -/
def heapLoop (step : Heap R → Nat → Res Unit × Heap R) : Nat → Nat → Heap R → Res Unit × Heap R
  | _, 0, h => (.ok (), h)
  | ii, n + 1, h =>
    match step h ii with
    | (.error e, h) => (.error e, h)
    | (.ok (), h) => heapLoop step (ii + 1) n h

/-- A FirFilter instance (fir_filter.py:103-122): the fields `_b` and `_s` are references. -/
structure FirRef (R : Type _) where
  cast : R → R
  b : Nat
  s : Nat

/-- FirFilter.__init__ with explicit coefficients (fir_filter.py:200-211). -/
def FirRef.new [Zero R] (cast : R → R) (h : Heap R) (b : Arg R) (s : Option (Arg R)) : Res (FirRef R) × Heap R :=
  let b := b.toArray h
  if (b.2.read b.1).length = 0 then (.error .valueError, b.2)
  else
    let s := (s.getD (.list [])).toArray b.2
    let b := s.2.pad b.1 (s.2.read s.1).length
    let s := b.2.pad s.1 (b.2.read b.1).length
    let b' := s.2.alloc (s.2.read b.1)
    let s' := b'.2.alloc ((b'.2.read s.1).map cast)
    (.ok { cast := cast, b := b'.1, s := s'.1 }, s'.2)

/-- Body of the loop of FirFilter.filter (fir_filter.py:260-263), with `self.b[0]` of line 258 as in `Fir.step`. -/
def FirRef.step [Dot R] (f : FirRef R) (x y : Nat) (h : Heap R) (ii : Nat) : Res Unit × Heap R :=
  if (h.read f.b).length = 0 then (.error .indexError, h) else
  let h := if (h.read f.s).length > 1 then h.store f.s (shiftRight (h.read f.s)) else h
  match (h.read x)[ii]? with
  | none => (.error .indexError, h)
  | some v =>
    match h.read f.s with
    | [] => (.error .indexError, h)
    | _ :: t =>
      let h := h.store f.s (f.cast v :: t)
      if (h.read f.b).length = (h.read f.s).length then
        (.ok (), h.store y ((h.read y).set ii (f.cast (dot (h.read f.b) (h.read f.s)))))
      else (.error .valueError, h)

/-- FirFilter.filter (fir_filter.py:242-264); the result is a new array. -/
def FirRef.filter [Zero R] [Dot R] (f : FirRef R) (h : Heap R) (x : Arg R) : Res Nat × Heap R :=
  let x := x.toArray h
  if (x.2.read x.1).length = 0 then (.error .valueError, x.2)
  else
    let y := x.2.alloc (List.replicate (x.2.read x.1).length 0)
    match heapLoop (f.step x.1 y.1) 0 (x.2.read x.1).length y.2 with
    | (.error e, h) => (.error e, h)
    | (.ok (), h) => (.ok y.1, h)

/-- FirFilter.reset (fir_filter.py:266-277). -/
def FirRef.reset (f : FirRef R) (h : Heap R) : ResetArg R → Res Unit × Heap R
  | .nonScalar => (.error .valueError, h)
  | .scalar x => (.ok (), h.store f.s ((h.read f.s).map fun _ => f.cast x))

/-- An IirFilter instance (iir_filter.py:106-117). -/
structure IirRef (R : Type _) where
  cast : R → R
  a : Nat
  b : Nat
  s : Nat

/-- IirFilter.__init__ with explicit coefficients (iir_filter.py:192-205).  Lines 200-201 (conversion to complex) change no value and are omitted;
the array made there is a temporary. -/
def IirRef.new [Zero R] [DecidableEq R] (cast : R → R) (h : Heap R) (a b s : Option (Arg R)) : Res (IirRef R) × Heap R :=
  let a := a.getD (.list [])
  let b := b.getD (.list [])
  if (a.read h).length = 0 ∧ (b.read h).length = 0 then (.error .valueError, h)
  else
    let a := a.toArray h
    if (a.2.read a.1).length > 0 ∧ (a.2.read a.1).head? ≠ some 0 then (.error .valueError, a.2)
    else
      let a := a.2.pad a.1 (b.read a.2).length
      -- lines 198-199; `b` may still be a list
      let n := (a.2.read a.1).length
      let b : Arg R × Heap R :=
        if (b.read a.2).length < n then (.array (a.2.alloc (padTo n (b.read a.2))).1, (a.2.alloc (padTo n (b.read a.2))).2)
        else (b, a.2)
      if (b.2.read a.1).head? ≠ some 0 then (.error .valueError, b.2)
      else
        match FirRef.new cast b.2 b.1 s with
        | (.error e, h) => (.error e, h)
        | (.ok f, h) =>
          let a := h.alloc (h.read a.1)
          (.ok { cast := f.cast, a := a.1, b := f.b, s := f.s }, a.2)

/-- Body of the loop of IirFilter.filter (iir_filter.py:306-311), with `self.b[0]` of line 304 as in `Fir.step`. -/
def IirRef.step [Add R] [Mul R] [Dot R] (f : IirRef R) (x y : Nat) (h : Heap R) (ii : Nat) : Res Unit × Heap R :=
  if (h.read f.b).length = 0 then (.error .indexError, h) else
  let r : Res Unit × Heap R :=
    if (h.read f.s).length > 1 then
      if (h.read f.a).length = (h.read f.s).length then
        let h := h.store f.s ((h.read f.s).modifyHead fun s0 => f.cast (s0 + dot (h.read f.a) (h.read f.s)))
        (.ok (), h.store f.s (shiftRight (h.read f.s)))
      else (.error .valueError, h)
    else (.ok (), h)
  match r with
  | (.error e, h) => (.error e, h)
  | (.ok (), h) =>
    match (h.read x)[ii]? with
    | none => (.error .indexError, h)
    | some v =>
      match h.read f.s with
      | [] => (.error .indexError, h)
      | _ :: t =>
        let h := h.store f.s (f.cast v :: t)
        match h.read f.b with
        | [] => (.error .indexError, h)
        | b0 :: _ =>
          match bcAdd ((h.read f.a).map (· * b0)) (h.read f.b) with
          | .error e => (.error e, h)
          | .ok c =>
            if c.length = (h.read f.s).length then
              (.ok (), h.store y ((h.read y).set ii (f.cast (dot c (h.read f.s)))))
            else (.error .valueError, h)

/-- IirFilter.filter (iir_filter.py:288-312). -/
def IirRef.filter [Zero R] [Add R] [Mul R] [Dot R] (f : IirRef R) (h : Heap R) (x : Arg R) : Res Nat × Heap R :=
  let x := x.toArray h
  if (x.2.read x.1).length = 0 then (.error .valueError, x.2)
  else
    let y := x.2.alloc (List.replicate (x.2.read x.1).length 0)
    match heapLoop (f.step x.1 y.1) 0 (x.2.read x.1).length y.2 with
    | (.error e, h) => (.error e, h)
    | (.ok (), h) => (.ok y.1, h)

/-- IirFilter.reset (iir_filter.py:314-327), for equal lengths of `a` and `b` (see `Iir.reset`). -/
def IirRef.reset [Field R] (f : IirRef R) (h : Heap R) : ResetArg R → Res Unit × Heap R
  | .nonScalar => (.error .valueError, h)
  | .scalar x =>
    let h := if (h.read f.s).length > 1 then
        let b0 := (h.read f.b).headD 0
        let c := List.zipWith (· + ·) ((h.read f.a).tail.map (· * b0)) (h.read f.b).tail
        h.store f.s ((h.read f.s).take 1 ++ ((h.read f.s).drop 1).map fun _ => f.cast (x * (1 - b0) / c.sum))
      else h
    match h.read f.s with
    | [] => (.error .indexError, h)
    | _ :: t => (.ok (), h.store f.s (f.cast x :: t))

end Verif
