import Verif.Model.Heap

/-
A caller with several filters and several arrays.  `Cmd` is what the caller does with arrays; `VCmd` is the same with the values in place of
the arrays, as a reader of the documentation would understand it: an object is a pair (class, values of its attributes) and nothing else exists.
-/

namespace Verif.Spec

variable {R : Type _}

/-- An object with references. -/
inductive Obj (R : Type _) where
  | fir (f : FirRef R)
  | iir (f : IirRef R)

/-- An object with values. -/
inductive VObj (R : Type _) where
  | fir (f : Fir R)
  | iir (f : Iir R)

/-- The array which holds the state. -/
def Obj.state : Obj R → Nat
  | .fir f => f.s
  | .iir f => f.s

/-- The arrays which hold coefficients. -/
def Obj.coefs : Obj R → List Nat
  | .fir f => [f.b]
  | .iir f => [f.a, f.b]

/-- The values of an object with references. -/
def Obj.value (h : Heap R) : Obj R → VObj R
  | .fir f => .fir { cast := f.cast, b := h.read f.b, s := h.read f.s }
  | .iir f => .iir { cast := f.cast, a := h.read f.a, b := h.read f.b, s := h.read f.s }

/-- Arrays and objects which exist. -/
structure World (R : Type _) where
  heap : Heap R
  objs : List (Obj R)

/-- What a caller does: construct a filter, call a filter, change an array, make an array. -/
inductive Cmd (R : Type _) where
  | newFir (cast : R → R) (b : Arg R) (s : Option (Arg R))
  | newIir (cast : R → R) (a b s : Option (Arg R))
  | filter (i : Nat) (x : Arg R)
  | reset (i : Nat) (x : ResetArg R)
  | write (l : Nat) (v : List R)
  | make (v : List R)

/-- The same without arrays. -/
inductive VCmd (R : Type _) where
  | newFir (cast : R → R) (b : List R) (s : Option (List R))
  | newIir (cast : R → R) (a b s : Option (List R))
  | filter (i : Nat) (x : List R)
  | reset (i : Nat) (x : ResetArg R)
  | none

/-- The values which the arguments have when the command is given. -/
def Cmd.value (h : Heap R) : Cmd R → VCmd R
  | .newFir c b s => .newFir c (b.read h) (s.map fun a => a.read h)
  | .newIir c a b s => .newIir c (a.map fun a => a.read h) (b.map fun a => a.read h) (s.map fun a => a.read h)
  | .filter i x => .filter i (x.read h)
  | .reset i x => .reset i x
  | .write _ _ => .none
  | .make _ => .none

variable [Field R] [Dot R] [DecidableEq R]

/-- `o.filter(x)` with arrays: the place of the result. -/
def Obj.filter (o : Obj R) (h : Heap R) (x : Arg R) : Res Nat × Heap R :=
  match o with
  | .fir f => f.filter h x
  | .iir f => f.filter h x

/-- `o.reset(x)` with arrays. -/
def Obj.reset (o : Obj R) (h : Heap R) (x : ResetArg R) : Res Unit × Heap R :=
  match o with
  | .fir f => f.reset h x
  | .iir f => f.reset h x

/-- `o.filter(x)` with values. -/
def VObj.filter (o : VObj R) (x : List R) : Res (List R) × VObj R :=
  match o with
  | .fir f => ((f.filter x).1, .fir (f.filter x).2)
  | .iir f => ((f.filter x).1, .iir (f.filter x).2)

/-- `o.reset(x)` with values. -/
def VObj.reset (o : VObj R) (x : ResetArg R) : Res Unit × VObj R :=
  match o with
  | .fir f => ((f.reset x).1, .fir (f.reset x).2)
  | .iir f => ((f.reset x).1, .iir (f.reset x).2)

/-- One command with arrays.  The result is the array which `filter` returns. -/
def World.exec (w : World R) : Cmd R → Res (Option Nat) × World R
  | .newFir c b s =>
    match FirRef.new c w.heap b s with
    | (.ok f, h) => (.ok none, ⟨h, w.objs ++ [.fir f]⟩)
    | (.error e, h) => (.error e, ⟨h, w.objs⟩)
  | .newIir c a b s =>
    match IirRef.new c w.heap a b s with
    | (.ok f, h) => (.ok none, ⟨h, w.objs ++ [.iir f]⟩)
    | (.error e, h) => (.error e, ⟨h, w.objs⟩)
  | .filter i x =>
    match w.objs[i]? with
    | none => (.ok none, w)
    | some o => ((o.filter w.heap x).1.map some, ⟨(o.filter w.heap x).2, w.objs⟩)
  | .reset i x =>
    match w.objs[i]? with
    | none => (.ok none, w)
    | some o => ((o.reset w.heap x).1.map fun _ => none, ⟨(o.reset w.heap x).2, w.objs⟩)
  | .write l v => (.ok none, ⟨w.heap.store l v, w.objs⟩)
  | .make v => (.ok none, ⟨(w.heap.alloc v).2, w.objs⟩)

/-- One command with values: only the object which is called changes, and nothing but its argument and its own attributes matters. -/
def vexec (os : List (VObj R)) : VCmd R → Res (Option (List R)) × List (VObj R)
  | .newFir c b s =>
    match Fir.new c b s with
    | .ok f => (.ok none, os ++ [.fir f])
    | .error e => (.error e, os)
  | .newIir c a b s =>
    match Iir.new c a b s with
    | .ok f => (.ok none, os ++ [.iir f])
    | .error e => (.error e, os)
  | .filter i x =>
    match os[i]? with
    | none => (.ok none, os)
    | some o => ((o.filter x).1.map some, os.set i (o.filter x).2)
  | .reset i x =>
    match os[i]? with
    | none => (.ok none, os)
    | some o => ((o.reset x).1.map fun _ => none, os.set i (o.reset x).2)
  | .none => (.ok none, os)

/-- The values of all objects. -/
def World.values (w : World R) : List (VObj R) := w.objs.map fun o => o.value w.heap

/-- What the caller may do: arrays which are passed or changed exist; an array which belongs to an object is not changed from outside; the
signal of `filter` is not the state array of the same object. -/
def Allowed (w : World R) : Cmd R → Prop
  | .newFir _ b s => (∀ l, b = .array l → l < w.heap.length) ∧ ∀ l, s = some (.array l) → l < w.heap.length
  | .newIir _ a b s => (∀ l, a = some (.array l) → l < w.heap.length) ∧ (∀ l, b = some (.array l) → l < w.heap.length) ∧
      ∀ l, s = some (.array l) → l < w.heap.length
  | .filter i x => (∀ l, x = .array l → l < w.heap.length) ∧ ∀ o, w.objs[i]? = some o → x ≠ .array o.state
  | .reset _ _ => True
  | .write l _ => l < w.heap.length ∧ ∀ o ∈ w.objs, l ≠ o.state ∧ l ∉ o.coefs
  | .make _ => True

/-- A list of commands, all of them allowed; the results are read when they are returned. -/
def World.run (w : World R) : List (Cmd R) → List (Res (Option (List R))) × World R
  | [] => ([], w)
  | c :: cs =>
    (((w.exec c).1.map fun y => y.map (w.exec c).2.heap.read) :: ((w.exec c).2.run cs).1, ((w.exec c).2.run cs).2)

/-- All commands are allowed when they are given. -/
def AllAllowed (w : World R) : List (Cmd R) → Prop
  | [] => True
  | c :: cs => Allowed w c ∧ AllAllowed (w.exec c).2 cs

/-- The commands with the values which the arguments have when they are given. -/
def World.valuesOf (w : World R) : List (Cmd R) → List (VCmd R)
  | [] => []
  | c :: cs => c.value w.heap :: (w.exec c).2.valuesOf cs

/-- A list of commands with values. -/
def vrun (os : List (VObj R)) : List (VCmd R) → List (Res (Option (List R))) × List (VObj R)
  | [] => ([], os)
  | c :: cs => ((vexec os c).1 :: (vrun (vexec os c).2 cs).1, (vrun (vexec os c).2 cs).2)

end Verif.Spec
