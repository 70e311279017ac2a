import Verif.Model.Diversity

/-
DiversityModel once more, statement by statement on a heap of numpy arrays (diamondback/models/diversity_model.py:88-166), with the property `s` and
its setter.  The field `_s` is a reference; `self.s[...] = ...` writes in place; `numpy.zeros` and `numpy.array` make new arrays.  Simplifications:
arrays of `s` and `x` have two dimensions and real elements; a view on a part of an array is not modelled, so two arrays are the same or apart;
temporaries of an expression are not placed in the heap; places are never collected.
-/

namespace Verif

/-- A numpy array of shape `(rows.length, cols)` (diversity_model.py:113, 138). -/
structure Grid where
  cols : ℕ
  rows : List (List ℝ)

/-- The arrays which exist; the place of an array is its number (diversity_model.py:113, 119, 138). -/
abbrev GridHeap := List Grid

/-- Contents of an array (diversity_model.py:137, 139, 149, 155). -/
def GridHeap.read (h : GridHeap) (l : ℕ) : Grid := h.getD l ⟨0, []⟩

/-- What `s` can refer to, as its setter takes `list | numpy.ndarray` (diversity_model.py:93). -/
inductive DivState where
  | list
  | array (l : ℕ)

/-- A DiversityModel instance: `_distance`, `_diversity` and the reference `_s` (diversity_model.py:111-113). -/
structure DivRef where
  distance : List ℝ → List ℝ → WithTop ℝ
  diversity : WithTop ℝ
  s : DivState

/-- DiversityModel.__init__ (diversity_model.py:96-113); `style` is the result of the lookup of `style.title()`. -/
noncomputable def DivRef.new (h : GridHeap) (style : Option (List ℝ → List ℝ → WithTop ℝ)) (order : ℤ) : Res DivRef × GridHeap :=
  match style with
  | none => (.error .valueError, h)
  | some d =>
    if order < 0 then (.error .valueError, h)
    else (.ok { distance := d, diversity := 0, s := .array h.length }, h ++ [⟨0, List.replicate (order + 1).toNat []⟩])

/-- The setter of `s` (diversity_model.py:92-94). -/
def DivRef.assign (m : DivRef) (s : DivState) : DivRef := { m with s := s }

/-- DiversityModel.clear (diversity_model.py:115-119); a list has no `shape`, `AttributeError` is `PyErr.other`. -/
noncomputable def DivRef.clear (h : GridHeap) (m : DivRef) : Res Unit × DivRef × GridHeap :=
  let m := { m with diversity := 0 }
  match m.s with
  | .list => (.error .other, m, h)
  | .array l => (.ok (), m.assign (.array h.length), h ++ [⟨0, List.replicate (h.read l).cols []⟩])

/-- The argument of `fit` (diversity_model.py:121). -/
inductive GridArg where
  | list (v : Grid)
  | array (l : ℕ)

/-- `if not isinstance(x, numpy.ndarray): x = numpy.array(list(x))` (diversity_model.py:133-134). -/
def GridArg.place (h : GridHeap) : GridArg → ℕ × GridHeap
  | .list v => (h.length, h ++ [v])
  | .array l => (l, h)

/-- diversity_model.py:148-164: one observation; `l` is the place of `self.s`, `xl` that of `x`. -/
noncomputable def divr.step (h : GridHeap) (m : DivRef) (l xl ii cc : ℕ) : DivRef × GridHeap × ℕ :=
  let s := h.read l
  let x := (h.read xl).rows.getD ii []
  if cc < s.rows.length then (m, h.set l { s with rows := s.rows.set cc x }, cc + 1)
  else
    let p := div.best m.distance s.rows cc x m.diversity
    if p.1 > m.diversity then ({ m with diversity := p.1 }, h.set l { s with rows := s.rows.set (p.2.getD (s.rows.length - 1)) x }, cc)
    else (m, h, cc)

/-- diversity_model.py:147-166: the loop over the observations, from `ii` on. -/
noncomputable def divr.loop (l xl : ℕ) : ℕ → ℕ → DivRef → GridHeap → ℕ → List (WithTop ℝ) × DivRef × GridHeap
  | _, 0, m, h, _ => ([], m, h)
  | ii, n + 1, m, h, cc =>
    let st := divr.step h m l xl ii cc
    let r := divr.loop l xl (ii + 1) n st.1 st.2.1 st.2.2
    (st.1.diversity :: r.1, r.2)

/-- diversity_model.py:137-138: a state without columns is replaced by a new array. -/
noncomputable def divr.sized (h : GridHeap) (m : DivRef) (l cols : ℕ) : ℕ × DivRef × GridHeap :=
  if (h.read l).cols = 0 then
    (h.length, m.assign (.array h.length), h ++ [⟨cols, List.replicate (h.read l).rows.length (List.replicate cols div.fmax)⟩])
  else (l, m, h)

/-- DiversityModel.fit (diversity_model.py:121-166). -/
noncomputable def DivRef.fit (h : GridHeap) (m : DivRef) (x : GridArg) : Res (List (WithTop ℝ)) × DivRef × GridHeap :=
  let xl := (x.place h).1
  let h := (x.place h).2
  let xg := h.read xl
  if xg.rows = [] ∨ xg.cols = 0 then (.error .valueError, m, h)
  else
    match m.s with
    | .list => (.error .other, m, h)
    | .array l =>
      let q := divr.sized h m l xg.cols
      let l := q.1
      let m := q.2.1
      let h := q.2.2
      if xg.cols ≠ (h.read l).cols then (.error .valueError, m, h)
      else
        let r := divr.loop l xl 0 xg.rows.length m h (div.count (h.read l).rows)
        (.ok r.1, r.2)

end Verif
