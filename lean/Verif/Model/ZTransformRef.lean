import Verif.Model.ZTransform

/-
ZTransform.transform once more, on memory which arrays share (diamondback/transforms/z_transform.py:67-131).  An array is a view: a buffer and the
positions of its elements in the buffer, so `u[1:]`, `u[::-1]` and `u` itself are views of one buffer.  `v /= u[-1]` and `u /= u[-1]` (lines 104
and 105) write in place; `numpy.array` and `numpy.delete` make new buffers.  Simplifications: as in Verif/Model/ZTransform.lean; buffers are never
collected; the inf and nan which a zero last coefficient leaves in the arrays are not represented (there the memory is left as it was).
-/

namespace Verif

open Complex

/-- The buffers which exist; a buffer is known by its number (z_transform.py:90-105). -/
abbrev Mem := List (List ℝ)

/-- Content of a position of a buffer (z_transform.py:90-105). -/
def Mem.cell (m : Mem) (b i : ℕ) : ℝ := (m.getD b []).getD i 0

/-- A one-dimensional array: positions of its elements in a buffer (z_transform.py:90-105). -/
structure NdView where
  buf : ℕ
  idx : List ℕ

/-- The elements (z_transform.py:90-105). -/
def NdView.read (m : Mem) (a : NdView) : List ℝ := a.idx.map (m.cell a.buf)

/-- `a /= d`, in place (z_transform.py:104-105). -/
noncomputable def NdView.divide (m : Mem) (a : NdView) (d : ℝ) : Mem :=
  m.modify a.buf fun l => l.mapIdx fun i c => if i ∈ a.idx then c / d else c

/-- A new array (z_transform.py:91, 95, 101, 103). -/
def Mem.alloc (m : Mem) (l : List ℝ) : NdView × Mem := (⟨m.length, List.range l.length⟩, m ++ [l])

/-- An argument `list | numpy.ndarray` (z_transform.py:69-70). -/
inductive ZArg where
  | list (l : List ℝ)
  | array (a : NdView)

/-- Values of the argument (z_transform.py:90-95). -/
def ZArg.read (m : Mem) : ZArg → List ℝ
  | .list l => l
  | .array a => a.read m

/-- `if not isinstance(u, numpy.ndarray): u = numpy.array(list(u))` (z_transform.py:90-91 and 94-95). -/
def ZArg.toArray (m : Mem) : ZArg → NdView × Mem
  | .list l => m.alloc l
  | .array a => (a, m)

/-- `while not u[0]: u = numpy.delete(u, 0)` (z_transform.py:100-103): a new array, unless the first element differs from zero. -/
noncomputable def zt.stripRef (m : Mem) (a : NdView) : NdView × Mem := open scoped Classical in
  if (a.read m).head? = some 0 then m.alloc (zt.strip (a.read m)) else (a, m)

/-- z_transform.py:106-131, which read `u` and `v` only. -/
noncomputable def zt.rest (residue : List ℝ → List ℝ → List ℂ × List ℂ) (u v : List ℝ) (frequency : ℝ) (bilinear : Bool) :
    Res (Option (List ℝ) × Option (List ℝ)) := open scoped Classical in
  -- a constant denominator, as in `zt.transform`
  if u.length = 1 then .error .typeError
  else
    let t := 1 / (Real.pi * frequency)
    if bilinear then
      let p0 := np.roots (np.complexOf u)
      let p := p0.map (zt.bilinear (2 * t))
      let z0 := np.roots (np.complexOf v)
      let z := z0.map (zt.bilinear (2 * t))
      let z := if z.length < p.length then z ++ List.replicate (p.length - z.length) 0 else z
      if (2 * t : ℂ) ∈ p0 then .ok (none, none)
      else
        let a := zt.recursive ((np.poly p).map Complex.re)
        .ok (some a, if (2 * t : ℂ) ∈ z0 then none else zt.normalise a ((np.poly z).map Complex.re))
    else
      let rp := residue v u
      let ab := zt.impulse (rp.2.map fun p => cexp (p / t)) rp.1
      let a := zt.recursive (ab.1.map Complex.re)
      .ok (some a, zt.normalise a (ab.2.map Complex.re))

/-- ZTransform.transform (z_transform.py:67-131): result and memory afterwards. -/
noncomputable def zt.transformRef (residue : List ℝ → List ℝ → List ℂ × List ℂ) (m : Mem) (u v : ZArg) (frequency : ℝ) (bilinear : Bool) :
    Res (Option (List ℝ) × Option (List ℝ)) × Mem := open scoped Classical in
  let u := u.toArray m
  if ∀ c ∈ u.1.read u.2, c = 0 then (.error .valueError, u.2)
  else
    let v := v.toArray u.2
    if ∀ c ∈ v.1.read v.2, c = 0 then (.error .valueError, v.2)
    else if frequency ≤ 0 then (.error .valueError, v.2)
    else
      let u := zt.stripRef v.2 u.1
      let v := zt.stripRef u.2 v.1
      let m := v.2
      if (u.1.read m).getLastD 0 = 0 then (.error .other, m)
      else
        let m := v.1.divide m ((u.1.read m).getLastD 0)
        let m := u.1.divide m ((u.1.read m).getLastD 0)
        (zt.rest residue (u.1.read m) (v.1.read m) frequency bilinear, m)

/-- The memory after `n` calls with the same arguments, whatever they return (z_transform.py:67-131). -/
noncomputable def zt.repeatRef (residue : List ℝ → List ℝ → List ℂ × List ℂ) (u v : ZArg) (frequency : ℝ) (bilinear : Bool) : ℕ → Mem → Mem
  | 0, m => m
  | n + 1, m => (zt.transformRef residue (zt.repeatRef residue u v frequency bilinear n m) u v frequency bilinear).2

end Verif
