import Verif.Model.Py
import Mathlib.Analysis.SpecialFunctions.Pow.Real
import Mathlib.Order.WithBot

/-
Model of diamondback/models/diversity_model.py, class DiversityModel.  A matrix is a list of rows with its count of columns.  Distances are
elements of `WithTop ℝ`, with `⊤` for infinity: a distance function is arbitrary, so that the theorems hold for rounded distances as well as for
the exact ones of `DivStyle.distance`; a distance that is not a number is excluded.  The setter of `s` is
modelled in Verif/Model/DiversityRef.lean.
-/

namespace Verif

/-- The keys of DiversityModel.DISTANCE (diversity_model.py:80-86). -/
inductive DivStyle where
  | chebyshev
  | euclidean
  | geometric
  | manhattan
  deriving DecidableEq, Repr

/-- `abs(x - y)` (diversity_model.py:81-84). -/
def div.gap (x y : List ℝ) : List ℝ := List.zipWith (fun a b => |a - b|) x y

/-- DiversityModel.DISTANCE (diversity_model.py:80-85), exact. -/
noncomputable def DivStyle.distance : DivStyle → List ℝ → List ℝ → WithTop ℝ
  | .chebyshev, x, y => (((div.gap x y).foldl max 0 : ℝ) : WithTop ℝ)
  | .euclidean, x, y => ((Real.sqrt ((div.gap x y).map (· ^ 2)).sum : ℝ) : WithTop ℝ)
  | .geometric, x, y => (((div.gap x y).prod ^ (1 / (x.length : ℝ)) : ℝ) : WithTop ℝ)
  | .manhattan, x, y => (((div.gap x y).sum : ℝ) : WithTop ℝ)

/-- A DiversityModel instance: `_distance`, `_diversity`, `_s` of shape `(s.length, cols)` (diversity_model.py:111-113). -/
structure Diversity where
  distance : List ℝ → List ℝ → WithTop ℝ
  diversity : WithTop ℝ
  cols : ℕ
  s : List (List ℝ)

/-- DiversityModel.__init__ (diversity_model.py:96-113); `style` is the result of the lookup of `style.title()`. -/
noncomputable def Diversity.new (style : Option (List ℝ → List ℝ → WithTop ℝ)) (order : ℤ) : Res Diversity :=
  match style with
  | none => .error .valueError
  | some d =>
    if order < 0 then .error .valueError
    else .ok { distance := d, diversity := 0, cols := 0, s := List.replicate (order + 1).toNat [] }

/-- DiversityModel.clear (diversity_model.py:115-119): `numpy.zeros((self.s.shape[1], 0))`. -/
noncomputable def Diversity.clear (m : Diversity) : Diversity := { m with diversity := 0, cols := 0, s := List.replicate m.cols [] }

/-- `numpy.finfo(float).max` (diversity_model.py:138, 143). -/
noncomputable def div.fmax : ℝ := (2 - 1 / 2 ^ 52) * 2 ^ 1023

/-- `numpy.isclose(v, numpy.finfo(float).max)`: `|v - b| ≤ 1e-08 + 1e-05 |b|` (diversity_model.py:143). -/
def div.vacant (v : ℝ) : Prop := |v - div.fmax| ≤ 1e-8 + 1e-5 * |div.fmax|

open scoped Classical in
/-- diversity_model.py:141-145: the count of leading rows that are occupied. -/
noncomputable def div.count (s : List (List ℝ)) : ℕ := (s.takeWhile fun r => ¬ div.vacant (r.getD 0 0)).length

/-- diversity_model.py:154, 156-160: the least distance of a pair. -/
noncomputable def div.least (d : List ℝ → List ℝ → WithTop ℝ) (s : List (List ℝ)) (cc : ℕ) : WithTop ℝ :=
  (List.range (cc - 1)).foldl (fun u uu =>
    (List.range (cc - (uu + 1))).foldl (fun u k =>
      let dd := d (s.getD uu []) (s.getD (uu + 1 + k) [])
      if dd < u then dd else u) u) ⊤

/-- diversity_model.py:152-162: the best replacement; `jj = -1` is `none`. -/
noncomputable def div.best (d : List ℝ → List ℝ → WithTop ℝ) (s : List (List ℝ)) (cc : ℕ) (x : List ℝ) (start : WithTop ℝ) : WithTop ℝ × Option ℕ :=
  (List.range cc).foldl (fun p kk =>
    let u := div.least d (s.set kk x) cc
    if u > p.1 then (u, some kk) else p) (start, none)

/-- diversity_model.py:147-165, the loop over the observations: the state is `(m, cc)`. -/
noncomputable def div.loop : List (List ℝ) → Diversity × ℕ → List (WithTop ℝ) × (Diversity × ℕ)
  | [], st => ([], st)
  | x :: xs, (m, cc) =>
    let st : Diversity × ℕ :=
      if cc < m.s.length then ({ m with s := m.s.set cc x }, cc + 1)
      else
        let p := div.best m.distance m.s cc x m.diversity
        if p.1 > m.diversity then ({ m with diversity := p.1, s := m.s.set (p.2.getD (m.s.length - 1)) x }, cc)
        else (m, cc)
    let r := div.loop xs st
    (st.1.diversity :: r.1, r.2)

/-- diversity_model.py:137-138: a state without columns is given those of the observations, and sentinels. -/
noncomputable def Diversity.sized (m : Diversity) (cols : ℕ) : Diversity :=
  if m.cols = 0 then { m with cols := cols, s := List.replicate m.s.length (List.replicate cols div.fmax) } else m

/-- DiversityModel.fit (diversity_model.py:121-166) for an array of two dimensions, `cols` columns and the given rows. -/
noncomputable def Diversity.fit (m : Diversity) (x : List (List ℝ)) (cols : ℕ) : Res (List (WithTop ℝ)) × Diversity :=
  if x = [] ∨ cols = 0 then (.error .valueError, m)
  else
    let m := m.sized cols
    if cols ≠ m.cols then (.error .valueError, m)
    else
      let r := div.loop x (m, div.count m.s)
      (.ok r.1, r.2.1)

end Verif
