import Verif.Model.Diversity
import Verif.Spec.Nan

/-
DiversityModel.fit (diamondback/models/diversity_model.py:121-166) for observations with nan among their numbers.  A comparison with nan is false, an
operation with nan is nan; `max` and `sum` are the functions of Python, which compare and add from the left.  Otherwise the simplifications are those
of Verif/Model/Diversity.lean.
-/

namespace Verif

open Spec Spec.Num

/-- `abs(x - y)` (diversity_model.py:81-84). -/
def ndiv.gap (x y : List (Num ℝ)) : List (Num ℝ) := List.zipWith (fun a b => Num.map (|·|) (a - b)) x y

open scoped Classical in
/-- The function `max` of Python on a sequence: a later element is taken if it is greater (diversity_model.py:81). -/
noncomputable def ndiv.max : List (Num ℝ) → Num ℝ
  | [] => val 0
  | v :: t => t.foldl (fun m w => if m < w then w else m) v

/-- DiversityModel.DISTANCE (diversity_model.py:80-85). -/
noncomputable def DivStyle.nanDistance : DivStyle → List (Num ℝ) → List (Num ℝ) → Num (WithTop ℝ)
  | .chebyshev, x, y => Num.map (fun v : ℝ => (v : WithTop ℝ)) (ndiv.max (ndiv.gap x y))
  | .euclidean, x, y => Num.map (fun v : ℝ => ((Real.sqrt v : ℝ) : WithTop ℝ)) (((ndiv.gap x y).map (Num.map (· ^ 2))).foldl (· + ·) (val 0))
  | .geometric, x, y => Num.map (fun v : ℝ => ((v ^ (1 / (x.length : ℝ)) : ℝ) : WithTop ℝ)) ((ndiv.gap x y).foldl (· * ·) (val 1))
  | .manhattan, x, y => Num.map (fun v : ℝ => (v : WithTop ℝ)) ((ndiv.gap x y).foldl (· + ·) (val 0))

/-- A DiversityModel instance: `_distance`, `_diversity`, `_s` of shape `(s.length, cols)` (diversity_model.py:111-113). -/
structure NanDiversity where
  distance : List (Num ℝ) → List (Num ℝ) → Num (WithTop ℝ)
  diversity : WithTop ℝ
  cols : ℕ
  s : List (List (Num ℝ))

/-- `numpy.isclose(v, numpy.finfo(float).max)` (diversity_model.py:143). -/
def ndiv.vacant : Num ℝ → Prop
  | val v => div.vacant v
  | nan => False

open scoped Classical in
/-- diversity_model.py:141-145: the count of leading rows that are occupied. -/
noncomputable def ndiv.count (s : List (List (Num ℝ))) : ℕ := (s.takeWhile fun r => ¬ ndiv.vacant (r.getD 0 (val 0))).length

/-- diversity_model.py:159-160: `if d < u: u = d`. -/
noncomputable def ndiv.lower (d : Num (WithTop ℝ)) (u : WithTop ℝ) : WithTop ℝ :=
  match d with
  | val d => if d < u then d else u
  | nan => u

/-- diversity_model.py:154, 156-160: the least distance of a pair. -/
noncomputable def ndiv.least (d : List (Num ℝ) → List (Num ℝ) → Num (WithTop ℝ)) (s : List (List (Num ℝ))) (cc : ℕ) : WithTop ℝ :=
  (List.range (cc - 1)).foldl (fun u uu =>
    (List.range (cc - (uu + 1))).foldl (fun u k => ndiv.lower (d (s.getD uu []) (s.getD (uu + 1 + k) [])) u) u) ⊤

/-- diversity_model.py:152-162: the best replacement; `jj = -1` is `none`. -/
noncomputable def ndiv.best (d : List (Num ℝ) → List (Num ℝ) → Num (WithTop ℝ)) (s : List (List (Num ℝ))) (cc : ℕ) (x : List (Num ℝ)) (start : WithTop ℝ) : WithTop ℝ × Option ℕ :=
  (List.range cc).foldl (fun p kk =>
    let u := ndiv.least d (s.set kk x) cc
    if u > p.1 then (u, some kk) else p) (start, none)

/-- diversity_model.py:148-165: one observation; the state is `(m, cc)`. -/
noncomputable def ndiv.step (x : List (Num ℝ)) (m : NanDiversity) (cc : ℕ) : NanDiversity × ℕ :=
  if cc < m.s.length then ({ m with s := m.s.set cc x }, cc + 1)
  else
    let p := ndiv.best m.distance m.s cc x m.diversity
    if p.1 > m.diversity then ({ m with diversity := p.1, s := m.s.set (p.2.getD (m.s.length - 1)) x }, cc)
    else (m, cc)

/-- diversity_model.py:147-165, the loop over the observations. -/
noncomputable def ndiv.loop : List (List (Num ℝ)) → NanDiversity × ℕ → List (WithTop ℝ) × (NanDiversity × ℕ)
  | [], st => ([], st)
  | x :: xs, (m, cc) =>
    let st := ndiv.step x m cc
    let r := ndiv.loop xs st
    (st.1.diversity :: r.1, r.2)

/-- diversity_model.py:137-138: a state without columns is given those of the observations, and sentinels. -/
noncomputable def NanDiversity.sized (m : NanDiversity) (cols : ℕ) : NanDiversity :=
  if m.cols = 0 then { m with cols := cols, s := List.replicate m.s.length (List.replicate cols (val div.fmax)) } else m

/-- DiversityModel.fit (diversity_model.py:121-166) for an array of two dimensions, `cols` columns and the given rows. -/
noncomputable def NanDiversity.fit (m : NanDiversity) (x : List (List (Num ℝ))) (cols : ℕ) : Res (List (WithTop ℝ)) × NanDiversity :=
  if x = [] ∨ cols = 0 then (.error .valueError, m)
  else
    let m := m.sized cols
    if cols ≠ m.cols then (.error .valueError, m)
    else
      let r := ndiv.loop x (m, ndiv.count m.s)
      (.ok r.1, r.2.1)

end Verif
