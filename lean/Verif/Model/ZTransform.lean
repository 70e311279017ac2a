import Verif.Model.Py
import Verif.Model.NpPoly
import Mathlib.Analysis.SpecialFunctions.Complex.Circle

/-
Model of diamondback/transforms/z_transform.py, class ZTransform.  Simplifications: exact arithmetic; `u` and `v` are float arrays
(integer arrays make `v /= u[-1]` raise a TypeError); the in-place modification of the caller's arrays is
represented in Verif/Model/ZTransformRef.lean only.
`numpy.poly`/`numpy.roots` are those of Verif/Model/NpPoly.lean.  `scipy.signal.residue` is a parameter; the theorems assume only
that the poles it returns are the roots of the denominator.  Arrays that contain inf or nan are represented by `none`.
-/

namespace Verif

open Complex

/-- The embedding of a real coefficient array in the complex numbers (z_transform.py:108, 110, 116). -/
def np.complexOf (c : List ℝ) : List ℂ := c.map fun r : ℝ => (r : ℂ)

/-- z_transform.py:100-103: leading zeros are deleted. -/
noncomputable def zt.strip (u : List ℝ) : List ℝ := open scoped Classical in u.dropWhile (fun c => decide (c = 0))

/-- z_transform.py:109 and 111: the bilinear map of one root, `h = 2 t`. -/
noncomputable def zt.bilinear (h : ℂ) (p : ℂ) : ℂ := (1 + p / h) / (1 - p / h)

/-- z_transform.py:117-126: the product of the factors of all poles, and the sum over `ii` of `r[ii]` times the product of the others. -/
noncomputable def zt.impulse (e : List ℂ) (r : List ℂ) : List ℂ × List ℂ :=
  let a := e.foldl (fun a q => np.convolve a [1, -q]) [1]
  let b := (List.range r.length).foldl (fun b ii =>
    let q := (List.range r.length).foldl (fun q jj => if jj ≠ ii then np.convolve q [1, -(e.getD jj 0)] else q) [1]
    List.zipWith (· + ·) b (q.map (r.getD ii 0 * ·))) (List.replicate r.length 0)
  (a, if b.length < a.length then b ++ List.replicate (a.length - b.length) 0 else b)

/-- z_transform.py:128-129: `a /= -a[0]; a[0] = 0.0`. -/
noncomputable def zt.recursive (a : List ℝ) : List ℝ := 0 :: (a.map (· / (-(a.headD 0)))).tail

/-- z_transform.py:130: `b *= (1.0 - sum(a)) / sum(b)`; a zero sum gives inf or nan. -/
noncomputable def zt.normalise (a b : List ℝ) : Option (List ℝ) :=
  open scoped Classical in if b.sum = 0 then none else some (b.map (· * ((1 - a.sum) / b.sum)))

/-- ZTransform.transform (z_transform.py:67-131).  `residue v u` is `scipy.signal.residue`, residues and poles, two
arrays of the same length. -/
noncomputable def zt.transform (residue : List ℝ → List ℝ → List ℂ × List ℂ) (u v : List ℝ) (frequency : ℝ)
    (bilinear : Bool) : Res (Option (List ℝ) × Option (List ℝ)) := open scoped Classical in
  -- lines 90-99; `not u.any()` also covers the empty array
  if ∀ c ∈ u, c = 0 then .error .valueError
  else if ∀ c ∈ v, c = 0 then .error .valueError
  else if frequency ≤ 0 then .error .valueError
  else
    let u := zt.strip u
    let v := zt.strip v
    let d := u.getLastD 0
    -- lines 104-105: with a zero `d` the arrays hold inf and nan, and `numpy.roots` raises a LinAlgError
    if d = 0 then .error .other
    -- a constant denominator: `numpy.poly([])` is a number, and the sum of residues is a number: both are not subscriptable
    else if u.length = 1 then .error .typeError
    else
      let v := v.map (· / d)
      let u := u.map (· / d)
      let t := 1 / (Real.pi * frequency)
      if bilinear then
        let p0 := np.roots (np.complexOf u)
        let p := p0.map (zt.bilinear (2 * t))
        let z0 := np.roots (np.complexOf v)
        let z := z0.map (zt.bilinear (2 * t))
        let z := if z.length < p.length then z ++ List.replicate (p.length - z.length) 0 else z
        if (2 * t : ℂ) ∈ p0 then .ok (none, none)
        else
          let a := zt.recursive ((np.poly p).map Complex.re)
          .ok (some a, if (2 * t : ℂ) ∈ z0 then none else zt.normalise a ((np.poly z).map Complex.re))
      else
        let rp := residue v u
        let ab := zt.impulse (rp.2.map fun p => cexp (p / t)) rp.1
        let a := zt.recursive (ab.1.map Complex.re)
        .ok (some a, zt.normalise a (ab.2.map Complex.re))

end Verif
