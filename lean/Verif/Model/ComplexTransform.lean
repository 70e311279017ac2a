import Verif.Model.Py
import Mathlib.Analysis.SpecialFunctions.Complex.Circle
import Mathlib.Analysis.SpecialFunctions.Pow.Real
import Mathlib.LinearAlgebra.Matrix.NonsingularInverse

/-
Model of diamondback/transforms/complex_transform.py, class ComplexTransform.  A three-phase signal (shape (3, n)) is a list of
`n` columns.  Simplification: exact real arithmetic; the three-phase signal is real, as documented.
-/

namespace Verif

open Complex

/-- ComplexTransform.COEFFICIENT (complex_transform.py:65-67). -/
noncomputable def ct.coefficient : Matrix (Fin 3) (Fin 3) ℝ :=
  (2 / 3 : ℝ) • !![1, -(1/2), -(1/2); 0, (1/2) * Real.sqrt 3, -(1/2) * Real.sqrt 3; 1, 1, 1]

/-- ComplexTransform.GAIN (complex_transform.py:68). -/
noncomputable def ct.gain : ℂ := (Real.sqrt (1/3) : ℂ) * cexp (-(I * Real.pi / 6))

/-- The shapes of array the caller can pass: one-dimensional (complex), two-dimensional with three rows, any other (complex_transform.py:87-93). -/
inductive ctIn where
  | vector (x : List ℂ)
  | three (x : List (Fin 3 → ℝ))
  /-- two-dimensional with a number of rows other than three, or more than two dimensions -/
  | other

/-- The two results (complex_transform.py:95-108). -/
inductive ctOut where
  | three (y : List (Fin 3 → ℝ))
  | vector (y : List ℂ)

/-- complex_transform.py:96-102 for one sample. -/
noncomputable def ct.toThree (neutral : Bool) (x : ℂ) : Fin 3 → ℝ :=
  let v := if neutral then x else x / ct.gain
  ct.coefficient⁻¹.mulVec ![v.re, v.im, 0]

/-- complex_transform.py:104-107 for one sample. -/
noncomputable def ct.toComplex (neutral : Bool) (x : Fin 3 → ℝ) : ℂ :=
  let v := ct.coefficient.mulVec x
  let y := (v 0 : ℂ) + I * (v 1 : ℂ)
  if neutral then y else y * ct.gain

/-- ComplexTransform.transform (complex_transform.py:70-108).  `other` is rejected by line 93, or by line 87, or (shape (1, n))
by the ragged `numpy.array` of line 101; all raise ValueError. -/
noncomputable def ct.transform (x : ctIn) (neutral : Bool) : Res ctOut :=
  match x with
  | .vector x => if x.length = 0 then .error .valueError else .ok (.three (x.map (ct.toThree neutral)))
  | .three x => if x.length = 0 then .error .valueError else .ok (.vector (x.map (ct.toComplex neutral)))
  | .other => .error .valueError

end Verif
