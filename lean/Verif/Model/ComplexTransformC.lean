import Verif.Model.ComplexTransform

/-
ComplexTransform.transform of a three-phase array whose entries are complex.  The documentation names a real three-phase signal;
the code does not look at the type, and goes through the same lines with complex arithmetic.  Exact arithmetic.
-/

namespace Verif

open Complex

/-- complex_transform.py:104-107 for one column of a complex array: `matmul` with the real matrix COEFFICIENT, row 0 plus `1j` times
row 1, and the gain. -/
noncomputable def ct.toComplexC (neutral : Bool) (x : Fin 3 → ℂ) : ℂ :=
  let v := (ct.coefficient.map ((↑) : ℝ → ℂ)).mulVec x
  let y := v 0 + I * v 1
  if neutral then y else y * ct.gain

/-- complex_transform.py:85-108 for a complex array of shape (3, n), a list of `n` columns (line 92 refuses no columns). -/
noncomputable def ct.transformC (x : List (Fin 3 → ℂ)) (neutral : Bool) : Res (List ℂ) :=
  if x.length = 0 then .error .valueError else .ok (x.map (ct.toComplexC neutral))

end Verif
