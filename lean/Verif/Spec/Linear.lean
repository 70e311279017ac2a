import Mathlib.Algebra.Ring.Defs

namespace Verif.Spec

/-- `α u + β v` elementwise. -/
def lin {R : Type*} [Add R] [Mul R] (α β : R) (u v : List R) : List R := List.zipWith (fun x y => α * x + β * y) u v

end Verif.Spec
