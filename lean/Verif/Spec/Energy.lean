import Mathlib.Analysis.Normed.Group.Basic

/- Specification for C170. -/

namespace Verif.Spec

/-- The energy of a signal: the sum of the squared magnitudes of its samples. -/
noncomputable def energy {R : Type*} [Norm R] (x : List R) : ℝ := (x.map fun v => ‖v‖ ^ 2).sum

end Verif.Spec
