import Mathlib.Analysis.Complex.Basic

/- Specification for C175. -/

namespace Verif.Spec

/-- The mean of the squared magnitudes of the samples of a response; a sample which is no number counts as zero. -/
noncomputable def meanPower (y : List (Option ℂ)) : ℝ := (y.map fun o => ‖o.getD 0‖ ^ 2).sum / y.length

end Verif.Spec
