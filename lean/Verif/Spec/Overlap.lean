import Verif.Spec.Signal
import Mathlib.Data.Real.Basic

/-
Overlap and add: a signal is cut into frames which overlap, and the frames are added at their places again.
-/

namespace Verif.Spec

open Finset

/-- Sample `n` of the sum of the frames `0, …, J - 1`, where frame `j` starts at `j * hop`. -/
noncomputable def overlapAdd (frames : ℕ → List ℝ) (hop J n : ℕ) : ℝ := ∑ j ∈ range J, if j * hop ≤ n then at0 (frames j) (n - j * hop) else 0

/-- The energy of the frames. -/
noncomputable def frameEnergy (frames : ℕ → List ℝ) (J : ℕ) : ℝ := ∑ j ∈ range J, ∑ k ∈ range (frames j).length, at0 (frames j) k ^ 2

end Verif.Spec
