import Mathlib.Analysis.SpecialFunctions.Trigonometric.Basic

/-
The spectra of raised cosines.
-/

namespace Verif.Spec

/-- The spectrum at frequency `u` (normalised to Nyquist) of the samples `sin(π j n / N)²`, `n = 0, …, N`, relative to their centre. -/
noncomputable def lobe (N j : ℕ) (u : ℝ) : ℝ :=
  -(Real.sin (Real.pi * (u * N / 2)) * Real.cos (Real.pi * (u / 2)) * Real.sin (Real.pi * (j / N)) ^ 2) /
    (2 * Real.sin (Real.pi * (u / 2)) * Real.sin (Real.pi * (u / 2 + j / N)) * Real.sin (Real.pi * (u / 2 - j / N)))

/-- The spectrum at frequency `u` of `N + 1` ones, relative to their centre. -/
noncomputable def pedestal (N : ℕ) (u : ℝ) : ℝ := Real.sin (Real.pi * (u * (N + 1) / 2)) / Real.sin (Real.pi * (u / 2))

end Verif.Spec
