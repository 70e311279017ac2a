import Mathlib.Analysis.SpecialFunctions.Complex.Circle

/-
Sampled complex tones.
-/

namespace Verif.Spec

open Complex

/-- `exp(jπ t)`: the unit phasor with phase `t` in units of half turns. -/
noncomputable def phasor (t : ℝ) : ℂ := cexp (I * Real.pi * t)

/-- `N` samples of a tone of complex amplitude `A`, frequency `f` (normalised to Nyquist) and starting phase `p`:
`A exp(jπ(p + f n))`. -/
noncomputable def tone (A : ℂ) (f p : ℝ) (N : ℕ) : List ℂ := (List.range N).map fun n : ℕ => A * phasor (p + f * (n : ℝ))

/-- `N` samples of a real cosine `A cos(π(p + f n))`. -/
noncomputable def cosine (A f p : ℝ) (N : ℕ) : List ℂ := (List.range N).map fun n : ℕ => ((A * Real.cos (Real.pi * (p + f * (n : ℝ))) : ℝ) : ℂ)

/-- The coefficients of an exponential average of the signal, carried to the frequency `v`: an impulse response with a delay of at least one sample. -/
noncomputable def bandImpulse (rate v : ℝ) (k : ℕ) : ℂ := if k = 0 then 0 else rate * (1 - rate) ^ (k - 1) * phasor (v * k)

/-- The frequency response of that impulse response in closed form. -/
noncomputable def bandResponse (rate v θ : ℝ) : ℂ := rate * phasor (v - θ) / (1 - (1 - rate) * phasor (v - θ))

end Verif.Spec
