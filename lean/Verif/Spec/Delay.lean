import Verif.Spec.Response
import Verif.Spec.Analog
import Mathlib.Analysis.Calculus.Deriv.Basic

namespace Verif.Spec

/-- Group delay in samples of a response `H` over the frequency normalised to Nyquist: minus the derivative of the phase by the angular
frequency `π f`, written as the imaginary part of the logarithmic derivative. -/
noncomputable def groupDelay (H : ℝ → ℂ) (f : ℝ) : ℝ := -(deriv H f / H f).im / Real.pi

/-- The frequency response of the continuous prototype, one at frequency zero. -/
noncomputable def prototype (u : List ℝ) (ω : ℝ) : ℂ := sAt u 0 / sAt u (Complex.I * ω)

/-- The group delay of a continuous response, minus the derivative of the phase by the angular frequency. -/
noncomputable def analogDelay (h : ℝ → ℂ) (ω : ℝ) : ℝ := -(deriv h ω / h ω).im

end Verif.Spec
