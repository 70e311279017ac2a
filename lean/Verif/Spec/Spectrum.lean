import Verif.Spec.Signal
import Verif.Spec.Tone
import Mathlib.Data.Complex.BigOperators

namespace Verif.Spec

open Finset

/-- Normalised spectrum at frequency `f` (normalised to Nyquist) of `N` samples `x_0 … x_{N-1}` weighted by a window:
`(1/N) ∑_n b_n x_n exp(-jπ f n)`. -/
noncomputable def spectrumAt (N : ℕ) (b x : ℕ → ℂ) (f : ℝ) : ℂ :=
  (∑ n ∈ range N, b n * x n * phasor (-(f * (n : ℝ)))) / (N : ℂ)

/-- Power of frame `i` in bin `k`: the squared magnitude of the spectrum at frequency `2k/N` of the windowed samples
`x[i·index], …, x[i·index + N - 1]`. -/
noncomputable def framePower (x b : List ℂ) (index i k : ℕ) : ℝ :=
  ‖spectrumAt b.length (at0 b) (fun n => at0 x (i * index + n)) (2 * k / b.length)‖ ^ 2

end Verif.Spec
