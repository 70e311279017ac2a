import Verif.Spec.Signal
import Mathlib.Analysis.Complex.Basic
import Mathlib.Analysis.Complex.Exponential
import Mathlib.Analysis.SpecialFunctions.Trigonometric.Basic

namespace Verif.Spec

open Finset

/-- `∑_n c_n e^{-jπfn}`. -/
noncomputable def dtft (c : List ℝ) (f : ℝ) : ℂ :=
  ∑ n ∈ range c.length, ((at0 c n : ℝ) : ℂ) * Complex.exp (-(Complex.I * Real.pi * f * n))

/-- Frequency response of `y_n = ∑_{i≥1} a_i y_{n-i} + ∑_i b_i x_{n-i}` at the frequency `f`, normalised to Nyquist. -/
noncomputable def freqResp (a b : List ℝ) (f : ℝ) : ℂ := dtft b f / (1 - dtft a f)

/-- Alternating sum of the coefficients: the response of the coefficients at Nyquist. -/
def altSum (b : List ℝ) : ℝ := ∑ n ∈ range b.length, (-1) ^ n * at0 b n

/-- Frequency `k` of `N` equidistant frequencies in [-1, 1). -/
noncomputable def axis (N : ℤ) (k : ℕ) : ℝ := -1 + 2 * (k : ℝ) / (N : ℝ)

end Verif.Spec
