import Verif.Spec.Response
import Mathlib.Order.Interval.Finset.Nat

/-
Specification vocabulary for filters with complex coefficients: no reference to the models.
-/

namespace Verif.Spec

open Finset

/-- `∑_n c_n e^{-jπfn}`. -/
noncomputable def dtftC (c : List ℂ) (f : ℝ) : ℂ := ∑ n ∈ range c.length, at0 c n * Complex.exp (-(Complex.I * Real.pi * f * n))

/-- Frequency response of `y_n = ∑_{i≥1} a_i y_{n-i} + ∑_i b_i x_{n-i}` at the frequency `f`, normalised to Nyquist. -/
noncomputable def freqRespC (a b : List ℂ) (f : ℝ) : ℂ := dtftC b f / (1 - dtftC a f)

/-- `z^N - ∑_{i=1}^N a_i z^{N-i}`, the polynomial whose roots are the poles of the recursion. -/
def poleValue (a : List ℂ) (z : ℂ) : ℂ := z ^ (a.length - 1) - ∑ i ∈ Icc 1 (a.length - 1), at0 a i * z ^ (a.length - 1 - i)

/-- Every pole is strictly inside the unit circle. -/
def StableC (a : List ℂ) : Prop := ∀ z, poleValue a z = 0 → ‖z‖ < 1

end Verif.Spec
