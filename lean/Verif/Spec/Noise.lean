import Mathlib.MeasureTheory.Function.L2Space

/-
Random signals.
-/

namespace Verif.Spec

open MeasureTheory ComplexConjugate

variable {Ω K : Type*} [MeasurableSpace Ω] [RCLike K]

/-- The first `N` samples of white noise: mean zero, power `σ²`, uncorrelated.  Nothing is said about the distribution. -/
structure White (μ : Measure Ω) (x : ℕ → Ω → K) (N : ℕ) (σ : ℝ) : Prop where
  square : ∀ i < N, MemLp (x i) 2 μ
  mean : ∀ i < N, ∫ ω, x i ω ∂μ = 0
  power : ∀ i < N, ∫ ω, ‖x i ω‖ ^ 2 ∂μ = σ ^ 2
  uncorrelated : ∀ i < N, ∀ j < N, i ≠ j → ∫ ω, x i ω * conj (x j ω) ∂μ = 0

/-- `N` samples of a signal `d` with noise `x`. -/
def noisy (d : ℕ → K) (x : ℕ → Ω → K) (N : ℕ) (ω : Ω) : List K := (List.range N).map fun i => d i + x i ω

/-- `y` has the mean `m`; the rest is white noise through a filter with the impulse response `h`, as far as correlations tell. -/
structure ColouredNoise (μ : Measure Ω) (y : Ω → ℕ → K) (N : ℕ) (m h : ℕ → K) (σ : ℝ) : Prop where
  mean : ∀ n < N, ∫ ω, y ω n ∂μ = m n
  correlation : ∀ n k, n + k < N →
    ∫ ω, (y ω (n + k) - m (n + k)) * conj (y ω n - m n) ∂μ = ((σ ^ 2 : ℝ) : K) * ∑ i ∈ Finset.range (n + 1), h (i + k) * conj (h i)
  power : ∀ n < N, ∫ ω, ‖y ω n - m n‖ ^ 2 ∂μ = σ ^ 2 * ∑ i ∈ Finset.range (n + 1), ‖h i‖ ^ 2

end Verif.Spec
