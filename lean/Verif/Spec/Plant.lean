import Mathlib.Analysis.Complex.Basic
import Mathlib.Algebra.BigOperators.Intervals

/-
Specification vocabulary for control loops: a linear plant and the characteristic function of its loop with a
proportional, integral and derivative controller.  No reference to the models.
-/

namespace Verif.Spec

open Finset

/-- The output `z` of a linear plant of the order `M` with the controls `u` and the constant disturbance `d`, from any
initial values (the first `M` outputs are free): `z_n = ∑ a_i z_{n-1-i} + ∑ c_i u_{n-1-i} + d`. -/
def Plant (M : ℕ) (a c : ℕ → ℝ) (d : ℝ) (u z : ℕ → ℝ) : Prop :=
  ∀ n, M ≤ n → z n = ∑ i ∈ range M, a i * z (n - 1 - i) + ∑ i ∈ range M, c i * u (n - 1 - i) + d

/-- The characteristic function, in the unit delay `w`, of the loop of a plant with the controller
`p + i / (1 - w) + q (1 - w)`. -/
noncomputable def loopPolynomial (M : ℕ) (a c : ℕ → ℝ) (p i q : ℝ) (w : ℂ) : ℂ :=
  (1 - w) * (1 - ∑ k ∈ range M, (a k : ℂ) * w ^ (k + 1)) +
    (∑ k ∈ range M, (c k : ℂ) * w ^ (k + 1)) * (p * (1 - w) + i + q * (1 - w) ^ 2)

end Verif.Spec
