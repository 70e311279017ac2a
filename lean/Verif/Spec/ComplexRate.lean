import Verif.Spec.Signal
import Mathlib.Analysis.Complex.Norm

/- The least squares polynomial for complex data at the abscissae -1, 0, 1, 2, as Spec/Rate.lean for real data. -/

namespace Verif.Spec

open Finset

/-- Value at the real number `t` of the polynomial with complex coefficients `c`, highest power first. -/
noncomputable def polyAtC (c : List ℂ) (t : ℝ) : ℂ := ∑ i ∈ range c.length, at0 c i * ((t ^ (c.length - 1 - i) : ℝ) : ℂ)

/-- Squared error of the polynomial `c` against the data `d`. -/
noncomputable def sqErrC (d c : List ℂ) : ℝ := ∑ i ∈ range 4, ‖at0 d i - polyAtC c (i - 1)‖ ^ 2

/-- The norm by which an underdetermined fit is chosen. -/
noncomputable def fitNormC (c : List ℂ) : ℝ :=
  ∑ j ∈ range c.length, (∑ i ∈ range 4, ((i : ℝ) - 1) ^ (2 * (c.length - 1 - j))) * ‖at0 c j‖ ^ 2

/-- `c` is the least squares polynomial of degree `order` for the data `d`; among several the one of least norm. -/
def IsPolyfitC (order : ℕ) (d c : List ℂ) : Prop :=
  c.length = order + 1 ∧ ∀ e : List ℂ, e.length = order + 1 →
    sqErrC d c ≤ sqErrC d e ∧ (sqErrC d c = sqErrC d e → fitNormC c ≤ fitNormC e)

end Verif.Spec
