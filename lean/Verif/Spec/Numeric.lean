import Mathlib.Algebra.Polynomial.Derivative

/-
Accuracy of numerical differentiation and quadrature, in terms of polynomials.
-/

namespace Verif.Spec

open Polynomial

/-- A list holds the values of a polynomial at 0, 1, 2, …. -/
def SamplesOf {K : Type*} [Field K] (p : K[X]) (x : List K) : Prop := ∀ n, n < x.length → x[n]? = some (p.eval (n : K))

/-- Degree of exactness of the finite difference of a given derivative and order. -/
def differenceDegree : ℤ → ℤ → ℕ
  | 1, 1 => 2
  | 1, 2 => 2
  | 1, 4 => 4
  | 2, 2 => 3
  | 2, 4 => 3
  | 2, 6 => 3
  | 2, 8 => 5
  | 3, _ => 4
  | _, _ => 0

/-- Degree of exactness of the closed Newton–Cotes rules with 2, 3, 4, 5 points. -/
def quadratureDegree : ℤ → ℕ
  | 1 => 1
  | 2 => 3
  | 3 => 3
  | 4 => 5
  | _ => 0

end Verif.Spec
