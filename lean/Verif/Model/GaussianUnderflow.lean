import Verif.Model.Gaussian

/-
GaussianMixtureModel.predict (diamondback/models/gaussian_mixture_model.py:116-152) with the exponential function as a parameter: `numpy.exp` of
floating point numbers is zero below about -745.14.  Simplification: all other operations are exact.
-/

namespace Verif

open Matrix

/-- gaussian_mixture_model.py:145-151: the score of one class, with the function `E` for `numpy.exp`. -/
noncomputable def gm.scoreWith {n order : ℕ} (E : ℝ → ℝ) (c : Fin order → MixComp n) (x : Vec n) : ℝ :=
  ∑ k, (c k).weight * E (-(1 / 2) * gm.quad (c k).precision (c k).mean x)

/-- GaussianMixtureModel.predict (gaussian_mixture_model.py:116-152), with the function `E` for `numpy.exp`. -/
noncomputable def GaussMix.predictWith (E : ℝ → ℝ) (argsort : List ℝ → List ℕ) (g : GaussMix) (x : MatArg) : Res (List (List ℕ)) :=
  if g.fitted.2 = [] then .error .valueError
  else match x with
    | none => .error .valueError
    | some ⟨n, x⟩ =>
      if n = 0 ∨ x = [] then .error .valueError
      else if h : n = g.fitted.1 then
        .ok (x.map fun r => (argsort (g.fitted.2.map fun c => gm.scoreWith E c (fun i => r (Fin.cast h.symm i)))).reverse)
      else .error .valueError

end Verif
