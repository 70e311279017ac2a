import Verif.Model.Py
import Mathlib.Data.Real.Basic
import Mathlib.LinearAlgebra.Matrix.NonsingularInverse
import Mathlib.Data.Finset.Sort
import Mathlib.Analysis.SpecialFunctions.Exp

/-
Models of diamondback/models/gaussian_model.py and diamondback/models/gaussian_mixture_model.py.  Simplifications: exact real arithmetic, finite data.
`numpy.linalg.inv` is the inverse of the matrix, or LinAlgError (`PyErr.other`) if it is singular.  `numpy.argsort` is a parameter: its default
algorithm is not stable, so that only the fact that its result sorts is used.  The expectation maximisation of sklearn is a parameter as well.
-/

namespace Verif

open Matrix

/-- A vector of `n` numbers (gaussian_model.py:84-87). -/
abbrev Vec (n : ℕ) := Fin n → ℝ

/-- An array passed for `x`: `none` unless it has two dimensions; columns and rows (gaussian_model.py:74, 107, gaussian_mixture_model.py:97, 135). -/
abbrev MatArg := Option ((n : ℕ) × List (Vec n))

/-- An array passed for `y`: whether its dtype is an integer, and its elements (gaussian_model.py:76-79, gaussian_mixture_model.py:99-102). -/
structure LabelArg where
  integer : Bool
  labels : List ℤ

/-- `sorted(set(y))` (gaussian_model.py:83, gaussian_mixture_model.py:105). -/
def gm.classes (y : List ℤ) : List ℤ := y.toFinset.sort (· ≤ ·)

/-- `x[numpy.where(y == ii)[0]]` (gaussian_model.py:84, gaussian_mixture_model.py:106). -/
def gm.group {n : ℕ} (x : List (Vec n)) (y : List ℤ) (ii : ℤ) : List (Vec n) := ((x.zip y).filter (·.2 = ii)).map Prod.fst

/-- The loop over the classes: each trained model is appended; an exception leaves those before (gaussian_model.py:83-87,
gaussian_mixture_model.py:105-114). -/
def gm.loop {M : Type*} (train : ℤ → Res M) : List ℤ → List M → Res Unit × List M
  | [], acc => (.ok (), acc)
  | ii :: t, acc =>
    match train ii with
    | .error e => (.error e, acc)
    | .ok m => gm.loop train t (acc ++ [m])

/-- `(x - u) @ i @ (x - u).T`, clipped at zero (gaussian_model.py:118, gaussian_mixture_model.py:151). -/
noncomputable def gm.quad {n : ℕ} (i : Matrix (Fin n) (Fin n) ℝ) (u x : Vec n) : ℝ := max (((x - u) ᵥ* i) ⬝ᵥ (x - u)) 0

/-- An entry of GaussianModel._model (gaussian_model.py:87). -/
structure GClass (n : ℕ) where
  covariancei : Matrix (Fin n) (Fin n) ℝ
  mean : Vec n

/-- A GaussianModel instance: `_regularize`; `_shape` and `_model`, empty at first (gaussian_model.py:59-61). -/
structure Gauss where
  regularize : ℝ
  fitted : (n : ℕ) × List (GClass n)

/-- GaussianModel.__init__ (gaussian_model.py:49-61). -/
noncomputable def Gauss.new (regularize : ℝ) : Res Gauss :=
  if regularize < 0 then .error .valueError else .ok { regularize, fitted := ⟨0, []⟩ }

/-- The setter of `regularize` (gaussian_model.py:39-43). -/
noncomputable def Gauss.setRegularize (g : Gauss) (regularize : ℝ) : Res Unit × Gauss :=
  if regularize < 0 then (.error .valueError, g) else (.ok (), { g with regularize })

/-- `z.mean(0)` (gaussian_model.py:85). -/
noncomputable def gm.mean {n : ℕ} (z : List (Vec n)) : Vec n := fun j => (z.map (· j)).sum / z.length

/-- `z - u` as a matrix (gaussian_model.py:86). -/
noncomputable def gm.centred {n : ℕ} (z : List (Vec n)) (u : Vec n) : Matrix (Fin z.length) (Fin n) ℝ := fun k j => z[k] j - u j

/-- `((z - u).T @ (z - u) / z.shape[1]) + r` (gaussian_model.py:86). -/
noncomputable def gm.covariance {n : ℕ} (regularize : ℝ) (z : List (Vec n)) : Matrix (Fin n) (Fin n) ℝ :=
  (1 / (n : ℝ)) • ((gm.centred z (gm.mean z))ᵀ * gm.centred z (gm.mean z)) + regularize • (1 : Matrix (Fin n) (Fin n) ℝ)

open scoped Classical in
/-- gaussian_model.py:84-87: one class. -/
noncomputable def gm.train {n : ℕ} (regularize : ℝ) (z : List (Vec n)) : Res (GClass n) :=
  if (gm.covariance regularize z).det = 0 then .error .other
  else .ok { covariancei := (gm.covariance regularize z)⁻¹, mean := gm.mean z }

/-- GaussianModel.fit (gaussian_model.py:63-87). -/
noncomputable def Gauss.fit (g : Gauss) (x : MatArg) (y : LabelArg) : Res Unit × Gauss :=
  match x with
  | none => (.error .valueError, g)
  | some ⟨n, x⟩ =>
    if n = 0 ∨ x = [] then (.error .valueError, g)
    else if y.labels.length ≠ x.length then (.error .valueError, g)
    else if y.integer = false then (.error .typeError, g)
    else
      let r := gm.loop (fun ii => gm.train g.regularize (gm.group x y.labels ii)) (gm.classes y.labels) []
      (r.1, { g with fitted := ⟨n, r.2⟩ })

/-- GaussianModel.predict (gaussian_model.py:89-119). -/
noncomputable def Gauss.predict (argsort : List ℝ → List ℕ) (g : Gauss) (x : MatArg) : Res (List (List ℕ)) :=
  if g.fitted.2 = [] then .error .valueError
  else match x with
    | none => .error .valueError
    | some ⟨n, x⟩ =>
      if n = 0 ∨ x = [] then .error .valueError
      else if h : n = g.fitted.1 then
        .ok (x.map fun r => argsort (g.fitted.2.map fun c => gm.quad c.covariancei c.mean (fun i => r (Fin.cast h.symm i))))
      else .error .valueError

/-- One component of a sklearn.mixture.GaussianMixture: precision, mean, weight (gaussian_mixture_model.py:146-150). -/
structure MixComp (n : ℕ) where
  precision : Matrix (Fin n) (Fin n) ℝ
  mean : Vec n
  weight : ℝ

/-- A GaussianMixtureModel instance; a fitted sklearn model has `order` components (gaussian_mixture_model.py:80-84). -/
structure GaussMix where
  index : ℤ
  order : ℕ
  regularize : ℝ
  fitted : (n : ℕ) × List (Fin order → MixComp n)

/-- GaussianMixtureModel.__init__ (gaussian_mixture_model.py:64-84). -/
noncomputable def GaussMix.new (order index : ℤ) (regularize : ℝ) : Res GaussMix :=
  if order ≤ 0 then .error .valueError
  else if index ≤ 0 then .error .valueError
  else if regularize < 0 then .error .valueError
  else .ok { index, order := order.toNat, regularize, fitted := ⟨0, []⟩ }

/-- The setter of `index` (gaussian_mixture_model.py:40-44). -/
def GaussMix.setIndex (g : GaussMix) (index : ℤ) : Res Unit × GaussMix :=
  if index ≤ 0 then (.error .valueError, g) else (.ok (), { g with index })

/-- The setter of `regularize` (gaussian_mixture_model.py:54-58). -/
noncomputable def GaussMix.setRegularize (g : GaussMix) (regularize : ℝ) : Res Unit × GaussMix :=
  if regularize < 0 then (.error .valueError, g) else (.ok (), { g with regularize })

/-- What sklearn.mixture.GaussianMixture(n_components, max_iter, reg_covar).fit(z) does: components, or an exception
(gaussian_mixture_model.py:107-113). -/
abbrev Sklearn := (n order : ℕ) → ℤ → ℝ → List (Vec n) → Res (Fin order → MixComp n)

/-- GaussianMixtureModel.fit (gaussian_mixture_model.py:86-114). -/
noncomputable def GaussMix.fit (em : Sklearn) (g : GaussMix) (x : MatArg) (y : LabelArg) : Res Unit × GaussMix :=
  match x with
  | none => (.error .valueError, g)
  | some ⟨n, x⟩ =>
    if n = 0 ∨ x = [] then (.error .valueError, g)
    else if y.labels.length ≠ x.length then (.error .valueError, g)
    else if y.integer = false then (.error .typeError, g)
    else
      let r := gm.loop (fun ii => em n g.order g.index g.regularize (gm.group x y.labels ii)) (gm.classes y.labels) []
      (r.1, { g with fitted := ⟨n, r.2⟩ })

/-- gaussian_mixture_model.py:145-151: the score of one class. -/
noncomputable def gm.score {n order : ℕ} (c : Fin order → MixComp n) (x : Vec n) : ℝ :=
  ∑ k, (c k).weight * Real.exp (-(1 / 2) * gm.quad (c k).precision (c k).mean x)

/-- GaussianMixtureModel.predict (gaussian_mixture_model.py:116-152).  The test of line 139 never fails: a model in the list is fitted. -/
noncomputable def GaussMix.predict (argsort : List ℝ → List ℕ) (g : GaussMix) (x : MatArg) : Res (List (List ℕ)) :=
  if g.fitted.2 = [] then .error .valueError
  else match x with
    | none => .error .valueError
    | some ⟨n, x⟩ =>
      if n = 0 ∨ x = [] then .error .valueError
      else if h : n = g.fitted.1 then
        .ok (x.map fun r => (argsort (g.fitted.2.map fun c => gm.score c (fun i => r (Fin.cast h.symm i)))).reverse)
      else .error .valueError

end Verif
