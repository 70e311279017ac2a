import Mathlib.Data.Real.Basic
import Mathlib.Data.Matrix.Basic
import Mathlib.Data.Matrix.Mul

/- Specification vocabulary for classifiers: no reference to the models. -/

namespace Verif.Spec

open Matrix

/-- `p` lists the positions of `v` in the order of their values, the least first. -/
def IsRanking (v : List ℝ) (p : List ℕ) : Prop := p.Perm (List.range v.length) ∧ p.Pairwise fun a b => v.getD a 0 ≤ v.getD b 0

/-- The samples of a class: the first components of the pairs whose second component is the label. -/
def samplesOf {V : Type*} (pairs : List (V × ℤ)) (c : ℤ) : List V := pairs.filterMap fun p => if p.2 = c then some p.1 else none

/-- The mean of samples. -/
noncomputable def sampleMean {n : ℕ} (z : List (Fin n → ℝ)) (j : Fin n) : ℝ := (z.map fun v => v j).sum / z.length

/-- The sum over the samples of the products of their deviations. -/
noncomputable def scatter {n : ℕ} (z : List (Fin n → ℝ)) : Matrix (Fin n) (Fin n) ℝ :=
  fun i j => (z.map fun v => (v i - sampleMean z i) * (v j - sampleMean z j)).sum

/-- The distinct labels, increasing. -/
def IsLabels (y L : List ℤ) : Prop := L.Pairwise (· < ·) ∧ ∀ c, c ∈ L ↔ c ∈ y

/-- The squared distance of `x` from `u` with respect to the matrix `S`: `(x - u)ᵀ S⁻¹ (x - u)`, by a solution of `S w = x - u`. -/
def IsSquaredDistance {n : ℕ} (S : Matrix (Fin n) (Fin n) ℝ) (u x : Fin n → ℝ) (d : ℝ) : Prop := ∃ w, S *ᵥ w = x - u ∧ d = w ⬝ᵥ (x - u)

end Verif.Spec
