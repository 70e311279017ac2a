import Mathlib.Data.Real.Basic
import Mathlib.Order.WithBot

/- Specification vocabulary for separation: no reference to the models. -/

namespace Verif.Spec

/-- `v` is the minimum of the distances between members at different positions; infinity if there are fewer than two. -/
def IsMinDistance {α : Type*} (d : α → α → WithTop ℝ) (s : List α) (v : WithTop ℝ) : Prop :=
  (∀ (i j : ℕ) (a b : α), i < j → s[i]? = some a → s[j]? = some b → v ≤ d a b) ∧
    (v = ⊤ ∨ ∃ (i j : ℕ) (a b : α), i < j ∧ s[i]? = some a ∧ s[j]? = some b ∧ v = d a b)

theorem IsMinDistance.unique {α : Type*} {d : α → α → WithTop ℝ} {s : List α} {v w : WithTop ℝ} (h : IsMinDistance d s v) (h' : IsMinDistance d s w) : v = w := by
  obtain ⟨h1, h2⟩ := h
  obtain ⟨g1, g2⟩ := h'
  apply le_antisymm
  · rcases g2 with rfl | ⟨i, j, a, b, hij, ha, hb, rfl⟩
    · exact le_top
    · exact h1 i j a b hij ha hb
  · rcases h2 with rfl | ⟨i, j, a, b, hij, ha, hb, rfl⟩
    · exact le_top
    · exact g1 i j a b hij ha hb

/-- The largest number of type float64. -/
noncomputable def largestFloat : ℝ := (2 ^ 53 - 1) * 2 ^ 971

/-- Close to the largest number, in the sense of numpy.isclose with its defaults. -/
def NearLargest (v : ℝ) : Prop := |v - largestFloat| ≤ 1e-8 + 1e-5 * largestFloat

end Verif.Spec
