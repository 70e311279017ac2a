import Verif.Model.ZTransformRef

/-!
How the array arguments of a call lie in the memory of the caller.
-/

namespace Verif

/-- The argument refers to existing memory. -/
def ZArg.Valid (m : Mem) : ZArg → Prop
  | .list _ => True
  | .array a => a.buf < m.length

/-- The arguments share no element. -/
def ZArg.Apart (u v : ZArg) : Prop := ∀ a b, u = .array a → v = .array b → a.buf = b.buf → ∀ i ∈ a.idx, i ∉ b.idx

/-- The cell belongs to an array argument which the transform does not copy, because its first element differs from zero. -/
def ZArg.Owns (m : Mem) (u : ZArg) (b i : ℕ) : Prop := ∃ a, u = .array a ∧ (a.read m).head? ≠ some 0 ∧ b = a.buf ∧ i ∈ a.idx

end Verif
