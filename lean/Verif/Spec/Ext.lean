import Verif.Spec.Nan
import Mathlib.Data.Real.Basic

/-
Real numbers together with the two infinities and nan, with the arithmetic of IEEE 754 (except that finite results are exact
and never overflow).
-/

namespace Verif.Spec

/-- A real number, an infinity (`inf true` is the negative one), or nan. -/
inductive Ext where
  | fin (v : ℝ)
  | inf (neg : Bool)
  | nan

namespace Ext

open Classical

/-- Addition: infinities of different signs give nan. -/
noncomputable def add : Ext → Ext → Ext
  | fin v, fin w => fin (v + w)
  | fin _, inf s => inf s
  | inf s, fin _ => inf s
  | inf s, inf t => if s = t then inf s else nan
  | nan, _ => nan
  | _, nan => nan

/-- Change of sign. -/
noncomputable def neg : Ext → Ext
  | fin v => fin (-v)
  | inf s => inf (!s)
  | nan => nan

/-- Multiplication: zero times an infinity gives nan. -/
noncomputable def mul : Ext → Ext → Ext
  | fin v, fin w => fin (v * w)
  | fin v, inf s => if v = 0 then nan else inf (s != decide (v < 0))
  | inf s, fin v => if v = 0 then nan else inf (s != decide (v < 0))
  | inf s, inf t => inf (s != t)
  | nan, _ => nan
  | _, nan => nan

/-- Magnitude. -/
noncomputable def abs : Ext → Ext
  | fin v => fin |v|
  | inf _ => inf false
  | nan => nan

/-- Comparison; false when a nan takes part. -/
def Lt : Ext → Ext → Prop
  | fin v, fin w => v < w
  | fin _, inf s => s = false
  | inf s, fin _ => s = true
  | inf s, inf t => s = true ∧ t = false
  | _, _ => False

noncomputable instance : Zero Ext := ⟨fin 0⟩
noncomputable instance : Add Ext := ⟨add⟩
noncomputable instance : Sub Ext := ⟨fun v w => add v (neg w)⟩
noncomputable instance : Mul Ext := ⟨mul⟩
instance : LT Ext := ⟨Lt⟩
noncomputable instance : DecidableLT Ext := fun _ _ => Classical.propDecidable _

/-- A sum of products, one after another. -/
noncomputable instance : Dot Ext := ⟨fun a b => (List.zipWith (· * ·) a b).foldr (· + ·) 0⟩

/-- Is this a real number? -/
def IsFin (e : Ext) : Prop := ∃ v, e = fin v

end Ext

end Verif.Spec
