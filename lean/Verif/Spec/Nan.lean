import Verif.Model.Py
import Mathlib.Data.List.Forall2

/-
Numbers together with "not a number".  Every arithmetic operation with a nan operand yields nan, also the product with
zero; a comparison with nan is false.
-/

namespace Verif.Spec

/-- A number of `R`, or nan. -/
inductive Num (R : Type _) where
  | val (v : R)
  | nan
  deriving DecidableEq

variable {R K : Type _}

namespace Num

/-- A function of one argument: nan stays nan. -/
def map {S : Type _} (f : R → S) : Num R → Num S
  | val v => val (f v)
  | nan => nan

/-- An operation with two arguments: nan when one of them is. -/
def map₂ (f : R → R → R) : Num R → Num R → Num R
  | val v, val w => val (f v w)
  | _, _ => nan

instance [Zero R] : Zero (Num R) := ⟨val 0⟩
instance [Add R] : Add (Num R) := ⟨map₂ (· + ·)⟩
instance [Sub R] : Sub (Num R) := ⟨map₂ (· - ·)⟩
instance [Mul R] : Mul (Num R) := ⟨map₂ (· * ·)⟩

/-- The numbers of a list, without the nans. -/
def vals (l : List (Num R)) : List R :=
  l.filterMap (fun | val v => some v | nan => none)

open Classical in
/-- A sum of products is nan when one of the entries is, whatever the other factor. -/
noncomputable instance [Dot R] : Dot (Num R) :=
  ⟨fun a b => if nan ∈ a ∨ nan ∈ b then nan else val (dot (vals a) (vals b))⟩

/-- Comparison: false when a nan takes part. -/
def Lt [LT K] : Num K → Num K → Prop
  | val v, val w => v < w
  | _, _ => False

instance [LT K] : LT (Num K) := ⟨Lt⟩

instance [LT K] [DecidableLT K] : DecidableLT (Num K)
  | val v, val w => inferInstanceAs (Decidable (v < w))
  | val _, nan => inferInstanceAs (Decidable False)
  | nan, val _ => inferInstanceAs (Decidable False)
  | nan, nan => inferInstanceAs (Decidable False)

end Num

/-- `z` is the signal `x` with some number written in place of each nan. -/
def Fills (z : List R) (x : List (Num R)) : Prop :=
  List.Forall₂ (fun v w => w = Num.val v ∨ w = Num.nan) z x

end Verif.Spec
