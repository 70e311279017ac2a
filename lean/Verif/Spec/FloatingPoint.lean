import Verif.Spec.Rounding
import Mathlib.Data.Real.Basic
import Mathlib.Algebra.Order.Field.Power

/-
Binary floating point numbers with gradual underflow: `p` significant bits, no digit below `2^e`.  binary64 (numpy float64) has p = 53 and e = -1074, binary32
(numpy float32) has p = 24 and e = -149.  There is no largest exponent: overflow is excluded, as are infinities and NaN; the two zeros are one.
-/

namespace Verif.Spec

/-- The floating point numbers. -/
def IsFloat (p : ℕ) (e : ℤ) (x : ℝ) : Prop := ∃ m k : ℤ, |m| ≤ 2 ^ p ∧ e ≤ k ∧ x = m * 2 ^ k

/-- Multiples of `2^g`. -/
def OnGrid (g : ℤ) (x : ℝ) : Prop := ∃ m : ℤ, x = m * 2 ^ g

/-- A way of rounding to a nearest floating point number; ties are broken in any way, for instance to even. -/
structure Nearest (p : ℕ) (e : ℤ) where
  fl : ℝ → ℝ
  float : ∀ x, IsFloat p e (fl x)
  nearest : ∀ x d, IsFloat p e d → |fl x - x| ≤ |d - x|

/-- How a dot product is computed: which partial sums are formed, and which products are fused with an addition (not rounded themselves). -/
inductive DotOrder where
  | product (i : ℕ)
  | sum (l r : DotOrder)
  | fused (l : DotOrder) (i : ℕ)

/-- The indices of the products. -/
def DotOrder.indices : DotOrder → List ℕ
  | .product i => [i]
  | .sum l r => l.indices ++ r.indices
  | .fused l i => l.indices ++ [i]

/-- The sum of the products `q` with every operation rounded by `fl`. -/
def DotOrder.eval (fl : ℝ → ℝ) (q : ℕ → ℝ) : DotOrder → ℝ
  | .product i => fl (q i)
  | .sum l r => fl (l.eval fl q + r.eval fl q)
  | .fused l i => fl (l.eval fl q + q i)

/-- The numbers of a machine which rounds by `ρ` and computes a dot product of `n` terms in the order `t n`. -/
structure Machine {p : ℕ} {e : ℤ} (ρ : Nearest p e) (t : ℕ → DotOrder) where
  val : ℝ
  float : IsFloat p e val

namespace Machine

variable {p : ℕ} {e : ℤ} {ρ : Nearest p e} {t : ℕ → DotOrder}

/-- The number nearest to a real number. -/
def of (ρ : Nearest p e) (t : ℕ → DotOrder) (x : ℝ) : Machine ρ t := ⟨ρ.fl x, ρ.float x⟩

theorem eval_float (q : ℕ → ℝ) (o : DotOrder) : IsFloat p e (o.eval ρ.fl q) := by
  cases o <;> exact ρ.float _

instance : Zero (Machine ρ t) := ⟨⟨0, 0, e, by simp, le_rfl, by simp⟩⟩
noncomputable instance : Add (Machine ρ t) := ⟨fun x y => of ρ t (x.val + y.val)⟩
noncomputable instance : Sub (Machine ρ t) := ⟨fun x y => of ρ t (x.val - y.val)⟩
noncomputable instance : Mul (Machine ρ t) := ⟨fun x y => of ρ t (x.val * y.val)⟩
noncomputable instance : Dot (Machine ρ t) := ⟨fun a b => ⟨(t a.length).eval ρ.fl (fun i => (at0 a i).val * (at0 b i).val), eval_float _ _⟩⟩

end Machine

/-- Every product occurs once. -/
def Complete (t : ℕ → DotOrder) : Prop := ∀ n, 0 < n → (t n).indices.Perm (List.range n)

end Verif.Spec
