import Verif.Spec.Order
import Mathlib.Tactic.Ring
import Mathlib.Algebra.Order.Group.Defs

/-
Opening and closing on two-sided signals.
-/

namespace Verif

open Spec Finset

variable {R : Type*} [LinearOrder R]

theorem erode_le (N : ℕ) (x : ℤ → R) (n : ℤ) (i : ℕ) (hi : i ≤ N) : erode N x n ≤ x (n - i) :=
  inf'_le (fun i : ℕ => x (n - i)) (by simp; omega)

theorem le_erode (N : ℕ) (x : ℤ → R) (n : ℤ) (c : R) (h : ∀ i : ℕ, i ≤ N → c ≤ x (n - i)) : c ≤ erode N x n :=
  le_inf' _ _ (fun i hi => h i (by simp at hi; omega))

theorem le_dilate (N : ℕ) (x : ℤ → R) (n : ℤ) (i : ℕ) (hi : i ≤ N) : x (n - i) ≤ dilate N x n :=
  le_sup' (fun i : ℕ => x (n - i)) (by simp; omega)

theorem dilate_le (N : ℕ) (x : ℤ → R) (n : ℤ) (c : R) (h : ∀ i : ℕ, i ≤ N → x (n - i) ≤ c) : dilate N x n ≤ c :=
  sup'_le _ _ (fun i hi => h i (by simp at hi; omega))

theorem open_le (N : ℕ) (x : ℤ → R) (n : ℤ) : dilate N (erode N x) n ≤ x (n - N) := by
  apply dilate_le
  intro i hi
  have := erode_le N x (n - i) (N - i) (by omega)
  rwa [show n - (i : ℤ) - ((N - i : ℕ) : ℤ) = n - N by omega] at this

theorem le_close (N : ℕ) (x : ℤ → R) (n : ℤ) : x (n - N) ≤ erode N (dilate N x) n := by
  apply le_erode
  intro i hi
  have := le_dilate N x (n - i) (N - i) (by omega)
  rwa [show n - (i : ℤ) - ((N - i : ℕ) : ℤ) = n - N by omega] at this

theorem open_open (N : ℕ) (x : ℤ → R) (n : ℤ) :
    dilate N (erode N (dilate N (erode N x))) n = dilate N (erode N x) (n - N) := by
  apply le_antisymm (open_le N _ n)
  apply dilate_le
  intro j hj
  refine le_trans ?_ (le_dilate N _ n j hj)
  apply le_erode
  intro k hk
  have := le_dilate N (erode N x) (n - j - k) (N - k) (by omega)
  rwa [show n - (j : ℤ) - k - ((N - k : ℕ) : ℤ) = n - N - j by omega] at this

theorem close_close (N : ℕ) (x : ℤ → R) (n : ℤ) :
    erode N (dilate N (erode N (dilate N x))) n = erode N (dilate N x) (n - N) := by
  apply le_antisymm _ (le_close N _ n)
  apply le_erode
  intro j hj
  refine le_trans (erode_le N _ n j hj) ?_
  apply dilate_le
  intro k hk
  have := erode_le N (dilate N x) (n - j - k) (N - k) (by omega)
  rwa [show n - (j : ℤ) - k - ((N - k : ℕ) : ℤ) = n - N - j by omega] at this

theorem erode_congr (N : ℕ) (x z : ℤ → R) (L : ℤ) (h : ∀ n, n < L → x n = z n) (n : ℤ) (hn : n < L) :
    erode N x n = erode N z n := by
  unfold erode
  congr 1
  ext i
  exact h _ (by omega)

theorem dilate_congr (N : ℕ) (x z : ℤ → R) (L : ℤ) (h : ∀ n, n < L → x n = z n) (n : ℤ) (hn : n < L) :
    dilate N x n = dilate N z n := by
  unfold dilate
  congr 1
  ext i
  exact h _ (by omega)

end Verif
