import Verif.Model.ZTransform
import Verif.Lemmas.NpPoly
import Verif.Spec.Stability
import Mathlib.Tactic.Positivity
import Mathlib.Tactic.FieldSimp
import Mathlib.Tactic.Linarith

namespace Verif

open Polynomial Spec

theorem at0_complexOf (u : List ℝ) (i : ℕ) : at0 (np.complexOf u) i = ((at0 u i : ℝ) : ℂ) := by
  unfold np.complexOf at0
  rw [List.getD_eq_getElem?_getD, List.getD_eq_getElem?_getD, List.getElem?_map]
  cases u[i]? <;> simp

theorem isRootOf_iff (u : List ℝ) (s : ℂ) : IsRootOf u s ↔ (np.toPoly (np.complexOf u)).eval s = 0 := by
  rw [np.eval_toPoly]
  unfold IsRootOf
  simp only [at0_complexOf]
  rw [show (np.complexOf u).length = u.length by simp [np.complexOf]]

theorem zt.toPoly_strip (u : List ℝ) : np.toPoly (np.complexOf (zt.strip u)) = np.toPoly (np.complexOf u) := by
  classical
  induction u with
  | nil => rfl
  | cons x u ih =>
    by_cases hx : x = 0
    · subst hx
      rw [show zt.strip (0 :: u) = zt.strip u by simp [zt.strip, List.dropWhile], ih]
      simp [np.complexOf, np.toPoly]
    · rw [show zt.strip (x :: u) = x :: u by simp [zt.strip, List.dropWhile, hx]]

theorem zt.strip_cons (u : List ℝ) (h : ¬ ∀ c ∈ u, c = 0) : ∃ x t, zt.strip u = x :: t ∧ x ≠ 0 := by
  classical
  induction u with
  | nil => simp at h
  | cons x u ih =>
    by_cases hx : x = 0
    · subst hx
      rw [show zt.strip (0 :: u) = zt.strip u by simp [zt.strip, List.dropWhile]]
      exact ih (by simpa using h)
    · exact ⟨x, u, by simp [zt.strip, List.dropWhile, hx], hx⟩

theorem zt.complexOf_div (u : List ℝ) (d : ℝ) : np.complexOf (u.map (· / d)) = (np.complexOf u).map ((d⁻¹ : ℂ) * ·) := by
  simp only [np.complexOf, List.map_map]
  apply List.map_congr_left
  intro r _
  simp [div_eq_mul_inv, mul_comm]

theorem zt.roots_scaled (u : List ℝ) (x : ℝ) (t : List ℝ) (hs : zt.strip u = x :: t) (hx : x ≠ 0) (d : ℝ) (hd : d ≠ 0) (s : ℂ) :
    s ∈ np.roots (np.complexOf ((zt.strip u).map (· / d))) ↔ IsRootOf u s := by
  rw [isRootOf_iff, ← zt.toPoly_strip, hs]
  have hne : np.toPoly (np.complexOf ((x :: t).map (· / d))) ≠ 0 := by
    simp only [np.complexOf, List.map_cons]
    apply np.toPoly_ne_zero
    simp [hx, hd]
  rw [np.roots, Multiset.mem_toList, Polynomial.mem_roots hne, IsRoot, zt.complexOf_div, np.toPoly_map_mul, eval_mul, eval_C]
  simp [hd]

theorem np.poly_head (r : List ℂ) : at0 (np.poly r) 0 = 1 := by
  have h := np.coeff_toPoly (np.poly r) 0 (by rw [np.poly_length]; omega)
  rw [np.poly_length, np.toPoly_poly] at h
  rw [← h]
  have hm : ((r.map fun z => X - C z).prod : ℂ[X]).Monic := by
    have := monic_multiset_prod_of_monic (r : Multiset ℂ) (fun z => X - C z) (fun z _ => monic_X_sub_C z)
    simpa using this
  have hd : ((r.map fun z => X - C z).prod : ℂ[X]).natDegree = r.length := by
    have := Polynomial.natDegree_multiset_prod_X_sub_C_eq_card (r : Multiset ℂ)
    simpa using this
  have := hm.coeff_natDegree
  rw [hd] at this
  simpa using this

/-- The recursive coefficients built from a conjugation-closed list of poles have exactly these poles. -/
theorem zt.recursive_pole (r : List ℂ) (h : (r.map (starRingEnd ℂ)).Perm r) (z : ℂ) :
    Pole (zt.recursive ((np.poly r).map Complex.re)) z ↔ z ∈ r := by
  have hr := np.poly_real r h
  have hh := np.poly_head r
  set c := (np.poly r).map Complex.re with hc
  have hlen : c.length = r.length + 1 := by rw [hc, List.length_map, np.poly_length]
  have hc0 : at0 c 0 = 1 := by
    have : at0 (np.complexOf c) 0 = 1 := by rw [show np.complexOf c = np.poly r from hr, hh]
    rw [at0_complexOf] at this
    exact_mod_cast this
  have hl2 : (zt.recursive c).length = r.length + 1 := by simp [zt.recursive, hlen]
  have hai : ∀ i, 1 ≤ i → at0 (zt.recursive c) i = - at0 c i := by
    intro i hi
    obtain ⟨k, rfl⟩ : ∃ k, i = k + 1 := ⟨i - 1, by omega⟩
    clear_value c
    clear hr hl2
    cases c with
    | nil => simp at hlen
    | cons y c =>
      simp only [at0, List.getD_cons_zero] at hc0
      subst hc0
      simp only [zt.recursive, at0, List.headD_cons, List.map_cons, List.tail_cons, List.getD_cons_succ]
      rw [List.getD_eq_getElem?_getD, List.getD_eq_getElem?_getD, List.getElem?_map]
      cases c[k]? <;> simp [div_neg]
  have hev : (np.toPoly (np.complexOf c)).eval z = 0 ↔ z ∈ r := by
    rw [show np.complexOf c = np.poly r from hr, np.toPoly_poly, Polynomial.eval_list_prod, List.prod_eq_zero_iff]
    simp only [List.map_map, List.mem_map, Function.comp_apply, eval_sub, eval_X, eval_C]
    constructor
    · rintro ⟨a, ha, h0⟩
      rw [sub_eq_zero.mp h0]; exact ha
    · intro hz
      exact ⟨z, hz, by simp⟩
  rw [← hev, ← isRootOf_iff]
  unfold Pole IsRootOf
  rw [hl2, hlen, Finset.sum_range_succ']
  simp only [Nat.add_sub_cancel, Nat.sub_zero, hc0, Complex.ofReal_one, one_mul]
  have hs : ∑ i ∈ Finset.Icc 1 r.length, ((at0 (zt.recursive c) i : ℝ) : ℂ) * z ^ (r.length - i) =
      - ∑ i ∈ Finset.range r.length, ((at0 c (i + 1) : ℝ) : ℂ) * z ^ (r.length - (i + 1)) := by
    rw [← Finset.sum_neg_distrib, Finset.range_eq_Ico,
      Finset.sum_Ico_add' (fun i => -(((at0 c i : ℝ) : ℂ) * z ^ (r.length - i))) 0 r.length 1]
    rw [show Finset.Ico (0 + 1) (r.length + 1) = Finset.Icc 1 r.length by ext; simp]
    apply Finset.sum_congr rfl
    intro i hi
    rw [hai i (Finset.mem_Icc.mp hi).1]
    push_cast; ring
  rw [hs]
  constructor
  · intro h; rw [h]; ring
  · intro h; linear_combination h

theorem zt.bilinear_conj (h : ℝ) (p : ℂ) : (starRingEnd ℂ) (zt.bilinear h p) = zt.bilinear h ((starRingEnd ℂ) p) := by
  simp [zt.bilinear]

theorem zt.map_conj_perm (l : List ℂ) (g : ℂ → ℂ) (hg : ∀ p, (starRingEnd ℂ) (g p) = g ((starRingEnd ℂ) p))
    (h : (l.map (starRingEnd ℂ)).Perm l) : ((l.map g).map (starRingEnd ℂ)).Perm (l.map g) := by
  rw [List.map_map, show (starRingEnd ℂ ∘ g) = g ∘ starRingEnd ℂ from funext hg, ← List.map_map]
  exact h.map g

theorem zt.impulse_fst (e r : List ℂ) : (zt.impulse e r).1 = np.poly e := rfl

/-- The bilinear map takes the left half plane into the unit disc. -/
theorem zt.norm_bilinear_lt (h : ℝ) (hh : 0 < h) (p : ℂ) (hp : p.re < 0) : ‖zt.bilinear h p‖ < 1 := by
  unfold zt.bilinear
  have hre : (p / h).re < 0 := by
    rw [Complex.div_ofReal_re]; exact div_neg_of_neg_of_pos hp hh
  set q := p / h
  have hne : (1 - q) ≠ 0 := by
    intro h0
    have := congrArg Complex.re h0
    simp at this; linarith
  rw [norm_div, div_lt_one (norm_pos_iff.mpr hne)]
  rw [← sq_lt_sq₀ (norm_nonneg _) (norm_nonneg _), ← Complex.normSq_eq_norm_sq, ← Complex.normSq_eq_norm_sq,
    Complex.normSq_apply, Complex.normSq_apply]
  simp
  nlinarith

theorem zt.norm_exp_lt (t : ℝ) (ht : 0 < t) (p : ℂ) (hp : p.re < 0) : ‖Complex.exp (p / t)‖ < 1 := by
  rw [Complex.norm_exp, Complex.div_ofReal_re, Real.exp_lt_one_iff]
  exact div_neg_of_neg_of_pos hp ht

end Verif
