import Verif.Model.NpPoly
import Mathlib.Tactic.Ring
import Mathlib.Tactic.LinearCombination
import Mathlib.Algebra.Polynomial.Splits
import Mathlib.Algebra.Star.BigOperators

namespace Verif

open Polynomial Spec

variable {R : Type*}

namespace np

theorem toPoly_append_singleton [CommSemiring R] (c : List R) (x : R) : toPoly (c ++ [x]) = toPoly c * X + C x := by
  induction c with
  | nil => simp [toPoly]
  | cons y c ih =>
    simp only [List.cons_append, toPoly, ih, List.length_append, List.length_singleton]
    ring

theorem polyval_eq [CommSemiring R] (c : List R) (x : R) : polyval c x = (toPoly c).eval x := by
  induction c using List.reverseRecOn with
  | nil => simp [polyval, toPoly]
  | append_singleton c y ih =>
    rw [toPoly_append_singleton]
    simp only [polyval, List.foldl_append, List.foldl_cons, List.foldl_nil, eval_add, eval_mul, eval_X, eval_C]
    rw [← ih]; rfl

theorem eval_toPoly [CommSemiring R] (c : List R) (x : R) :
    (toPoly c).eval x = ∑ i ∈ Finset.range c.length, at0 c i * x ^ (c.length - 1 - i) := by
  induction c with
  | nil => simp [toPoly]
  | cons y c ih =>
    rw [List.length_cons, Finset.sum_range_succ']
    simp only [toPoly, eval_add, eval_mul, eval_C, eval_pow, eval_X, ih, Nat.add_sub_cancel, Nat.sub_zero]
    rw [add_comm]
    congr 1
    apply Finset.sum_congr rfl
    intro i hi
    rw [show at0 (y :: c) (i + 1) = at0 c i from rfl, show c.length - (i + 1) = c.length - 1 - i by omega]

theorem toPoly_map_mul [CommSemiring R] (c : List R) (k : R) : toPoly (c.map (k * ·)) = C k * toPoly c := by
  induction c with
  | nil => simp [toPoly]
  | cons y c ih => simp only [List.map_cons, toPoly, ih, List.length_map, C_mul]; ring

theorem toPoly_map [Semiring R] {S : Type*} [Semiring S] (f : R →+* S) (c : List R) :
    toPoly (c.map f) = (toPoly c).map f := by
  induction c with
  | nil => simp [toPoly]
  | cons y c ih => simp [toPoly, ih]

theorem toPoly_append_zeros [CommSemiring R] (c : List R) (k : ℕ) :
    toPoly (c ++ List.replicate k 0) = toPoly c * X ^ k := by
  induction k with
  | zero => simp
  | succ k ih =>
    rw [List.replicate_succ', ← List.append_assoc, toPoly_append_singleton, ih]
    simp; ring

theorem toPoly_zipWith_add [CommSemiring R] (u v : List R) (h : u.length = v.length) :
    toPoly (List.zipWith (· + ·) u v) = toPoly u + toPoly v := by
  induction u generalizing v with
  | nil =>
    have : v = [] := List.length_eq_zero_iff.mp h.symm
    subst this; simp [toPoly]
  | cons x u ih =>
    cases v with
    | nil => simp at h
    | cons y v =>
      simp only [List.length_cons, Nat.add_right_cancel_iff] at h
      simp only [List.zipWith_cons_cons, toPoly, ih v h, List.length_zipWith, h, min_self, C_add]
      ring

theorem toPoly_zeros [CommSemiring R] (k : ℕ) : toPoly (List.replicate k (0 : R)) = 0 := by
  have := toPoly_append_zeros ([] : List R) k
  simpa [toPoly] using this

theorem convolve_length [CommSemiring R] (a b : List R) (hb : b ≠ []) : (convolve a b).length = a.length + b.length - 1 := by
  have hb' : 0 < b.length := List.length_pos_of_ne_nil hb
  induction a with
  | nil => simp [convolve]
  | cons x a ih =>
    simp only [convolve, List.length_zipWith, List.length_append, List.length_map, List.length_replicate,
      List.length_cons, ih]
    omega

theorem toPoly_convolve [CommSemiring R] (a b : List R) (hb : b ≠ []) : toPoly (convolve a b) = toPoly a * toPoly b := by
  have hb' : 0 < b.length := List.length_pos_of_ne_nil hb
  induction a with
  | nil => simp [convolve, toPoly, toPoly_zeros]
  | cons x a ih =>
    rw [convolve, toPoly_zipWith_add _ _ (by
      simp only [List.length_append, List.length_map, List.length_replicate, List.length_cons, convolve_length a b hb]; omega)]
    simp only [toPoly, toPoly_append_zeros, toPoly_map_mul, ih]
    simp
    ring

theorem poly_fold [CommRing R] (r : List R) (c : List R) :
    toPoly (r.foldl (fun a z => convolve a [1, -z]) c) = toPoly c * (r.map fun z => X - C z).prod ∧
      (r.foldl (fun a z => convolve a [1, -z]) c).length = c.length + r.length := by
  induction r generalizing c with
  | nil => simp
  | cons z r ih =>
    obtain ⟨h1, h2⟩ := ih (convolve c [1, -z])
    refine ⟨?_, ?_⟩
    · rw [List.foldl_cons, h1, toPoly_convolve _ _ (by simp), List.map_cons, List.prod_cons]
      simp [toPoly]; ring
    · rw [List.foldl_cons, h2, convolve_length _ _ (by simp)]
      simp; omega

theorem toPoly_poly [CommRing R] (r : List R) : toPoly (poly r) = (r.map fun z => X - C z).prod := by
  rw [poly, (poly_fold r [1]).1]; simp [toPoly]

theorem poly_length [CommRing R] (r : List R) : (poly r).length = r.length + 1 := by
  rw [poly, (poly_fold r [1]).2]; simp [add_comm]

/-- A coefficient list is determined by its polynomial and length. -/
theorem coeff_toPoly [CommSemiring R] (c : List R) (k : ℕ) (hk : k < c.length) : (toPoly c).coeff (c.length - 1 - k) = at0 c k := by
  induction c generalizing k with
  | nil => simp at hk
  | cons y c ih =>
    have hdeg : ∀ (c : List R) (m : ℕ), c.length ≤ m → (toPoly c).coeff m = 0 := by
      intro c
      induction c with
      | nil => simp [toPoly]
      | cons z c ih2 =>
        intro m hm
        simp only [List.length_cons] at hm
        simp only [toPoly, coeff_add, coeff_C_mul, coeff_X_pow]
        rw [if_neg (by omega), ih2 m (by omega)]; simp
    cases k with
    | zero =>
      simp only [toPoly, List.length_cons, Nat.add_sub_cancel, Nat.sub_zero, coeff_add, coeff_C_mul, coeff_X_pow, if_true, mul_one]
      rw [hdeg c _ le_rfl]; simp [at0]
    | succ k =>
      simp only [List.length_cons] at hk
      have hk' : k < c.length := by omega
      simp only [toPoly, List.length_cons, Nat.add_sub_cancel, coeff_add, coeff_C_mul, coeff_X_pow]
      rw [if_neg (by omega), show c.length - (k + 1) = c.length - 1 - k by omega, ih k hk']
      simp [at0]

theorem toPoly_inj [CommSemiring R] (c d : List R) (hl : c.length = d.length) (h : toPoly c = toPoly d) : c = d := by
  apply List.ext_getElem hl
  intro i h1 h2
  have e1 := coeff_toPoly c i h1
  have e2 := coeff_toPoly d i h2
  rw [h, hl, e2] at e1
  simpa [at0, h1, h2] using e1.symm

/-- `toPoly` of a list with a nonzero head is nonzero, with the expected degree. -/
theorem toPoly_ne_zero [CommSemiring R] (c : List R) (x : R) (hx : x ≠ 0) : toPoly (x :: c) ≠ 0 := by
  intro h
  have := coeff_toPoly (x :: c) 0 (by simp)
  rw [h] at this
  simp [at0] at this
  exact hx this.symm

theorem natDegree_toPoly_le [CommSemiring R] (c : List R) : (toPoly c).natDegree ≤ c.length - 1 := by
  induction c with
  | nil => simp [toPoly]
  | cons z c ih =>
    simp only [toPoly, List.length_cons, Nat.add_sub_cancel]
    apply natDegree_add_le_of_degree_le
    · exact natDegree_C_mul_X_pow_le _ _
    · omega

theorem natDegree_toPoly [CommSemiring R] (c : List R) (x : R) (hx : x ≠ 0) : (toPoly (x :: c)).natDegree = c.length := by
  apply le_antisymm
  · simpa using natDegree_toPoly_le (x :: c)
  · apply le_natDegree_of_ne_zero
    have := coeff_toPoly (x :: c) 0 (by simp)
    simp at this
    rw [this]; simpa [at0] using hx

theorem roots_length (c : List ℂ) (x : ℂ) (hx : x ≠ 0) : (roots (x :: c)).length = c.length := by
  rw [roots, Multiset.length_toList, splits_iff_card_roots.mp (IsAlgClosed.splits _), natDegree_toPoly c x hx]

theorem mem_roots (c : List ℂ) (x z : ℂ) (hx : x ≠ 0) : z ∈ roots (x :: c) ↔ polyval (x :: c) z = 0 := by
  rw [roots, Multiset.mem_toList, Polynomial.mem_roots (toPoly_ne_zero c x hx), IsRoot, polyval_eq]

/-- The roots of a real polynomial are closed under conjugation, with multiplicity. -/
theorem roots_conj (c : List ℝ) : ((roots (c.map (fun r : ℝ => (r : ℂ)))).map (starRingEnd ℂ)).Perm (roots (c.map (fun r : ℝ => (r : ℂ)))) := by
  unfold roots
  rw [← Multiset.coe_eq_coe, ← Multiset.map_coe, Multiset.coe_toList]
  have h1 : toPoly (c.map (fun r : ℝ => (r : ℂ))) = (toPoly c).map Complex.ofRealHom := toPoly_map Complex.ofRealHom c
  have h2 : (toPoly (c.map (fun r : ℝ => (r : ℂ)))).map (starRingEnd ℂ) = toPoly (c.map (fun r : ℝ => (r : ℂ))) := by
    rw [h1, Polynomial.map_map]
    congr 1
    ext x
    simp
  conv_rhs => rw [← h2]
  exact (IsAlgClosed.splits _).roots_map_of_injective (RingHom.injective _) |>.symm

/-- `numpy.poly` of a conjugation-closed list of roots has real coefficients. -/
theorem poly_real (r : List ℂ) (h : (r.map (starRingEnd ℂ)).Perm r) :
    (((poly r).map Complex.re).map (fun r : ℝ => (r : ℂ))) = poly r := by
  have hp : toPoly ((poly r).map (starRingEnd ℂ)) = toPoly (poly r) := by
    rw [toPoly_map, toPoly_poly, Polynomial.map_list_prod, List.map_map]
    have : (List.map (Polynomial.map (starRingEnd ℂ) ∘ fun z => X - C z) r) = (r.map (starRingEnd ℂ)).map (fun z => X - C z) := by
      rw [List.map_map]; apply List.map_congr_left; intro z _; simp
    rw [this]
    exact (h.map _).prod_eq
  have hl := toPoly_inj _ _ (by simp) hp
  rw [List.map_map]
  conv_rhs => rw [← List.map_id (poly r)]
  apply List.map_congr_left
  intro z hz
  have : (starRingEnd ℂ) z = z := by
    obtain ⟨i, hi, rfl⟩ := List.getElem_of_mem hz
    have := congrArg (fun l => l[i]?) hl
    simp [hi] at this
    exact this
  simpa using Complex.conj_eq_iff_re.mp this

end np

end Verif
