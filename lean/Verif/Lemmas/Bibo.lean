import Verif.Lemmas.Iir
import Verif.Lemmas.ZTransform
import Mathlib.Algebra.Order.BigOperators.Ring.Finset
import Mathlib.Analysis.SpecificLimits.Basic
import Mathlib.Algebra.Order.Field.GeomSum

/-
A stable recursion has an absolutely summable impulse response.
-/

namespace Verif

open Finset Spec

/-- The partial sums of absolute coefficients are at most `K`. -/
def SumBound (K : ℝ) (p : PowerSeries ℂ) : Prop := ∀ n, ∑ k ∈ range n, ‖PowerSeries.coeff k p‖ ≤ K

theorem SumBound.nonneg {K : ℝ} {p : PowerSeries ℂ} (h : SumBound K p) : 0 ≤ K := by simpa using h 0

theorem SumBound.mul {K L : ℝ} {p q : PowerSeries ℂ} (hp : SumBound K p) (hq : SumBound L q) : SumBound (K * L) (p * q) := by
  intro n
  calc ∑ k ∈ range n, ‖PowerSeries.coeff k (p * q)‖
      ≤ ∑ m ∈ range n, ∑ k ∈ range (m + 1), ‖PowerSeries.coeff k p‖ * ‖PowerSeries.coeff (m - k) q‖ := by
        apply sum_le_sum
        intro m _
        rw [PowerSeries.coeff_mul, Finset.Nat.sum_antidiagonal_eq_sum_range_succ_mk]
        refine (norm_sum_le _ _).trans (le_of_eq ?_)
        apply sum_congr rfl
        intro i _
        exact norm_mul _ _
    _ = ∑ m ∈ range n, ∑ k ∈ range (n - m), ‖PowerSeries.coeff m p‖ * ‖PowerSeries.coeff k q‖ :=
        Finset.sum_range_diag_flip n (fun i j => ‖PowerSeries.coeff i p‖ * ‖PowerSeries.coeff j q‖)
    _ ≤ ∑ m ∈ range n, ‖PowerSeries.coeff m p‖ * L := by
        apply sum_le_sum
        intro m _
        rw [← mul_sum]
        exact mul_le_mul_of_nonneg_left (hq _) (norm_nonneg _)
    _ = (∑ m ∈ range n, ‖PowerSeries.coeff m p‖) * L := by rw [sum_mul]
    _ ≤ K * L := mul_le_mul_of_nonneg_right (hp n) hq.nonneg

theorem sumBound_geometric (r : ℂ) (hr : ‖r‖ < 1) : SumBound (1 / (1 - ‖r‖)) (PowerSeries.mk fun n => r ^ n) := by
  intro n
  simp only [PowerSeries.coeff_mk, norm_pow]
  rw [range_eq_Ico]
  simpa using geom_sum_Ico_le_of_lt_one (m := 0) (n := n) (norm_nonneg r) hr

theorem geometric_mul (r : ℂ) : (1 - PowerSeries.C r * PowerSeries.X) * (PowerSeries.mk fun n => r ^ n) = 1 := by
  ext n
  rw [sub_mul, one_mul, map_sub, mul_assoc, PowerSeries.coeff_C_mul]
  cases n with
  | zero => simp
  | succ n =>
    rw [PowerSeries.coeff_succ_X_mul]
    simp [PowerSeries.coeff_one, pow_succ, mul_comm]

theorem ser_cons {R : Type*} [CommRing R] (x : R) (l : List R) : ser (x :: l) = PowerSeries.C x + PowerSeries.X * ser l := by
  ext n
  cases n with
  | zero => simp [at0]
  | succ n =>
    rw [map_add, PowerSeries.coeff_succ_X_mul]
    simp [at0]

theorem ser_append_zeros {R : Type*} [CommRing R] (l : List R) (k : ℕ) : ser (l ++ List.replicate k 0) = ser l := by
  ext n
  simp only [coeff_ser, at0, List.getD_eq_getElem?_getD, List.getElem?_append]
  split
  · rfl
  · rename_i h
    rw [List.getElem?_eq_none (l := l) (by omega), List.getElem?_replicate]
    split <;> rfl

theorem ser_map_mul {R : Type*} [CommRing R] (l : List R) (k : R) : ser (l.map (k * ·)) = PowerSeries.C k * ser l := by
  ext n
  rw [PowerSeries.coeff_C_mul]
  simp only [coeff_ser, at0, List.getD_eq_getElem?_getD, List.getElem?_map]
  cases l[n]? <;> simp

theorem ser_zipWith_add {R : Type*} [CommRing R] (u v : List R) (h : u.length = v.length) :
    ser (List.zipWith (· + ·) u v) = ser u + ser v := by
  ext n
  simp [at0_zipWith_add u v h]

theorem ser_convolve {R : Type*} [CommRing R] (u v : List R) (hv : v ≠ []) : ser (np.convolve u v) = ser u * ser v := by
  have hv' : 0 < v.length := List.length_pos_of_ne_nil hv
  induction u with
  | nil =>
    simp only [np.convolve]
    have h0 : ser ([] : List R) = 0 := by ext n; simp [at0]
    have := ser_append_zeros ([] : List R) (v.length - 1)
    simp only [List.nil_append] at this
    rw [this, h0]; simp
  | cons x u ih =>
    rw [np.convolve, ser_zipWith_add _ _ (by
      simp only [List.length_append, List.length_map, List.length_replicate, List.length_cons, np.convolve_length u v hv]; omega),
      ser_append_zeros, ser_map_mul, ser_cons, ser_cons, ih]
    simp
    ring

theorem ser_poly (r : List ℂ) : ser (np.poly r) = (r.map fun z => 1 - PowerSeries.C z * PowerSeries.X).prod := by
  have h : ∀ c : List ℂ, ser (r.foldl (fun a z => np.convolve a [1, -z]) c) = ser c * (r.map fun z => 1 - PowerSeries.C z * PowerSeries.X).prod := by
    induction r with
    | nil => intro c; simp
    | cons z r ih =>
      intro c
      rw [List.foldl_cons, ih, ser_convolve _ _ (by simp), List.map_cons, List.prod_cons, ser_cons, ser_cons]
      have h0 : ser ([] : List ℂ) = 0 := by ext n; simp [at0]
      rw [h0]
      simp
      ring
  rw [np.poly, h, ser_cons]
  have h0 : ser ([] : List ℂ) = 0 := by ext n; simp [at0]
  rw [h0]; simp

/-- The inverse of a product of `1 - z X` with `‖z‖ < 1` is absolutely summable. -/
theorem sumBound_prod (r : List ℂ) (hr : ∀ z ∈ r, ‖z‖ < 1) :
    ∃ K q, SumBound K q ∧ (r.map fun z => 1 - PowerSeries.C z * PowerSeries.X).prod * q = 1 := by
  induction r with
  | nil =>
    refine ⟨1, 1, ?_, by simp⟩
    intro n
    simp only [PowerSeries.coeff_one]
    rw [Finset.sum_congr rfl (g := fun k => if k = 0 then (1 : ℝ) else 0) (fun k _ => by split <;> simp)]
    rw [Finset.sum_ite_eq']
    split <;> norm_num
  | cons z r ih =>
    obtain ⟨K, q, hK, hq⟩ := ih (fun y hy => hr y (by simp [hy]))
    refine ⟨_, _, (sumBound_geometric z (hr z (by simp))).mul hK, ?_⟩
    rw [List.map_cons, List.prod_cons]
    have := geometric_mul z
    linear_combination (((r.map fun z => 1 - PowerSeries.C z * PowerSeries.X).prod * q)) * this + hq

theorem ser_map_ofReal (l : List ℝ) : (ser l).map Complex.ofRealHom = ser (np.complexOf l) := by
  ext n; simp [at0_complexOf]

/-- The characteristic polynomial of a recursion factors over its poles. -/
theorem stable_factors (a : List ℝ) (h0 : at0 a 0 = 0) (ha : a ≠ []) :
    ∃ r : List ℂ, (∀ z, z ∈ r ↔ Pole a z) ∧ np.complexOf (1 :: a.tail.map (- ·)) = np.poly r := by
  set c : List ℂ := np.complexOf (1 :: a.tail.map (- ·)) with hc
  have hcc : c = 1 :: np.complexOf (a.tail.map (- ·)) := by simp [hc, np.complexOf]
  refine ⟨np.roots c, ?_, ?_⟩
  · intro z
    rw [hcc, np.mem_roots _ _ _ one_ne_zero, np.polyval_eq, ← hcc, hc, ← isRootOf_iff]
    cases a with
    | nil => exact absurd rfl ha
    | cons x a =>
      simp only [at0, List.getD_cons_zero] at h0
      subst h0
      unfold IsRootOf Pole
      simp only [List.tail_cons, List.length_cons, List.length_map, Nat.add_sub_cancel]
      rw [sum_range_succ']
      have hs : ∑ i ∈ Icc 1 a.length, ((at0 ((0 : ℝ) :: a) i : ℝ) : ℂ) * z ^ (a.length - i) =
          - ∑ i ∈ range a.length, ((at0 ((1 : ℝ) :: a.map (- ·)) (i + 1) : ℝ) : ℂ) * z ^ (a.length - (i + 1)) := by
        rw [← sum_neg_distrib, range_eq_Ico, Finset.sum_Ico_add' (fun i => -(((at0 ((1 : ℝ) :: a.map (- ·)) i : ℝ) : ℂ) * z ^ (a.length - i))) 0 a.length 1]
        rw [show Ico (0 + 1) (a.length + 1) = Icc 1 a.length by ext; simp]
        apply sum_congr rfl
        intro i hi
        obtain ⟨k, rfl⟩ : ∃ k, i = k + 1 := ⟨i - 1, by have := (mem_Icc.mp hi).1; omega⟩
        simp only [at0, List.getD_eq_getElem?_getD]
        cases h : a[k]? <;> simp [h]
      rw [hs]
      simp only [at0, List.getD_cons_zero, Nat.sub_zero, Complex.ofReal_one, one_mul]
      constructor
      · intro h; linear_combination h
      · intro h; linear_combination h
  · apply np.toPoly_inj
    · rw [np.poly_length, hcc, np.roots_length _ _ one_ne_zero]; simp
    · rw [np.toPoly_poly]
      have hm : (np.toPoly c).Monic := by
        unfold Polynomial.Monic Polynomial.leadingCoeff
        have := np.coeff_toPoly c 0 (by rw [hcc]; simp)
        rw [hcc] at this ⊢
        rw [np.natDegree_toPoly _ _ one_ne_zero]
        simpa [at0] using this
      have := (IsAlgClosed.splits (np.toPoly c)).eq_prod_roots_of_monic hm
      rw [this]
      conv_lhs => rw [← Multiset.coe_toList (np.toPoly c).roots]
      rw [Multiset.map_coe, Multiset.prod_coe]
      rfl

/-- The impulse response `1 / (1 - A)` of a stable recursion is absolutely summable. -/
theorem stable_sumBound (a : List ℝ) (h0 : at0 a 0 = 0) (ha : a ≠ []) (hst : Stable a) :
    ∃ K, SumBound K ((recip a).map Complex.ofRealHom) := by
  obtain ⟨r, hr, hf⟩ := stable_factors a h0 ha
  obtain ⟨K, q, hK, hq⟩ := sumBound_prod r (fun z hz => hst z ((hr z).mp hz))
  refine ⟨K, ?_⟩
  rw [← ser_poly, ← hf, ← ser_map_ofReal] at hq
  have hser : ser (1 :: a.tail.map (- ·)) = 1 - ser a := by
    ext n
    cases a with
    | nil => exact absurd rfl ha
    | cons x a =>
      simp only [at0, List.getD_cons_zero] at h0
      subst h0
      cases n with
      | zero => rw [map_sub, coeff_ser, coeff_ser]; simp [at0]
      | succ n =>
        simp only [coeff_ser, map_sub, PowerSeries.coeff_one, at0, List.getD_eq_getElem?_getD, List.tail_cons]
        cases h : a[n]? <;> simp [h]
  rw [hser] at hq
  have hrec := congrArg (PowerSeries.map Complex.ofRealHom) (mul_recip a h0)
  rw [map_mul, map_one] at hrec
  have : (recip a).map Complex.ofRealHom = q := by
    linear_combination q * hrec - ((recip a).map Complex.ofRealHom) * hq
  rw [this]; exact hK

theorem sumBound_ser (l : List ℝ) : SumBound (∑ k ∈ range l.length, |at0 l k|) ((ser l).map Complex.ofRealHom) := by
  intro n
  have : ∀ k, ‖PowerSeries.coeff k ((ser l).map Complex.ofRealHom)‖ = |at0 l k| := by
    intro k; simp
  simp only [this]
  rcases le_total n l.length with h | h
  · exact sum_le_sum_of_subset_of_nonneg (range_subset_range.mpr h) (fun _ _ _ => abs_nonneg _)
  · apply le_of_eq
    symm
    apply sum_subset (range_subset_range.mpr h)
    intro k _ hk
    rw [mem_range, not_lt] at hk
    rw [at0_of_le _ _ hk]; simp

end Verif
