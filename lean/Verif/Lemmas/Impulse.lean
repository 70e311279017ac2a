import Verif.Lemmas.Bibo
import Verif.Lemmas.ZTransform
import Mathlib.LinearAlgebra.Lagrange

/- The numerator of the impulse invariant method (z_transform.py:115-127). -/

namespace Verif

open Finset Verif.Spec

/-- One factor `1 - e z⁻¹`. -/
noncomputable def fac (e : ℂ) : PowerSeries ℂ := 1 - PowerSeries.C e * PowerSeries.X

/-- The powers of `e`. -/
noncomputable def geo (e : ℂ) : PowerSeries ℂ := PowerSeries.mk fun n => e ^ n

theorem fac_geo (e : ℂ) : fac e * geo e = 1 := by
  unfold fac geo
  rw [sub_mul, one_mul]
  ext n
  rw [map_sub, mul_assoc, PowerSeries.coeff_C_mul]
  cases n with
  | zero => simp
  | succ n =>
    rw [PowerSeries.coeff_succ_X_mul]
    simp [PowerSeries.coeff_one, pow_succ]
    ring

theorem ser_pair (e : ℂ) : ser [1, -e] = fac e := by
  rw [ser_cons, ser_cons]
  unfold fac
  ext n
  have : ser ([] : List ℂ) = 0 := by ext k; simp [at0]
  rw [this]
  simp
  ring

theorem others_fold (e : List ℂ) (ii : ℕ) (L : List ℕ) (q : List ℂ) :
    ser (L.foldl (fun q jj => if jj ≠ ii then np.convolve q [1, -(e.getD jj 0)] else q) q) = ser q * (L.map fun j => if j ≠ ii then fac (at0 e j) else 1).prod ∧
    (L.foldl (fun q jj => if jj ≠ ii then np.convolve q [1, -(e.getD jj 0)] else q) q).length = q.length + (L.filter (· ≠ ii)).length := by
  induction L generalizing q with
  | nil => simp
  | cons j L ih =>
    rw [List.foldl_cons, List.map_cons, List.prod_cons]
    obtain ⟨h1, h2⟩ := ih (if j ≠ ii then np.convolve q [1, -(e.getD j 0)] else q)
    rw [h1, h2]
    by_cases h : j = ii
    · simp [h]
    · simp only [ne_eq, h, not_false_eq_true, if_true]
      rw [ser_convolve _ _ (by simp), ser_pair, np.convolve_length _ _ (by simp)]
      simp only [at0]
      refine ⟨by ring, ?_⟩
      rw [List.filter_cons_of_pos (by simpa using h)]
      simp; omega

theorem others_length (n ii : ℕ) (h : ii < n) : ((List.range n).filter (· ≠ ii)).length + 1 = n := by
  have h1 := List.length_eq_countP_add_countP (· ≠ ii) (l := List.range n)
  rw [List.countP_eq_length_filter] at h1
  have h2 : List.countP (fun a => decide ¬decide (a ≠ ii) = true) (List.range n) = 1 := by
    have : (fun a : ℕ => decide ¬decide (a ≠ ii) = true) = fun a => a == ii := by
      funext a; by_cases h : a = ii <;> simp [h]
    rw [this]
    exact List.count_eq_one_of_mem List.nodup_range (List.mem_range.mpr h)
  simp only [List.length_range] at h1
  omega

theorem range_prod_list (n : ℕ) (g : ℕ → PowerSeries ℂ) : ((List.range n).map g).prod = ∏ j ∈ range n, g j := by
  induction n with
  | zero => simp
  | succ n ih => rw [List.range_succ, List.map_append, List.prod_append, ih, prod_range_succ]; simp

theorem range_sum_list (n : ℕ) (g : ℕ → PowerSeries ℂ) : ((List.range n).map g).sum = ∑ j ∈ range n, g j := by
  induction n with
  | zero => simp
  | succ n ih => rw [List.range_succ, List.map_append, List.sum_append, ih, sum_range_succ]; simp

theorem numer_fold (e r : List ℂ) (n : ℕ) (L : List ℕ) (hL : ∀ i ∈ L, i < n) (b : List ℂ) (hb : b.length = n) :
    let s := fun (b : List ℂ) (ii : ℕ) => List.zipWith (· + ·) b (((List.range n).foldl (fun q jj => if jj ≠ ii then np.convolve q [1, -(e.getD jj 0)] else q) [1]).map (r.getD ii 0 * ·))
    ser (L.foldl s b) = ser b + (L.map fun i => PowerSeries.C (at0 r i) * ∏ j ∈ range n, if j ≠ i then fac (at0 e j) else 1).sum ∧ (L.foldl s b).length = n := by
  intro s
  induction L generalizing b with
  | nil => simp [hb]
  | cons i L ih =>
    rw [List.foldl_cons, List.map_cons, List.sum_cons]
    obtain ⟨f1, f2⟩ := others_fold e i (List.range n) [1]
    have hl := others_length n i (hL i (by simp))
    have hq : b.length = (((List.range n).foldl (fun q jj => if jj ≠ i then np.convolve q [1, -(e.getD jj 0)] else q) [1]).map (r.getD i 0 * ·)).length := by
      rw [List.length_map, f2, hb]; simp only [List.length_singleton]; omega
    obtain ⟨h1, h2⟩ := ih (fun j hj => hL j (by simp [hj])) (s b i) (by
      simp only [s, List.length_zipWith]; omega)
    refine ⟨?_, h2⟩
    rw [h1]
    have h3 : ser (s b i) = ser b + PowerSeries.C (at0 r i) * ∏ j ∈ range n, if j ≠ i then fac (at0 e j) else 1 := by
      simp only [s]
      rw [ser_zipWith_add _ _ hq, ser_map_mul, f1]
      have : ser [(1 : ℂ)] = 1 := by
        rw [ser_cons]
        have : ser ([] : List ℂ) = 0 := by ext k; simp [at0]
        rw [this]; simp
      rw [this, one_mul, range_prod_list]
      rfl
    rw [h3]; ring

/-- The numerator over the denominator is the sum of the powers of the poles. -/
theorem impulse_series (e r : List ℂ) (hl : e.length = r.length) :
    ser (zt.impulse e r).1 * PowerSeries.mk (fun n => ∑ i ∈ range r.length, at0 r i * at0 e i ^ n) = ser (zt.impulse e r).2 ∧
      (zt.impulse e r).2.length = r.length + 1 := by
  obtain ⟨h1, h2⟩ := numer_fold e r r.length (List.range r.length) (fun i hi => List.mem_range.mp hi) (List.replicate r.length 0) (by simp)
  have hz : ser (List.replicate r.length (0 : ℂ)) = 0 := by
    ext k; simp [at0, List.getD_eq_getElem?_getD, List.getElem?_replicate]
    split <;> simp
  rw [hz, zero_add] at h1
  have hA : ser (zt.impulse e r).1 = ∏ j ∈ range r.length, fac (at0 e j) := by
    rw [zt.impulse_fst, ser_poly, ← range_prod_list, ← hl]
    congr 1
    apply List.ext_getElem (by simp)
    intro i h1 h2
    simp only [List.length_map] at h1
    simp [fac, at0, List.getD_eq_getElem?_getD, h1]
  have hlA : (zt.impulse e r).1.length = r.length + 1 := by
    rw [zt.impulse_fst, np.poly_length, hl]
  have hB : ser (zt.impulse e r).2 = ∑ i ∈ range r.length, PowerSeries.C (at0 r i) * ∏ j ∈ range r.length, if j ≠ i then fac (at0 e j) else 1 := by
    rw [← range_sum_list, ← h1]
    unfold zt.impulse
    simp only
    split
    · rw [ser_append_zeros]
    · rfl
  refine ⟨?_, ?_⟩
  · have hm : PowerSeries.mk (fun n => ∑ i ∈ range r.length, at0 r i * at0 e i ^ n) = ∑ i ∈ range r.length, PowerSeries.C (at0 r i) * geo (at0 e i) := by
      ext n
      simp [geo, map_sum]
    rw [hA, hB, hm, mul_sum]
    apply sum_congr rfl
    intro i hi
    rw [← mul_prod_erase _ _ hi, ← mul_prod_erase _ (fun j => if j ≠ i then fac (at0 e j) else 1) hi]
    have : ∏ x ∈ (range r.length).erase i, (if x ≠ i then fac (at0 e x) else 1) = ∏ x ∈ (range r.length).erase i, fac (at0 e x) := by
      apply prod_congr rfl
      intro x hx
      rw [if_pos (ne_of_mem_erase hx)]
    rw [this]
    simp only [ne_eq, not_true_eq_false, if_false, one_mul]
    linear_combination (PowerSeries.C (at0 r i) * ∏ x ∈ (range r.length).erase i, fac (at0 e x)) * fac_geo (at0 e i)
  · have hle : r.length < (zt.impulse e r).1.length := by omega
    unfold zt.impulse at hlA hle ⊢
    simp only at hlA hle ⊢
    rw [if_pos (by rw [h2]; exact hle), List.length_append, List.length_replicate, h2, hlA]
    omega

end Verif
