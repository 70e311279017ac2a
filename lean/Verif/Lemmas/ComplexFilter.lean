import Verif.Model.ComplexFilter
import Verif.Spec.ComplexFilter
import Verif.Lemmas.IirState

/-
Stable recursions with complex coefficients.
-/

namespace Verif

open Finset Spec

theorem dtftC_complexOf (c : List ℝ) (f : ℝ) : dtftC (np.complexOf c) f = dtft c f := by
  unfold dtftC dtft
  simp only [at0_complexOf]
  simp [np.complexOf]

theorem dtftC_period (c : List ℂ) (f : ℝ) : dtftC c (f + 2) = dtftC c f := by
  unfold dtftC
  apply sum_congr rfl
  intro n _
  congr 1
  rw [show -(Complex.I * Real.pi * ((f + 2 : ℝ) : ℂ) * n) = -(Complex.I * Real.pi * f * n) + ((-(n : ℤ) : ℤ) : ℂ) * (2 * Real.pi * Complex.I) by
    push_cast; ring, Complex.exp_add, Complex.exp_int_mul_two_pi_mul_I, mul_one]

theorem polyval_reverseC (c : List ℂ) (f : ℝ) : np.polyval c.reverse (Complex.exp (-(Complex.I * Real.pi * f))) = dtftC c f := by
  rw [np.polyval_eq, np.eval_toPoly, ← sum_range_reflect]
  have hl : c.reverse.length = c.length := by simp
  rw [hl, dtftC]
  apply sum_congr rfl
  intro i hi
  have hi := mem_range.mp hi
  have : at0 c.reverse (c.length - 1 - i) = at0 c i := by
    rw [at0_of_lt _ _ (by rw [hl]; omega), at0_of_lt _ _ hi, List.getElem_reverse]
    congr 1
    omega
  rw [this, show c.length - 1 - (c.length - 1 - i) = i by omega, ← Complex.exp_nat_mul]
  congr 2
  ring

/-- The denominator polynomial. -/
theorem poly_poleC (a : List ℂ) (ha : a ≠ []) (z : ℂ) : (np.toPoly (1 :: a.tail.map (- ·))).eval z = poleValue a z := by
  rw [np.eval_toPoly, poleValue]
  have hl : ((1 : ℂ) :: a.tail.map (- ·)).length = a.length := by
    have := List.length_pos_of_ne_nil ha
    simp; omega
  rw [hl]
  obtain ⟨m, hm⟩ : ∃ m, a.length = m + 1 := ⟨a.length - 1, by have := List.length_pos_of_ne_nil ha; omega⟩
  rw [hm, sum_range_succ', sum_bij (s := Icc 1 (m + 1 - 1)) (t := range m)
    (g := fun j => at0 a (j + 1) * z ^ (m + 1 - 1 - (j + 1))) (fun i _ => i - 1)]
  · have e : ∀ j, at0 ((1 : ℂ) :: a.tail.map (- ·)) (j + 1) = - at0 a (j + 1) := by
      intro j
      rw [at0_cons_succ]
      unfold at0
      rw [List.getD_eq_getElem?_getD, List.getD_eq_getElem?_getD, List.getElem?_map, List.getElem?_tail]
      cases a[j + 1]? <;> simp
    simp only [e, at0_cons_zero]
    simp only [neg_mul, sum_neg_distrib, one_mul, Nat.sub_zero]
    ring
  · intro i hi; have := mem_Icc.mp hi; exact mem_range.mpr (by omega)
  · intro i hi j hj h; have := mem_Icc.mp hi; have := mem_Icc.mp hj; omega
  · intro j hj; have := mem_range.mp hj; exact ⟨j + 1, mem_Icc.mpr ⟨by omega, by omega⟩, by omega⟩
  · intro i hi; have := mem_Icc.mp hi; rw [show i - 1 + 1 = i by omega]

theorem ser_denominator {R : Type*} [CommRing R] (a : List R) (h0 : at0 a 0 = 0) (ha : a ≠ []) : ser (1 :: a.tail.map (- ·)) = 1 - ser a := by
  ext n
  cases a with
  | nil => exact absurd rfl ha
  | cons x a =>
    simp only [at0, List.getD_cons_zero] at h0
    subst h0
    cases n with
    | zero => rw [map_sub, coeff_ser, coeff_ser]; simp [at0]
    | succ n =>
      simp only [coeff_ser, map_sub, PowerSeries.coeff_one, at0, List.getD_eq_getElem?_getD, List.tail_cons]
      cases h : a[n]? <;> simp [h]

theorem dtftC_one_sub (a : List ℂ) (ha : a ≠ []) (h0 : at0 a 0 = 0) (f : ℝ) : dtftC (1 :: a.tail.map (- ·)) f = 1 - dtftC a f := by
  cases a with
  | nil => exact absurd rfl ha
  | cons x a =>
    simp only [at0, List.getD_cons_zero] at h0
    subst h0
    unfold dtftC
    rw [List.length_cons, List.length_cons, sum_range_succ', sum_range_succ']
    simp only [List.tail_cons, List.length_map, at0_cons_succ, at0_cons_zero]
    have e : ∀ k, at0 (a.map (- ·)) k = - at0 a k := by
      intro k
      unfold at0
      rw [List.getD_eq_getElem?_getD, List.getD_eq_getElem?_getD, List.getElem?_map]
      cases a[k]? <;> simp
    simp [e, sum_neg_distrib]
    ring

/-- The impulse response `1 / (1 - A)` of a stable recursion is absolutely summable. -/
theorem stableC_sumBound (a : List ℂ) (h0 : at0 a 0 = 0) (ha : a ≠ []) (hst : StableC a) : ∃ K, SumBound K (recip a) := by
  set c : List ℂ := 1 :: a.tail.map (- ·) with hc
  have hf : c = np.poly (np.roots c) := by
    apply np.toPoly_inj
    · rw [np.poly_length, hc, np.roots_length _ _ one_ne_zero]; simp
    · rw [np.toPoly_poly]
      have hm : (np.toPoly c).Monic := by
        unfold Polynomial.Monic Polynomial.leadingCoeff
        have := np.coeff_toPoly c 0 (by rw [hc]; simp)
        rw [hc] at this ⊢
        rw [np.natDegree_toPoly _ _ one_ne_zero]
        simpa [at0] using this
      have := (IsAlgClosed.splits (np.toPoly c)).eq_prod_roots_of_monic hm
      rw [this]
      conv_lhs => rw [← Multiset.coe_toList (np.toPoly c).roots]
      rw [Multiset.map_coe, Multiset.prod_coe]
      rfl
  obtain ⟨K, q, hK, hq⟩ := sumBound_prod (np.roots c) (fun z hz => hst z (by
    rw [hc, np.mem_roots _ _ _ one_ne_zero, np.polyval_eq, poly_poleC a ha] at hz
    exact hz))
  refine ⟨K, ?_⟩
  rw [← ser_poly, ← hf, hc, ser_denominator a h0 ha] at hq
  have hrec := mul_recip a h0
  have : recip a = q := by linear_combination q * hrec - (recip a) * hq
  rw [this]; exact hK

theorem sumBound_serC (l : List ℂ) : SumBound (∑ k ∈ range l.length, ‖at0 l k‖) (ser l) := by
  intro n
  have : ∀ k, ‖PowerSeries.coeff k (ser l)‖ = ‖at0 l k‖ := by intro k; simp
  simp only [this]
  rcases le_total n l.length with h | h
  · exact sum_le_sum_of_subset_of_nonneg (range_subset_range.mpr h) (fun _ _ _ => norm_nonneg _)
  · apply le_of_eq
    symm
    apply sum_subset (range_subset_range.mpr h)
    intro k _ hk
    rw [mem_range, not_lt] at hk
    rw [at0_of_le _ _ hk]; simp

/-- The impulse response of a stable filter. -/
theorem stableC_impulse (a b : List ℂ) (h0 : at0 a 0 = 0) (ha : a ≠ []) (hst : StableC a) : ∃ K, SumBound K (ser b * recip a) := by
  obtain ⟨K, hK⟩ := stableC_sumBound a h0 ha hst
  exact ⟨_, (sumBound_serC b).mul hK⟩

/-- The value of an absolutely summable quotient on the circle. -/
theorem impulse_sumC (a b : List ℂ) (h0 : at0 a 0 = 0) (ha : a ≠ []) (hst : StableC a) (f : ℝ) :
    1 - dtftC a f ≠ 0 ∧ Filter.Tendsto (fun n => ∑ i ∈ range n, PowerSeries.coeff i (ser b * recip a) *
      Complex.exp (-(Complex.I * Real.pi * f * i))) Filter.atTop (nhds (freqRespC a b f)) := by
  obtain ⟨K, hK⟩ := stableC_impulse a b h0 ha hst
  obtain ⟨K', hK'⟩ := stableC_sumBound a h0 ha hst
  set z : ℕ → ℂ := fun i => Complex.exp (-(Complex.I * Real.pi * f * i)) with hz
  have hzn : ∀ i, ‖z i‖ = 1 := by
    intro i
    rw [hz]
    simp only
    rw [show -(Complex.I * Real.pi * f * i) = ((-(Real.pi * f * i) : ℝ) : ℂ) * Complex.I by push_cast; ring, Complex.norm_exp_ofReal_mul_I]
  have hza : ∀ i j, z (i + j) = z i * z j := by
    intro i j
    rw [hz]
    simp only
    rw [← Complex.exp_add]
    congr 1
    push_cast
    ring
  have hz0 : z 0 = 1 := by simp [hz]
  have hsum : ∀ {K : ℝ} {p : PowerSeries ℂ}, SumBound K p → Summable fun k => ‖PowerSeries.coeff k p * z k‖ := by
    intro K p h
    simpa [norm_mul, hzn] using h.summable
  have hmul : ∀ {K L : ℝ} {p q : PowerSeries ℂ}, SumBound K p → SumBound L q →
      (∑' k, PowerSeries.coeff k p * z k) * (∑' k, PowerSeries.coeff k q * z k) = ∑' k, PowerSeries.coeff k (p * q) * z k := by
    intro K L p q hp hq
    rw [tsum_mul_tsum_eq_tsum_sum_antidiagonal_of_summable_norm (hsum hp) (hsum hq)]
    apply tsum_congr
    intro n
    rw [PowerSeries.coeff_mul, sum_mul]
    apply sum_congr rfl
    intro ⟨i, j⟩ hij
    have : i + j = n := by simpa using hij
    simp only
    rw [← this, hza]
    ring
  have hser : ∀ l : List ℂ, ∑' k, PowerSeries.coeff k (ser l) * z k = dtftC l f := by
    intro l
    rw [tsum_eq_sum (s := range l.length)]
    · unfold dtftC
      apply sum_congr rfl
      intro n _
      rw [coeff_ser]
    · intro k hk
      rw [mem_range, not_lt] at hk
      rw [coeff_ser, at0_of_le _ _ hk]
      simp
  have hone : SumBound (1 + ∑ k ∈ range a.length, ‖at0 a k‖) (1 - ser a) := by
    intro n
    have h1 : ∑ k ∈ range n, ‖PowerSeries.coeff k (1 : PowerSeries ℂ)‖ ≤ 1 := by
      simp only [PowerSeries.coeff_one]
      rcases n with _ | n
      · simp
      · rw [sum_range_succ']
        simp
    calc ∑ k ∈ range n, ‖PowerSeries.coeff k (1 - ser a)‖
        ≤ ∑ k ∈ range n, (‖PowerSeries.coeff k (1 : PowerSeries ℂ)‖ + ‖PowerSeries.coeff k (ser a)‖) := by
          apply sum_le_sum
          intro k _
          rw [map_sub]
          exact norm_sub_le _ _
      _ = _ := sum_add_distrib
      _ ≤ _ := add_le_add h1 (sumBound_serC a n)
  have hval1 : ∑' k, PowerSeries.coeff k (1 - ser a) * z k = 1 - dtftC a f := by
    have e : ∀ k, PowerSeries.coeff k (1 - ser a) * z k = PowerSeries.coeff k (1 : PowerSeries ℂ) * z k - PowerSeries.coeff k (ser a) * z k := by
      intro k; rw [map_sub, sub_mul]
    have hs1 : Summable fun k => PowerSeries.coeff k (1 : PowerSeries ℂ) * z k := by
      apply summable_of_ne_finset_zero (s := {0})
      intro k hk
      have : k ≠ 0 := by simpa using hk
      simp [PowerSeries.coeff_one, this]
    rw [tsum_congr e, (hs1.tsum_sub (hsum (sumBound_serC a)).of_norm), hser]
    congr 1
    rw [tsum_eq_single 0]
    · simp [hz0]
    · intro k hk; simp [PowerSeries.coeff_one, hk]
  have hinv : (1 - dtftC a f) * (∑' k, PowerSeries.coeff k (recip a) * z k) = 1 := by
    rw [← hval1, hmul hone hK', mul_recip _ h0]
    rw [tsum_eq_single 0]
    · simp [hz0]
    · intro k hk; simp [PowerSeries.coeff_one, hk]
  have hne : 1 - dtftC a f ≠ 0 := left_ne_zero_of_mul_eq_one hinv
  refine ⟨hne, ?_⟩
  have htot : ∑' k, PowerSeries.coeff k (ser b * recip a) * z k = freqRespC a b f := by
    rw [← hmul (sumBound_serC b) hK', hser, freqRespC]
    rw [eq_div_iff hne]
    linear_combination (dtftC b f) * hinv
  rw [← htot]
  exact (hsum hK).of_norm.hasSum.tendsto_sum_nat

end Verif
