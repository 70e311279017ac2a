import Verif.Lemmas.Bibo
import Verif.Lemmas.Response
import Mathlib.Analysis.Normed.Ring.InfiniteSum
import Mathlib.Analysis.SpecificLimits.Normed
import Mathlib.Topology.Algebra.InfiniteSum.NatInt

/-
The recursion from an arbitrary state: a state is the effect of as many past samples as it has elements.
-/

namespace Verif

open Finset Spec

variable {R : Type*}

theorem recip_rec [CommRing R] (a l : List R) (h0 : at0 a 0 = 0) (m : ℕ) :
    PowerSeries.coeff m (recip a * ser l) = at0 l m + ∑ i ∈ range (m + 1), at0 a i * PowerSeries.coeff (m - i) (recip a * ser l) := by
  have hW : recip a * ser l = ser l + ser a * (recip a * ser l) := by
    have := mul_recip a h0
    linear_combination (ser l) * this
  conv_lhs => rw [hW]
  rw [map_add, coeff_ser, PowerSeries.coeff_mul, Finset.Nat.sum_antidiagonal_eq_sum_range_succ_mk]
  simp

/-- Every state is that of some past samples: the output is the end of the output from the zero state for these followed by the signal. -/
theorem Iir.filter_state [CommRing R] (f : Iir R) (hf : f.WF) (hc : f.cast = id) (h0 : at0 f.a 0 = 0) :
    ∃ u : List R, u.length = f.s.length ∧ ∀ xs : List R, xs ≠ [] →
      ∃ ys f', f.filter xs = (.ok ys, f') ∧ ys.length = xs.length ∧
        ∀ k, k < xs.length → ys[k]? = some (PowerSeries.coeff (f.s.length + k) (ser f.b * (recip f.a * ser (u ++ xs)))) := by
  set L := f.s.length with hL
  set w0 : ℕ → R := fun m => at0 f.mem (L - 1 - m) with hw0
  set u : List R := (List.range L).map fun m => w0 m - ∑ i ∈ range (m + 1), at0 f.a i * w0 (m - i) with hu
  have hul : u.length = L := by simp [hu]
  refine ⟨u, hul, fun xs hx => ?_⟩
  have hxl : xs.length ≠ 0 := by simpa using hx
  have hWlow : ∀ m, m < L → PowerSeries.coeff m (recip f.a * ser (u ++ xs)) = w0 m := by
    intro m
    induction m using Nat.strong_induction_on with
    | _ m ih =>
      intro hm
      rw [recip_rec _ _ h0]
      have e1 : at0 (u ++ xs) m = w0 m - ∑ i ∈ range (m + 1), at0 f.a i * w0 (m - i) := by
        unfold at0
        rw [List.getD_eq_getElem?_getD, List.getElem?_append_left (by omega), hu, List.getElem?_map, List.getElem?_range hm]
        rfl
      have e2 : ∑ i ∈ range (m + 1), at0 f.a i * PowerSeries.coeff (m - i) (recip f.a * ser (u ++ xs)) =
          ∑ i ∈ range (m + 1), at0 f.a i * w0 (m - i) := by
        rw [sum_range_succ', sum_range_succ', h0, zero_mul, zero_mul]
        congr 1
        apply sum_congr rfl
        intro i hi
        have := mem_range.mp hi
        rw [ih (m - (i + 1)) (by omega) (by omega)]
      rw [e1, e2]
      ring
  have hinv : f.Inv (fun k => PowerSeries.coeff k (recip f.a * ser (u ++ xs))) L := by
    intro i hi
    rw [if_pos hi]
    simp only
    rw [hWlow _ (by omega), hw0]
    simp only
    congr 1
    omega
  obtain ⟨ys, f', h1, h2, h3⟩ := Iir.run_series (fun k => PowerSeries.coeff k (recip f.a * ser (u ++ xs))) xs f hf hc h0 L hinv (by
    intro k hk
    rw [recip_rec _ _ h0]
    congr 1
    unfold at0
    rw [List.getD_eq_getElem?_getD, List.getElem?_append_right (by omega), hul, show L + k - L = k by omega, List.getD_eq_getElem?_getD])
  refine ⟨ys, f', by simp [Iir.filter, hxl, h1], h2, fun k hk => ?_⟩
  rw [h3 k hk, PowerSeries.coeff_mul, Finset.Nat.sum_antidiagonal_eq_sum_range_succ_mk]
  simp

/-- The same with the two parts separated. -/
theorem Iir.filter_split [CommRing R] (f : Iir R) (hf : f.WF) (hc : f.cast = id) (h0 : at0 f.a 0 = 0) :
    ∃ u : List R, u.length = f.s.length ∧ ∀ xs : List R, xs ≠ [] →
      ∃ ys f', f.filter xs = (.ok ys, f') ∧ ys.length = xs.length ∧
        ∀ k, k < xs.length → at0 ys k =
          ∑ i ∈ range (k + 1), PowerSeries.coeff i (ser f.b * recip f.a) * at0 xs (k - i) +
          ∑ j ∈ range u.length, PowerSeries.coeff (k + 1 + j) (ser f.b * recip f.a) * at0 u (u.length - 1 - j) := by
  obtain ⟨u, hul, hu⟩ := Iir.filter_state f hf hc h0
  refine ⟨u, hul, fun xs hx => ?_⟩
  obtain ⟨ys, f', h1, h2, h3⟩ := hu xs hx
  refine ⟨ys, f', h1, h2, fun k hk => ?_⟩
  have : at0 ys k = PowerSeries.coeff (f.s.length + k) (ser f.b * (recip f.a * ser (u ++ xs))) := by
    simp [at0, List.getD, h3 k hk]
  rw [this, ← mul_assoc, PowerSeries.coeff_mul, Finset.Nat.sum_antidiagonal_eq_sum_range_succ_mk, ← hul,
    show (u.length + k).succ = (k + 1) + u.length by omega, sum_range_add]
  congr 1
  · apply sum_congr rfl
    intro i hi
    have hi := mem_range.mp hi
    rw [coeff_ser]
    congr 1
    unfold at0
    rw [List.getD_eq_getElem?_getD, List.getElem?_append_right (by omega), List.getD_eq_getElem?_getD]
    congr 2
    omega
  · apply sum_congr rfl
    intro j hj
    have hj := mem_range.mp hj
    rw [coeff_ser]
    congr 1
    unfold at0
    rw [List.getD_eq_getElem?_getD, List.getElem?_append_left (by omega), List.getD_eq_getElem?_getD]
    congr 2
    omega

theorem SumBound.summable {K : ℝ} {p : PowerSeries ℂ} (h : SumBound K p) : Summable fun k => ‖PowerSeries.coeff k p‖ :=
  summable_of_sum_range_le (fun _ => norm_nonneg _) h

theorem SumBound.tendsto {K : ℝ} {p : PowerSeries ℂ} (h : SumBound K p) : Filter.Tendsto (fun k => PowerSeries.coeff k p) Filter.atTop (nhds 0) :=
  tendsto_zero_iff_norm_tendsto_zero.mpr h.summable.tendsto_atTop_zero

/-- The impulse response of a stable filter. -/
theorem stable_impulse (a b : List ℝ) (h0 : at0 a 0 = 0) (ha : a ≠ []) (hst : Stable a) :
    ∃ K, SumBound K ((ser b * recip a).map Complex.ofRealHom) := by
  obtain ⟨K, hK⟩ := stable_sumBound a h0 ha hst
  have hB := (sumBound_ser b).mul hK
  rw [← map_mul] at hB
  exact ⟨_, hB⟩

theorem recip_map (a : List ℝ) (h0 : at0 a 0 = 0) : (recip a).map Complex.ofRealHom = recip (np.complexOf a) := by
  have h1 := congrArg (PowerSeries.map Complex.ofRealHom) (mul_recip a h0)
  have h2 := mul_recip (np.complexOf a) (by rw [at0_complexOf, h0]; simp)
  rw [map_mul, map_one, map_sub, map_one, ser_map_ofReal] at h1
  linear_combination (recip (np.complexOf a)) * h1 - ((recip a).map Complex.ofRealHom) * h2

/-- The contribution of the past fades. -/
theorem fade {K : ℝ} {p : PowerSeries ℂ} (h : SumBound K p) (u : List ℂ) :
    Filter.Tendsto (fun k => ∑ j ∈ range u.length, PowerSeries.coeff (k + 1 + j) p * at0 u (u.length - 1 - j)) Filter.atTop (nhds 0) := by
  have : Filter.Tendsto (fun k => ∑ j ∈ range u.length, PowerSeries.coeff (k + 1 + j) p * at0 u (u.length - 1 - j)) Filter.atTop
      (nhds (∑ j ∈ range u.length, 0 * at0 u (u.length - 1 - j))) := by
    apply tendsto_finsetSum
    intro j _
    apply Filter.Tendsto.mul_const
    have := h.tendsto.comp (Filter.tendsto_add_atTop_nat (1 + j))
    refine this.congr fun k => ?_
    simp only [Function.comp]
    rw [← add_assoc]
  simpa using this

/-- The value of an absolutely summable quotient on the circle. -/
theorem impulse_sum (a b : List ℝ) (h0 : at0 a 0 = 0) (ha : a ≠ []) (hst : Stable a) (f : ℝ) :
    1 - dtft a f ≠ 0 ∧ Filter.Tendsto (fun n => ∑ i ∈ range n, PowerSeries.coeff i (ser (np.complexOf b) * recip (np.complexOf a)) *
      Complex.exp (-(Complex.I * Real.pi * f * i))) Filter.atTop (nhds (freqResp a b f)) := by
  obtain ⟨K, hK⟩ := stable_impulse a b h0 ha hst
  obtain ⟨K', hK'⟩ := stable_sumBound a h0 ha hst
  rw [map_mul, recip_map a h0, ser_map_ofReal] at hK
  rw [recip_map a h0] at hK'
  set z : ℕ → ℂ := fun i => Complex.exp (-(Complex.I * Real.pi * f * i)) with hz
  have hzn : ∀ i, ‖z i‖ = 1 := by
    intro i
    rw [hz]
    simp only
    rw [show -(Complex.I * Real.pi * f * i) = ((-(Real.pi * f * i) : ℝ) : ℂ) * Complex.I by push_cast; ring, Complex.norm_exp_ofReal_mul_I]
  have hza : ∀ i j, z (i + j) = z i * z j := by
    intro i j
    rw [hz]
    simp only
    rw [← Complex.exp_add]
    congr 1
    push_cast
    ring
  have hz0 : z 0 = 1 := by simp [hz]
  -- evaluation of a summable series
  have hsum : ∀ {K : ℝ} {p : PowerSeries ℂ}, SumBound K p → Summable fun k => ‖PowerSeries.coeff k p * z k‖ := by
    intro K p h
    simpa [norm_mul, hzn] using h.summable
  have hmul : ∀ {K L : ℝ} {p q : PowerSeries ℂ}, SumBound K p → SumBound L q →
      (∑' k, PowerSeries.coeff k p * z k) * (∑' k, PowerSeries.coeff k q * z k) = ∑' k, PowerSeries.coeff k (p * q) * z k := by
    intro K L p q hp hq
    rw [tsum_mul_tsum_eq_tsum_sum_antidiagonal_of_summable_norm (hsum hp) (hsum hq)]
    apply tsum_congr
    intro n
    rw [PowerSeries.coeff_mul, sum_mul]
    apply sum_congr rfl
    intro ⟨i, j⟩ hij
    have : i + j = n := by simpa using hij
    simp only
    rw [← this, hza]
    ring
  have hser : ∀ l : List ℝ, ∑' k, PowerSeries.coeff k (ser (np.complexOf l)) * z k = dtft l f := by
    intro l
    rw [tsum_eq_sum (s := range l.length)]
    · unfold dtft
      apply sum_congr rfl
      intro n _
      rw [coeff_ser, at0_complexOf]
    · intro k hk
      rw [mem_range, not_lt] at hk
      rw [coeff_ser, at0_complexOf, at0_of_le _ _ hk]
      simp
  have hSa : ∀ l : List ℝ, SumBound (∑ k ∈ range l.length, |at0 l k|) (ser (np.complexOf l)) := by
    intro l
    have := sumBound_ser l
    rwa [ser_map_ofReal] at this
  have hone : SumBound (1 + ∑ k ∈ range a.length, |at0 a k|) (1 - ser (np.complexOf a)) := by
    intro n
    have h1 : ∑ k ∈ range n, ‖PowerSeries.coeff k (1 : PowerSeries ℂ)‖ ≤ 1 := by
      simp only [PowerSeries.coeff_one]
      rcases n with _ | n
      · simp
      · rw [sum_range_succ']
        simp
    calc ∑ k ∈ range n, ‖PowerSeries.coeff k (1 - ser (np.complexOf a))‖
        ≤ ∑ k ∈ range n, (‖PowerSeries.coeff k (1 : PowerSeries ℂ)‖ + ‖PowerSeries.coeff k (ser (np.complexOf a))‖) := by
          apply sum_le_sum
          intro k _
          rw [map_sub]
          exact norm_sub_le _ _
      _ = _ := sum_add_distrib
      _ ≤ _ := add_le_add h1 (hSa a n)
  have hval1 : ∑' k, PowerSeries.coeff k (1 - ser (np.complexOf a)) * z k = 1 - dtft a f := by
    have e : ∀ k, PowerSeries.coeff k (1 - ser (np.complexOf a)) * z k = PowerSeries.coeff k (1 : PowerSeries ℂ) * z k - PowerSeries.coeff k (ser (np.complexOf a)) * z k := by
      intro k; rw [map_sub, sub_mul]
    have hs1 : Summable fun k => PowerSeries.coeff k (1 : PowerSeries ℂ) * z k := by
      apply summable_of_ne_finset_zero (s := {0})
      intro k hk
      have : k ≠ 0 := by simpa using hk
      simp [PowerSeries.coeff_one, this]
    rw [tsum_congr e, (hs1.tsum_sub (hsum (hSa a)).of_norm), hser]
    congr 1
    rw [tsum_eq_single 0]
    · simp [hz0]
    · intro k hk; simp [PowerSeries.coeff_one, hk]
  have hinv : (1 - dtft a f) * (∑' k, PowerSeries.coeff k (recip (np.complexOf a)) * z k) = 1 := by
    rw [← hval1, hmul hone hK', mul_recip _ (by rw [at0_complexOf, h0]; simp)]
    rw [tsum_eq_single 0]
    · simp [hz0]
    · intro k hk; simp [PowerSeries.coeff_one, hk]
  have hne : 1 - dtft a f ≠ 0 := left_ne_zero_of_mul_eq_one hinv
  refine ⟨hne, ?_⟩
  have htot : ∑' k, PowerSeries.coeff k (ser (np.complexOf b) * recip (np.complexOf a)) * z k = freqResp a b f := by
    rw [← hmul (hSa b) hK', hser, freqResp]
    rw [eq_div_iff hne]
    linear_combination (dtft b f) * hinv
  rw [← htot]
  exact (hsum hK).of_norm.hasSum.tendsto_sum_nat

end Verif
