import Verif.Props.PidLaw
import Verif.Spec.Plant
import Verif.Lemmas.Bibo
import Mathlib.Analysis.Complex.Polynomial.Basic
import Mathlib.Analysis.Normed.Group.InfiniteSum
import Mathlib.Analysis.SpecificLimits.Normed
import Mathlib.Analysis.Asymptotics.SpecificAsymptotics
import Mathlib.Topology.Algebra.InfiniteSum.Real
import Mathlib.RingTheory.PowerSeries.Trunc
import Mathlib.RingTheory.PowerSeries.WellKnown
import Mathlib.Tactic.LinearCombination
import Mathlib.Tactic.FieldSimp

/- Property C141: PidFilter in a control loop (diamondback/filters/pid_filter.py:66-89). -/

namespace Verif.Props

open Finset Spec Filter Topology

/-- The filter is called with one error at a time: `u n` is its answer to `e n`, `F n` its state before that. -/
def Controls (F : ℕ → Pid ℝ ℝ) (e u : ℕ → ℝ) : Prop := ∀ n, (F n).filter (fun v => |v|) [e n] = (.ok [u n], F (n + 1))

theorem controls_state {F : ℕ → Pid ℝ ℝ} {e u : ℕ → ℝ} (h : Controls F e u) (hc : (F 0).cast = id) (hl : (F 0).limit = none) (n : ℕ) :
    (F n).cast = id ∧ (F n).limit = none ∧ (F n).b0 = (F 0).b0 ∧ (F n).b1 = (F 0).b1 ∧ (F n).b2 = (F 0).b2 ∧
      (F n).s1 = (F 0).s1 + ∑ k ∈ range n, e k ∧ (F n).s0 = if n = 0 then (F 0).s0 else e (n - 1) := by
  induction n with
  | zero => simp [hc, hl]
  | succ n ih =>
    obtain ⟨i1, i2, i3, i4, i5, i6, -⟩ := ih
    have := h n
    simp only [Pid.filter, List.length_singleton, one_ne_zero, if_false, runLoop, Pid.step, i1, i2, belowLimit, id, isNan_noNan, Bool.not_false, if_true, Prod.mk.injEq] at this
    rw [← this.2]
    refine ⟨rfl, rfl, i3, i4, i5, ?_, by simp⟩
    show (F n).s1 + e n = _
    rw [sum_range_succ, ← add_assoc, ← i6]

theorem controls_answer {F : ℕ → Pid ℝ ℝ} {e u : ℕ → ℝ} (h : Controls F e u) (hc : (F 0).cast = id) (hl : (F 0).limit = none) (n : ℕ) :
    u n = (F 0).b0 * e n + (F 0).b1 * ((F 0).s1 + ∑ k ∈ range (n + 1), e k) + (F 0).b2 * (e n - if n = 0 then (F 0).s0 else e (n - 1)) := by
  obtain ⟨i1, i2, i3, i4, i5, i6, i7⟩ := controls_state h hc hl n
  have := h n
  simp only [Pid.filter, List.length_singleton, one_ne_zero, if_false, runLoop, Pid.step, i1, i2, belowLimit, id, isNan_noNan, Bool.not_false, if_true, Prod.mk.injEq, Except.ok.injEq, List.cons.injEq, and_true, dot_def] at this
  rw [← this.1, i3, i4, i5, i6, i7, sum_range_succ]
  simp
  ring

/-- C141: whatever is controlled: as long as errors and controls are bounded, the errors cancel: their sum is bounded, their mean over `n` calls vanishes like `1/n`. -/
theorem C141_mean (F : ℕ → Pid ℝ ℝ) (e u : ℕ → ℝ) (h : Controls F e u) (hc : (F 0).cast = id) (hl : (F 0).limit = none) (h1 : (F 0).b1 ≠ 0)
    (X U : ℝ) (he : ∀ n, |e n| ≤ X) (hu : ∀ n, |u n| ≤ U) (n : ℕ) (hn : 1 ≤ n) :
    |(∑ k ∈ range (n + 1), e k) / (n + 1)| ≤ ((U + |(F 0).b0| * X + 2 * |(F 0).b2| * X) / |(F 0).b1| + |(F 0).s1|) / (n + 1) := by
  have hb : 0 < |(F 0).b1| := abs_pos.mpr h1
  have hn1 : (0 : ℝ) < n + 1 := by positivity
  rw [abs_div, abs_of_pos hn1]
  refine div_le_div_of_nonneg_right ?_ hn1.le
  have key := controls_answer h hc hl n
  rw [if_neg (by omega)] at key
  have e1 : (F 0).b1 * ((F 0).s1 + ∑ k ∈ range (n + 1), e k) = u n - (F 0).b0 * e n - (F 0).b2 * (e n - e (n - 1)) := by linarith
  have e2 : |(F 0).s1 + ∑ k ∈ range (n + 1), e k| ≤ (U + |(F 0).b0| * X + 2 * |(F 0).b2| * X) / |(F 0).b1| := by
    rw [le_div_iff₀ hb, mul_comm, ← abs_mul, e1]
    have a1 := abs_sub (u n - (F 0).b0 * e n) ((F 0).b2 * (e n - e (n - 1)))
    have a2 := abs_sub (u n) ((F 0).b0 * e n)
    have a3 := abs_sub (e n) (e (n - 1))
    rw [abs_mul] at a1 a2
    have a4 := mul_le_mul_of_nonneg_left (he n) (abs_nonneg (F 0).b0)
    have a5 := mul_le_mul_of_nonneg_left (a3.trans (add_le_add (he n) (he (n - 1)))) (abs_nonneg (F 0).b2)
    linarith [hu n]
  have := abs_sub ((F 0).s1 + ∑ k ∈ range (n + 1), e k) (F 0).s1
  rw [add_sub_cancel_left] at this
  linarith

/-- C141: whatever is controlled: when the error settles and the controls stay bounded, the error settles at zero. -/
theorem C141_no_offset (F : ℕ → Pid ℝ ℝ) (e u : ℕ → ℝ) (h : Controls F e u) (hc : (F 0).cast = id) (hl : (F 0).limit = none) (h1 : (F 0).b1 ≠ 0)
    (U : ℝ) (hu : ∀ n, |u n| ≤ U) (r : ℝ) (he : Tendsto e atTop (𝓝 r)) : r = 0 := by
  obtain ⟨X, hX⟩ := he.abs.bddAbove_range
  have hX' : ∀ n, |e n| ≤ X := fun n => hX ⟨n, rfl⟩
  have hces := he.cesaro
  have hces' := (tendsto_add_atTop_iff_nat 1).mpr hces
  have hlim : Tendsto (fun n : ℕ => ((U + |(F 0).b0| * X + 2 * |(F 0).b2| * X) / |(F 0).b1| + |(F 0).s1|) / ((n : ℝ) + 1)) atTop (𝓝 0) := by
    have := (tendsto_const_div_atTop_nhds_zero_nat ((U + |(F 0).b0| * X + 2 * |(F 0).b2| * X) / |(F 0).b1| + |(F 0).s1|))
    have := (tendsto_add_atTop_iff_nat 1).mpr this
    refine this.congr fun n => by push_cast; rfl
  have hz : Tendsto (fun n : ℕ => (∑ k ∈ range (n + 1), e k) / ((n : ℝ) + 1)) atTop (𝓝 0) := by
    refine squeeze_zero_norm' ?_ hlim
    filter_upwards [eventually_ge_atTop 1] with n hn
    exact C141_mean F e u h hc hl h1 X U hX' hu n hn
  refine tendsto_nhds_unique hces' (hz.congr fun n => ?_)
  push_cast
  rw [div_eq_inv_mul]

theorem no_zeros_inverse (P : Polynomial ℂ) (h0 : P.eval 0 = 1) (h : ∀ w : ℂ, ‖w‖ ≤ 1 → P.eval w ≠ 0) :
    ∃ K q, SumBound K q ∧ (P : PowerSeries ℂ) * q = 1 := by
  have hs := (IsAlgClosed.splits P).eq_prod_roots
  have hP : P ≠ 0 := by rintro rfl; simp at h0
  have hr : ∀ z ∈ P.roots, 1 < ‖z‖ := by
    intro z hz
    by_contra hn
    exact h z (not_lt.mp hn) (Polynomial.isRoot_of_mem_roots hz)
  obtain ⟨K, q, hK, hq⟩ := sumBound_prod (P.roots.toList.map fun z => z⁻¹) (by
    intro z hz
    rw [List.mem_map] at hz
    obtain ⟨y, hy, rfl⟩ := hz
    rw [norm_inv]
    exact inv_lt_one_of_one_lt₀ (hr y (by simpa using hy)))
  refine ⟨K, q, hK, ?_⟩
  have key : P = ((P.roots.map fun z => 1 - Polynomial.C z⁻¹ * Polynomial.X).prod) := by
    have e1 : (P.roots.map fun z => Polynomial.X - Polynomial.C z).prod = (P.roots.map fun z => Polynomial.C (-z)).prod * (P.roots.map fun z => 1 - Polynomial.C z⁻¹ * Polynomial.X).prod := by
      rw [← Multiset.prod_map_mul]
      refine congrArg Multiset.prod (Multiset.map_congr rfl fun z hz => ?_)
      have hz0 : z ≠ 0 := by
        rintro rfl
        have := hr 0 hz
        simp at this
        linarith
      have : (Polynomial.C z : Polynomial ℂ) * Polynomial.C z⁻¹ = 1 := by rw [← Polynomial.C_mul, mul_inv_cancel₀ hz0, Polynomial.C_1]
      rw [Polynomial.C_neg]
      linear_combination (-Polynomial.X) * this
    have e2 : (P.roots.map fun z => Polynomial.C (-z)).prod = Polynomial.C ((P.roots.map fun z => -z).prod) := by
      rw [map_multiset_prod, Multiset.map_map]
      rfl
    have e3 : P.leadingCoeff * (P.roots.map fun z => -z).prod = 1 := by
      rw [← h0]
      conv_rhs => rw [hs]
      rw [Polynomial.eval_mul, Polynomial.eval_C, Polynomial.eval_multiset_prod, Multiset.map_map]
      congr 2
      refine Multiset.map_congr rfl fun z _ => by simp
    conv_lhs => rw [hs, e1, e2, ← mul_assoc, ← Polynomial.C_mul, e3, Polynomial.C_1, one_mul]
  rw [← hq, List.map_map]
  congr 1
  conv_lhs => rw [key]
  rw [← Polynomial.coeToPowerSeries.ringHom_apply, map_multiset_prod, Multiset.map_map]
  conv_lhs => rw [← Multiset.coe_toList P.roots]
  rw [Multiset.map_coe, Multiset.prod_coe]
  refine congrArg List.prod (List.map_congr_left fun z _ => ?_)
  simp

/-- The series of a sequence of real numbers. -/
noncomputable def seqC (x : ℕ → ℝ) : PowerSeries ℂ := PowerSeries.mk fun n => (x n : ℂ)

/-- The polynomial of the weights of delayed values. -/
noncomputable def delayed (M : ℕ) (a : ℕ → ℝ) : Polynomial ℂ := ∑ i ∈ range M, Polynomial.C (a i : ℂ) * Polynomial.X ^ (i + 1)

theorem coeff_delayed (M : ℕ) (a z : ℕ → ℝ) (n : ℕ) (hn : M ≤ n) :
    PowerSeries.coeff n ((delayed M a : PowerSeries ℂ) * seqC z) = ((∑ i ∈ range M, a i * z (n - 1 - i) : ℝ) : ℂ) := by
  rw [delayed, ← Polynomial.coeToPowerSeries.ringHom_apply, map_sum, sum_mul, map_sum]
  push_cast
  refine sum_congr rfl fun i hi => ?_
  have := mem_range.mp hi
  rw [map_mul Polynomial.coeToPowerSeries.ringHom, map_pow, Polynomial.coeToPowerSeries.ringHom_apply, Polynomial.coeToPowerSeries.ringHom_apply, Polynomial.coe_C, Polynomial.coe_X, mul_assoc, PowerSeries.coeff_C_mul,
    PowerSeries.coeff_X_pow_mul', if_pos (by omega), seqC, PowerSeries.coeff_mk]
  congr 3
  omega

theorem coeff_one_sub_mul (p : PowerSeries ℂ) (n : ℕ) : PowerSeries.coeff (n + 1) ((1 - PowerSeries.X) * p) = PowerSeries.coeff (n + 1) p - PowerSeries.coeff n p := by
  rw [sub_mul, one_mul, map_sub, PowerSeries.coeff_succ_X_mul]

theorem coeff_one_sub_mul_zero (p : PowerSeries ℂ) : PowerSeries.coeff 0 ((1 - PowerSeries.X) * p) = PowerSeries.coeff 0 p := by
  rw [sub_mul, one_mul, map_sub, PowerSeries.coeff_zero_X_mul, sub_zero]

theorem series_controls {F : ℕ → Pid ℝ ℝ} {e u : ℕ → ℝ} (h : Controls F e u) (hc : (F 0).cast = id) (hl : (F 0).limit = none) :
    (1 - PowerSeries.X) * seqC u = (PowerSeries.C ((F 0).b0 : ℂ) * (1 - PowerSeries.X) + PowerSeries.C ((F 0).b1 : ℂ) + PowerSeries.C ((F 0).b2 : ℂ) * (1 - PowerSeries.X) ^ 2) * seqC e +
      PowerSeries.C ((F 0).b1 * (F 0).s1 : ℂ) - PowerSeries.C ((F 0).b2 * (F 0).s0 : ℂ) * (1 - PowerSeries.X) := by
  have hu := controls_answer h hc hl
  have e1 : (PowerSeries.C ((F 0).b0 : ℂ) * (1 - PowerSeries.X) + PowerSeries.C ((F 0).b1 : ℂ) + PowerSeries.C ((F 0).b2 : ℂ) * (1 - PowerSeries.X) ^ 2) * seqC e +
      PowerSeries.C ((F 0).b1 * (F 0).s1 : ℂ) - PowerSeries.C ((F 0).b2 * (F 0).s0 : ℂ) * (1 - PowerSeries.X) =
      PowerSeries.C ((F 0).b0 : ℂ) * ((1 - PowerSeries.X) * seqC e) + PowerSeries.C ((F 0).b1 : ℂ) * seqC e + PowerSeries.C ((F 0).b2 : ℂ) * ((1 - PowerSeries.X) * ((1 - PowerSeries.X) * seqC e)) +
      PowerSeries.C ((F 0).b1 * (F 0).s1 : ℂ) - PowerSeries.C ((F 0).b2 * (F 0).s0 : ℂ) * (1 - PowerSeries.X) := by ring
  rw [e1]
  ext n
  simp only [map_add, map_sub, PowerSeries.coeff_C_mul]
  rcases n with _ | _ | n
  · simp only [coeff_one_sub_mul_zero]
    simp [seqC, hu 0]
    ring
  · simp only [coeff_one_sub_mul, coeff_one_sub_mul_zero]
    simp [seqC, hu 0, hu 1, sum_range_succ, PowerSeries.coeff_one, PowerSeries.coeff_X]
    ring
  · simp only [coeff_one_sub_mul]
    simp [seqC, hu (n + 1), hu (n + 1 + 1), sum_range_succ, PowerSeries.coeff_one, PowerSeries.coeff_X]
    ring

theorem sumBound_polynomial (p : Polynomial ℂ) : ∃ K, SumBound K (p : PowerSeries ℂ) := by
  refine ⟨∑ k ∈ p.support, ‖p.coeff k‖, fun n => ?_⟩
  simp only [Polynomial.coeff_coe]
  rw [← sum_filter_add_sum_filter_not (range n) (fun k => k ∈ p.support)]
  have : ∑ k ∈ (range n).filter (fun k => k ∉ p.support), ‖p.coeff k‖ = 0 := by
    refine sum_eq_zero fun k hk => ?_
    rw [mem_filter, Polynomial.notMem_support_iff] at hk
    rw [hk.2, norm_zero]
  rw [this, add_zero]
  exact sum_le_sum_of_subset_of_nonneg (fun k hk => (mem_filter.mp hk).2) fun _ _ _ => norm_nonneg _

theorem eval_delayed (M : ℕ) (a : ℕ → ℝ) (w : ℂ) : (delayed M a).eval w = ∑ k ∈ range M, (a k : ℂ) * w ^ (k + 1) := by
  simp [delayed, Polynomial.eval_finsetSum]

theorem loop_summable (M : ℕ) (a c : ℕ → ℝ) (d r : ℝ) (F : ℕ → Pid ℝ ℝ) (e u : ℕ → ℝ) (h : Controls F e u) (hc : (F 0).cast = id) (hl : (F 0).limit = none)
    (hp : Plant M a c d u fun n => r - e n) (hs : ∀ w : ℂ, ‖w‖ ≤ 1 → loopPolynomial M a c (F 0).b0 (F 0).b1 (F 0).b2 w ≠ 0) : Summable fun n => |e n| := by
  set P : Polynomial ℂ := (1 - Polynomial.X) * (1 - delayed M a) + delayed M c * (Polynomial.C ((F 0).b0 : ℂ) * (1 - Polynomial.X) + Polynomial.C ((F 0).b1 : ℂ) + Polynomial.C ((F 0).b2 : ℂ) * (1 - Polynomial.X) ^ 2) with hP
  have heval : ∀ w, P.eval w = loopPolynomial M a c (F 0).b0 (F 0).b1 (F 0).b2 w := by
    intro w
    simp [hP, loopPolynomial, eval_delayed]
  obtain ⟨K, q, hK, hq⟩ := no_zeros_inverse P (by rw [heval]; simp [loopPolynomial]) fun w hw => by rw [heval]; exact hs w hw
  set A : PowerSeries ℂ := (delayed M a : PowerSeries ℂ) with hA
  set B : PowerSeries ℂ := (delayed M c : PowerSeries ℂ) with hB
  set Q : PowerSeries ℂ := seqC (fun n => r - e n) - A * seqC (fun n => r - e n) - B * seqC u - PowerSeries.C (d : ℂ) * PowerSeries.mk 1 with hQ
  have hQt : Q = (PowerSeries.trunc M Q : PowerSeries ℂ) := by
    ext n
    rw [Polynomial.coeff_coe, PowerSeries.coeff_trunc]
    split
    · rfl
    · rename_i hn
      rw [not_lt] at hn
      rw [hQ, map_sub, map_sub, map_sub, coeff_delayed M a _ n hn, coeff_delayed M c _ n hn, seqC, PowerSeries.coeff_mk, show r - e n = _ from hp n hn, PowerSeries.coeff_C_mul, PowerSeries.coeff_mk]
      push_cast
      simp
      ring
  have hgeo : (PowerSeries.mk 1 : PowerSeries ℂ) * (1 - PowerSeries.X) = 1 := PowerSeries.mk_one_mul_one_sub_eq_one ℂ
  have hZ : seqC (fun n => r - e n) = PowerSeries.C (r : ℂ) * PowerSeries.mk 1 - seqC e := by
    ext n
    simp [seqC]
  have hU := series_controls h hc hl
  have hPc : (P : PowerSeries ℂ) = (1 - PowerSeries.X) * (1 - A) + B * (PowerSeries.C ((F 0).b0 : ℂ) * (1 - PowerSeries.X) + PowerSeries.C ((F 0).b1 : ℂ) + PowerSeries.C ((F 0).b2 : ℂ) * (1 - PowerSeries.X) ^ 2) := by
    rw [hP, ← Polynomial.coeToPowerSeries.ringHom_apply]
    simp [hA, hB]
  set R : Polynomial ℂ := (1 - delayed M a) * Polynomial.C (r : ℂ) - Polynomial.C (d : ℂ) - delayed M c * (Polynomial.C ((F 0).b1 * (F 0).s1 : ℂ) - Polynomial.C ((F 0).b2 * (F 0).s0 : ℂ) * (1 - Polynomial.X)) -
    (1 - Polynomial.X) * PowerSeries.trunc M Q with hR
  have hRc : (R : PowerSeries ℂ) = (1 - A) * PowerSeries.C (r : ℂ) - PowerSeries.C (d : ℂ) - B * (PowerSeries.C ((F 0).b1 * (F 0).s1 : ℂ) - PowerSeries.C ((F 0).b2 * (F 0).s0 : ℂ) * (1 - PowerSeries.X)) - (1 - PowerSeries.X) * Q := by
    rw [hR, ← Polynomial.coeToPowerSeries.ringHom_apply]
    simp only [map_sub, map_mul, map_one, Polynomial.coeToPowerSeries.ringHom_apply, Polynomial.coe_C, Polynomial.coe_X, ← hQt, ← hA, ← hB]
  have hE : (P : PowerSeries ℂ) * seqC e = R := by
    rw [hPc, hRc, hQ, hZ]
    linear_combination (-B) * hU + ((1 - A) * PowerSeries.C (r : ℂ) - PowerSeries.C (d : ℂ)) * hgeo
  have hE' : seqC e = R * q := by
    calc seqC e = (P * q) * seqC e := by rw [hq, one_mul]
      _ = (P * seqC e) * q := by ring
      _ = R * q := by rw [hE]
  obtain ⟨L, hL⟩ := sumBound_polynomial R
  have hb := hL.mul hK
  rw [← hE'] at hb
  refine summable_of_sum_range_le (c := L * K) (fun n => abs_nonneg _) fun n => ?_
  have := hb n
  simpa [seqC] using this

/-- C141: a loop with a linear plant of any order, set point, constant disturbance and initial values, and a PID filter in any state, whose characteristic function has no
zero in the unit disk: the errors are absolutely summable, so that they vanish, and the control settles at the value which holds the plant at the set point. -/
theorem C141_settles (M : ℕ) (a c : ℕ → ℝ) (d r : ℝ) (F : ℕ → Pid ℝ ℝ) (e u : ℕ → ℝ) (h : Controls F e u) (hc : (F 0).cast = id) (hl : (F 0).limit = none)
    (hp : Plant M a c d u fun n => r - e n) (hs : ∀ w : ℂ, ‖w‖ ≤ 1 → loopPolynomial M a c (F 0).b0 (F 0).b1 (F 0).b2 w ≠ 0) :
    (Summable fun n => |e n|) ∧ Tendsto e atTop (𝓝 0) ∧ Tendsto u atTop (𝓝 (((1 - ∑ k ∈ range M, a k) * r - d) / ∑ k ∈ range M, c k)) := by
  have hsum := loop_summable M a c d r F e u h hc hl hp hs
  have hes : Summable e := hsum.of_abs
  have he : Tendsto e atTop (𝓝 0) := hes.tendsto_atTop_zero
  refine ⟨hsum, he, ?_⟩
  have hc0 : ∑ k ∈ range M, c k ≠ 0 := by
    intro h0
    refine hs 1 (by simp) ?_
    have : (∑ k ∈ range M, (c k : ℂ)) = 0 := by exact_mod_cast h0
    simp [loopPolynomial, this]
  have hut : Tendsto u atTop (𝓝 ((F 0).b1 * ((F 0).s1 + ∑' k, e k))) := by
    have h1 : Tendsto (fun n => ∑ k ∈ range (n + 1), e k) atTop (𝓝 (∑' k, e k)) := (tendsto_add_atTop_iff_nat 1).mpr hes.hasSum.tendsto_sum_nat
    rw [← tendsto_add_atTop_iff_nat 1] at h1 ⊢
    have h2 := (((tendsto_add_atTop_iff_nat 1).mpr he).const_mul (F 0).b0).add ((h1.const_add (F 0).s1).const_mul (F 0).b1)
    have h3 := h2.add ((((tendsto_add_atTop_iff_nat 1).mpr he).sub he).const_mul (F 0).b2)
    simp only [mul_zero, zero_add, sub_zero, add_zero] at h3
    refine h3.congr fun n => ?_
    rw [controls_answer h hc hl (n + 1), if_neg (by omega)]
    simp
  set v := (F 0).b1 * ((F 0).s1 + ∑' k, e k) with hv
  have hshift : ∀ {x : ℕ → ℝ} {l : ℝ}, Tendsto x atTop (𝓝 l) → ∀ k : ℕ, Tendsto (fun n => x (n - 1 - k)) atTop (𝓝 l) := by
    intro x l hx k
    refine hx.comp ?_
    simp only [Nat.sub_sub]
    exact tendsto_sub_atTop_nat _
  have hz : Tendsto (fun n => r - e n) atTop (𝓝 r) := by simpa using he.const_sub r
  have hlim : Tendsto (fun n => ∑ i ∈ range M, a i * (r - e (n - 1 - i)) + ∑ i ∈ range M, c i * u (n - 1 - i) + d) atTop (𝓝 (∑ i ∈ range M, a i * r + ∑ i ∈ range M, c i * v + d)) :=
    ((tendsto_finsetSum _ fun i _ => (hshift hz i).const_mul (a i)).add (tendsto_finsetSum _ fun i _ => (hshift hut i).const_mul (c i))).add_const d
  have heq := tendsto_nhds_unique (hlim.congr' (by filter_upwards [eventually_ge_atTop M] with n hn; exact (hp n hn).symm)) hz
  rw [← sum_mul, ← sum_mul] at heq
  have : ((1 - ∑ k ∈ range M, a k) * r - d) / ∑ k ∈ range M, c k = v := by
    rw [div_eq_iff hc0]
    linarith
  rw [this]
  exact hut

theorem quadratic_outside (t q : ℝ) (hq : |q| < 1) (ht : |t| < 1 + q) (w : ℂ) (hw : ‖w‖ ≤ 1) : 1 - (t : ℂ) * w + q * w ^ 2 ≠ 0 := by
  intro h0
  have hw0 : w ≠ 0 := by rintro rfl; simp at h0
  set l := w⁻¹ with hl
  have hl1 : 1 ≤ ‖l‖ := by
    rw [hl, norm_inv]
    exact (one_le_inv₀ (norm_pos_iff.mpr hw0)).mpr hw
  have h1 : l ^ 2 - t * l + q = 0 := by
    rw [hl]
    field_simp
    linear_combination h0
  have hsq : 1 ≤ l.re * l.re + l.im * l.im := by
    have := Complex.normSq_eq_norm_sq l
    rw [Complex.normSq_apply] at this
    nlinarith
  have hre := congrArg Complex.re h1
  have him := congrArg Complex.im h1
  simp [pow_two] at hre him
  rw [abs_lt] at hq ht
  have him' : l.im * (2 * l.re - t) = 0 := by linarith
  rcases mul_eq_zero.mp him' with h | h
  · rw [h] at hre hsq
    rcases le_total 0 l.re with h2 | h2
    · have : 1 ≤ l.re := by nlinarith
      nlinarith [mul_nonneg (sub_nonneg.mpr this) (sub_nonneg.mpr (this.trans' hq.2.le))]
    · have : l.re ≤ -1 := by nlinarith
      nlinarith [mul_nonneg (by linarith : 0 ≤ -l.re - 1) (by linarith [hq.2] : 0 ≤ -l.re - q)]
  · have : t = 2 * l.re := by linarith
    subst this
    nlinarith

/-- C141: a plant of the first order, `z_{n+1} = p z_n + g u_n + d`, with proportional and integral terms: three inequalities suffice, for every disturbance, set point and start. -/
theorem C141_first_order (p g d r : ℝ) (F : ℕ → Pid ℝ ℝ) (e u : ℕ → ℝ) (h : Controls F e u) (hc : (F 0).cast = id) (hl : (F 0).limit = none) (h2 : (F 0).b2 = 0)
    (hp : ∀ n, r - e (n + 1) = p * (r - e n) + g * u n + d) (s1 : 0 < g * (F 0).b1) (s2 : |p - g * (F 0).b0| < 1) (s3 : g * (F 0).b1 < 2 * (1 + (p - g * (F 0).b0))) :
    (Summable fun n => |e n|) ∧ Tendsto e atTop (𝓝 0) ∧ Tendsto u atTop (𝓝 (((1 - p) * r - d) / g)) := by
  have := C141_settles 1 (fun _ => p) (fun _ => g) d r F e u h hc hl ?_ ?_
  · simpa using this
  · intro n hn
    obtain ⟨n, rfl⟩ := Nat.exists_eq_add_of_le' hn
    simpa using hp n
  · intro w hw
    have := quadratic_outside (1 + (p - g * (F 0).b0) - g * (F 0).b1) (p - g * (F 0).b0) s2 (by rw [abs_lt] at *; constructor <;> linarith) w hw
    intro h0
    refine this ?_
    rw [← h0, loopPolynomial, h2]
    simp
    ring

/-- The numbers of a stable loop: pole 1 / 2, gain 1, proportional 1 / 4, integral 1 / 4. -/
example : 0 < (1 : ℝ) * (1 / 4) ∧ |(1 / 2 : ℝ) - 1 * (1 / 4)| < 1 ∧ (1 : ℝ) * (1 / 4) < 2 * (1 + (1 / 2 - 1 * (1 / 4))) := by
  refine ⟨by norm_num, by rw [abs_lt]; constructor <;> norm_num, by norm_num⟩

theorem controls_hold_state {F : ℕ → Pid ℝ ℝ} {e u : ℕ → ℝ} (L : ℝ) (h : Controls F e u) (hc : (F 0).cast = id) (hl : (F 0).limit = some L) (n : ℕ) :
    (F n).cast = id ∧ (F n).limit = some L ∧ (F n).b0 = (F 0).b0 ∧ (F n).b1 = (F 0).b1 ∧ (F n).b2 = (F 0).b2 ∧
      (F n).s1 = hold L (F 0).s1 e n ∧ (F n).s0 = if n = 0 then (F 0).s0 else e (n - 1) := by
  induction n with
  | zero => simp [hc, hl, hold]
  | succ n ih =>
    obtain ⟨i1, i2, i3, i4, i5, i6, -⟩ := ih
    have := h n
    simp only [Pid.filter, List.length_singleton, one_ne_zero, if_false, runLoop, Pid.step, i1, i2, belowLimit, id, Prod.mk.injEq] at this
    rw [← this.2]
    refine ⟨rfl, rfl, i3, i4, i5, ?_, by simp⟩
    simp only [decide_eq_true_eq, i6]
    rfl

theorem controls_hold {F : ℕ → Pid ℝ ℝ} {e u : ℕ → ℝ} (L : ℝ) (h : Controls F e u) (hc : (F 0).cast = id) (hl : (F 0).limit = some L) (n : ℕ) :
    u n = (F 0).b0 * e n + (F 0).b1 * hold L (F 0).s1 e (n + 1) + (F 0).b2 * (e n - if n = 0 then (F 0).s0 else e (n - 1)) := by
  obtain ⟨i1, i2, i3, i4, i5, i6, i7⟩ := controls_hold_state L h hc hl n
  have := h n
  simp only [Pid.filter, List.length_singleton, one_ne_zero, if_false, runLoop, Pid.step, i1, i2, belowLimit, id, Prod.mk.injEq, Except.ok.injEq, List.cons.injEq, and_true, dot_def, decide_eq_true_eq] at this
  rw [← this.1, i3, i4, i5, i6, i7, hold]
  simp
  ring

/-- C141: with a limit, whatever is controlled: when error and control settle, the integral term of the control is at most `|b1| L`; a plant which needs more keeps an error. -/
theorem C141_limit (L : ℝ) (F : ℕ → Pid ℝ ℝ) (e u : ℕ → ℝ) (h : Controls F e u) (hc : (F 0).cast = id) (hl : (F 0).limit = some L) (hs : |(F 0).s1| < L)
    (r v : ℝ) (he : Tendsto e atTop (𝓝 r)) (hu : Tendsto u atTop (𝓝 v)) : |v - (F 0).b0 * r| ≤ |(F 0).b1| * L := by
  have h2 := (((tendsto_add_atTop_iff_nat 1).mpr hu).sub (((tendsto_add_atTop_iff_nat 1).mpr he).const_mul (F 0).b0)).sub ((((tendsto_add_atTop_iff_nat 1).mpr he).sub he).const_mul (F 0).b2)
  simp only [sub_self, mul_zero, sub_zero] at h2
  refine le_of_tendsto h2.abs (Eventually.of_forall fun n => ?_)
  have := controls_hold L h hc hl (n + 1)
  rw [if_neg (by omega)] at this
  have e1 : u (n + 1) - (F 0).b0 * e (n + 1) - (F 0).b2 * (e (n + 1) - e n) = (F 0).b1 * hold L (F 0).s1 e (n + 1 + 1) := by
    rw [this, Nat.add_sub_cancel]
    ring
  rw [e1, abs_mul]
  exact mul_le_mul_of_nonneg_left (hold_lt L _ hs e _).le (abs_nonneg _)

/-- C141: without an integral term a loop with a linear plant, when its error settles, settles at the error which the proportional term needs to hold the plant. -/
theorem C141_proportional (M : ℕ) (a c : ℕ → ℝ) (d r : ℝ) (F : ℕ → Pid ℝ ℝ) (e u : ℕ → ℝ) (h : Controls F e u) (hc : (F 0).cast = id) (hl : (F 0).limit = none) (h1 : (F 0).b1 = 0)
    (hp : Plant M a c d u fun n => r - e n) (x : ℝ) (he : Tendsto e atTop (𝓝 x)) :
    x * (1 - ∑ k ∈ range M, a k + (F 0).b0 * ∑ k ∈ range M, c k) = (1 - ∑ k ∈ range M, a k) * r - d := by
  have hut : Tendsto u atTop (𝓝 ((F 0).b0 * x)) := by
    rw [← tendsto_add_atTop_iff_nat 1]
    have h3 := (((tendsto_add_atTop_iff_nat 1).mpr he).const_mul (F 0).b0).add ((((tendsto_add_atTop_iff_nat 1).mpr he).sub he).const_mul (F 0).b2)
    simp only [sub_self, mul_zero, add_zero] at h3
    refine h3.congr fun n => ?_
    rw [controls_answer h hc hl (n + 1), if_neg (by omega), h1]
    simp
  have hshift : ∀ {x : ℕ → ℝ} {l : ℝ}, Tendsto x atTop (𝓝 l) → ∀ k : ℕ, Tendsto (fun n => x (n - 1 - k)) atTop (𝓝 l) := by
    intro x l hx k
    refine hx.comp ?_
    simp only [Nat.sub_sub]
    exact tendsto_sub_atTop_nat _
  have hz : Tendsto (fun n => r - e n) atTop (𝓝 (r - x)) := he.const_sub r
  have hlim : Tendsto (fun n => ∑ i ∈ range M, a i * (r - e (n - 1 - i)) + ∑ i ∈ range M, c i * u (n - 1 - i) + d) atTop (𝓝 (∑ i ∈ range M, a i * (r - x) + ∑ i ∈ range M, c i * ((F 0).b0 * x) + d)) :=
    ((tendsto_finsetSum _ fun i _ => (hshift hz i).const_mul (a i)).add (tendsto_finsetSum _ fun i _ => (hshift hut i).const_mul (c i))).add_const d
  have heq := tendsto_nhds_unique (hlim.congr' (by filter_upwards [eventually_ge_atTop M] with n hn; exact (hp n hn).symm)) hz
  rw [← sum_mul, ← sum_mul] at heq
  linarith

/-- The hypotheses of `C141_mean`, `C141_no_offset`, `C141_settles`, `C141_limit` and `C141_proportional` on the sequences hold: an integral filter which stands at 1/2 keeps the plant `z_{n+1} = u_n` at 1/2, without limit and with one. -/
example (l : Option ℝ) (hl : l = none ∨ l = some 2) : Controls (fun _ => ⟨id, 0, 1, 0, 0, 1 / 2, 0, l⟩) (fun _ => 0) (fun _ => 1 / 2) ∧
    Plant 1 (fun _ => 0) (fun _ => 1) 0 (fun _ => 1 / 2) (fun _ => 1 / 2 - 0) ∧ |(1 / 2 : ℝ)| < 2 ∧ Tendsto (fun _ : ℕ => (0 : ℝ)) atTop (𝓝 0) := by
  refine ⟨fun n => ?_, fun n _ => by simp, by norm_num [abs_of_pos], tendsto_const_nhds⟩
  rcases hl with rfl | rfl <;> norm_num [Pid.filter, Pid.step, runLoop, abs_of_pos, dot_def]

/-- The filter of the next theorem before its first, its second and any later call. -/
noncomputable def stuckStates : ℕ → Pid ℝ ℝ
  | 0 => ⟨id, 0, 3 / 2, 0, 0, 0, 0, some 1⟩
  | 1 => ⟨id, 0, 3 / 2, 0, 1 / 2, 1 / 2, 1 / 2, some 1⟩
  | 2 => ⟨id, 0, 3 / 2, 0, 3 / 5, 1 / 2, 1 / 10, some 1⟩
  | _ + 3 => ⟨id, 0, 3 / 2, 0, 3 / 5, 1 / 2, 0, some 1⟩

/-- C141, disagreement with the documented law: the plant is a delay of one sample, the set point 27/20.  A new filter with `b = [0, 3/2, 0]` and the limit one keeps the error 3/5 for ever,
because it does not clip the sum but refuses the sample; the integral it needs, 9/10, is below the limit.  The documented law (the sum, clipped) and the filter without a limit settle at zero. -/
theorem C141_stuck :
    (∃ F e u, Pid.new id [0, 3 / 2, 0] = .ok ({ F 0 with limit := none } : Pid ℝ ℝ) ∧ ({ F 0 with limit := none } : Pid ℝ ℝ).setLimit 1 = (.ok (), F 0) ∧ Controls F e u ∧
      e 0 = 1 / 2 ∧ (∀ n, 27 / 20 - e (n + 1) = u n) ∧ ∀ n, e (n + 1) = 3 / 5) ∧
    (∃ e : ℕ → ℝ, e 0 = 1 / 2 ∧ (∀ n, 27 / 20 - e (n + 1) = 3 / 2 * max (min (∑ k ∈ range (n + 1), e k) 1) (-1)) ∧ Tendsto e atTop (𝓝 0)) ∧
    ∀ F e u, Pid.new id [0, 3 / 2, 0] = .ok (F 0) → Controls F e u → (∀ n, 27 / 20 - e (n + 1) = u n) → Tendsto e atTop (𝓝 0) := by
  refine ⟨⟨stuckStates, fun n => if n = 0 then 1 / 2 else 3 / 5, fun n => 3 / 4, rfl, ?_, ?_, rfl, ?_, ?_⟩, ?_, ?_⟩
  · norm_num [Pid.setLimit, stuckStates]
  · rintro (_ | _ | _ | n) <;>
      norm_num [stuckStates, Pid.filter, runLoop, Pid.step, belowLimit, dot_def, abs_of_pos]
  · intro n; norm_num
  · intro n; simp
  · set e : ℕ → ℝ := fun n => if n = 0 then 1 / 2 else if n = 1 then 3 / 5 else if n = 2 then -3 / 20 else -3 / 40 * (-1 / 2) ^ (n - 3) with he
    have hs : ∀ n, ∑ k ∈ range (n + 3), e k = 9 / 10 - 2 / 3 * e (n + 3) := by
      intro n
      induction n with
      | zero => norm_num [sum_range_succ, he]
      | succ n ih =>
        rw [show n + 1 + 3 = (n + 3) + 1 from rfl, sum_range_succ, ih]
        simp only [he]
        rw [if_neg (by omega), if_neg (by omega), if_neg (by omega), if_neg (by omega), if_neg (by omega), if_neg (by omega), show n + 3 + 1 - 3 = n + 1 by omega, show n + 3 - 3 = n by omega, pow_succ]
        ring
    have hb : ∀ n, |e (n + 3)| ≤ 3 / 40 := by
      intro n
      simp only [he]
      rw [if_neg (by omega), if_neg (by omega), if_neg (by omega), abs_mul, abs_pow]
      have : |(-1 / 2 : ℝ)| ^ (n + 3 - 3) ≤ 1 := pow_le_one₀ (abs_nonneg _) (by norm_num [abs_of_neg])
      norm_num [abs_of_neg] at this ⊢
      linarith
    refine ⟨e, rfl, ?_, ?_⟩
    · rintro (_ | _ | n)
      · norm_num [he]
      · norm_num [he, sum_range_succ]
      · have := hb n
        rw [abs_le] at this
        rw [hs, min_eq_left (by linarith), max_eq_left (by linarith)]
        ring
    · rw [← tendsto_add_atTop_iff_nat 3]
      have := (tendsto_pow_atTop_nhds_zero_of_abs_lt_one (r := (-1 / 2 : ℝ)) (by norm_num [abs_of_neg])).const_mul (-3 / 40)
      rw [mul_zero] at this
      refine this.congr fun n => ?_
      simp only [he]
      rw [if_neg (by omega), if_neg (by omega), if_neg (by omega), Nat.add_sub_cancel]
  · intro F e u h0 h hp
    simp only [Pid.new, Except.ok.injEq] at h0
    refine (C141_first_order 0 1 0 (27 / 20) F e u h (by rw [← h0]) (by rw [← h0]) (by rw [← h0]) (fun n => by rw [hp n]; ring) ?_ ?_ ?_).2.1 <;> rw [← h0] <;> norm_num

/-- A loop: the filter is called, the plant answers. -/
noncomputable def exampleLoop (f : Pid ℝ ℝ) (e0 : ℝ) (p g d r : ℝ) : ℕ → Pid ℝ ℝ × ℝ
  | 0 => (f, e0)
  | n + 1 =>
    let s := exampleLoop f e0 p g d r n
    ((s.1.filter (fun v => |v|) [s.2]).2, r - (p * (r - s.2) + g * (match (s.1.filter (fun v => |v|) [s.2]).1 with | .ok [v] => v | _ => 0) + d))

/-- The hypotheses are met: every plant of the first order has a loop with any filter, from any start. -/
example (f : Pid ℝ ℝ) (e0 p g d r : ℝ) : ∃ F e u, F 0 = f ∧ e 0 = e0 ∧ Controls F e u ∧ ∀ n, r - e (n + 1) = p * (r - e n) + g * u n + d := by
  refine ⟨fun n => (exampleLoop f e0 p g d r n).1, fun n => (exampleLoop f e0 p g d r n).2,
    fun n => match ((exampleLoop f e0 p g d r n).1.filter (fun v => |v|) [(exampleLoop f e0 p g d r n).2]).1 with | .ok [v] => v | _ => 0, rfl, rfl, fun n => ?_, fun n => ?_⟩
  · rfl
  · simp [exampleLoop]

/-- The inequalities of `C141_first_order` hold for a slow plant with moderate gains. -/
example : (0 : ℝ) < 1 / 10 * 1 ∧ |(9 / 10 : ℝ) - 1 / 10 * 2| < 1 ∧ (1 / 10 * 1 : ℝ) < 2 * (1 + (9 / 10 - 1 / 10 * 2)) := by norm_num [abs_of_pos]

/-- A delay with proportional, integral and derivative terms: the characteristic function, `1 - w/8 - w²/2 + w³/8`, has no zero in the unit disk. -/
example (w : ℂ) (hw : ‖w‖ ≤ 1) : loopPolynomial 2 (fun _ => 0) (fun k => if k = 0 then 1 else 0) (1 / 4) (1 / 2) (1 / 8) w ≠ 0 := by
  have e1 : loopPolynomial 2 (fun _ => 0) (fun k => if k = 0 then 1 else 0) (1 / 4) (1 / 2) (1 / 8) w = 1 - (w / 8 + w ^ 2 / 2 - w ^ 3 / 8) := by
    simp [loopPolynomial, sum_range_succ]
    ring
  intro h0
  rw [e1, sub_eq_zero] at h0
  have h1 := congrArg norm h0
  have h2 : ‖w / 8 + w ^ 2 / 2 - w ^ 3 / 8‖ ≤ ‖w‖ / 8 + ‖w‖ ^ 2 / 2 + ‖w‖ ^ 3 / 8 := by
    refine (norm_sub_le _ _).trans (add_le_add ((norm_add_le _ _).trans (add_le_add ?_ ?_)) ?_) <;> simp
  have h3 : ‖w‖ ^ 2 ≤ 1 := pow_le_one₀ (norm_nonneg _) hw
  have h4 : ‖w‖ ^ 3 ≤ 1 := pow_le_one₀ (norm_nonneg _) hw
  rw [norm_one] at h1
  linarith

end Verif.Props
