import Verif.Props.Tables
import Verif.Props.RateError
import Mathlib.Analysis.Calculus.Taylor
import Mathlib.Analysis.SpecialFunctions.Integrals.Basic

/- Property C99: accuracy of DerivativeFilter and IntegralFilter on samples of smooth functions. -/

namespace Verif.Props

open Finset Spec Polynomial

/-- The Taylor polynomial. -/
noncomputable def taylorPoly (F : ℝ → ℝ) (p : ℕ) (c : ℝ) : ℝ[X] := ∑ k ∈ range (p + 1), C (iteratedDeriv k F c / (k.factorial : ℝ)) * (X - C c) ^ k

theorem taylorPoly_natDegree (F : ℝ → ℝ) (p : ℕ) (c : ℝ) : (taylorPoly F p c).natDegree ≤ p := by
  refine natDegree_sum_le_of_forall_le _ _ fun k hk => ?_
  refine (natDegree_C_mul_le _ _).trans ?_
  refine natDegree_pow_le.trans ?_
  rw [natDegree_X_sub_C, mul_one]
  have := mem_range.mp hk
  omega

theorem taylorPoly_derivative (F : ℝ → ℝ) (p : ℕ) (c : ℝ) (d : ℕ) (hd : d ≤ p) : (derivative^[d] (taylorPoly F p c)).eval c = iteratedDeriv d F c := by
  rw [taylorPoly, iterate_derivative_sum, eval_finsetSum, sum_eq_single d]
  · rw [iterate_derivative_C_mul, iterate_derivative_X_sub_pow]
    simp [Nat.descFactorial_self]
    field_simp
  · intro k _ hk
    rw [iterate_derivative_C_mul, iterate_derivative_X_sub_pow]
    rcases lt_or_gt_of_ne hk with h | h
    · simp [Nat.descFactorial_of_lt h]
    · simp [zero_pow (by omega : k - d ≠ 0)]
  · intro h
    exact absurd (mem_range.mpr (by omega)) h

theorem taylorPoly_error (F : ℝ → ℝ) (p : ℕ) (hF : ContDiff ℝ (p + 1 : ℕ) F) (c u M : ℝ) (hM : ∀ s, |iteratedDeriv (p + 1) F s| ≤ M) :
    |F u - (taylorPoly F p c).eval u| ≤ M * |u - c| ^ (p + 1) / (p + 1).factorial := by
  rcases eq_or_ne c u with rfl | hu
  · have : (taylorPoly F p c).eval c = F c := by
      have := taylorPoly_derivative F p c 0 (Nat.zero_le _)
      simpa using this
    rw [this]; simp
  · obtain ⟨ξ, -, e⟩ := taylor_mean_remainder_lagrange_iteratedDeriv (n := p) hu (by exact_mod_cast hF.contDiffOn)
    have : taylorWithinEval F p (Set.uIcc c u) c u = (taylorPoly F p c).eval u := by
      rw [taylor_within_apply, taylorPoly, eval_finsetSum]
      refine sum_congr rfl fun k hk => ?_
      have hk := mem_range.mp hk
      rw [iteratedDerivWithin_eq_iteratedDeriv (uniqueDiffOn_uIcc hu) ((hF.of_le (by exact_mod_cast (by omega : k ≤ p + 1))).contDiffAt) (by simp)]
      simp
      ring
    rw [← this, e, abs_div, abs_mul, abs_pow, Nat.abs_cast]
    gcongr
    exact hM ξ

/-- The error constants of the finite differences: `∑ᵢ |bᵢ| |N/2 - i|^(p+1) / (p+1)!`. -/
def differenceConstant : ℤ → ℤ → ℚ
  | 1, 1 => 1 / 24
  | 1, 2 => 1 / 6
  | 1, 4 => 1 / 18
  | 2, 2 => 1 / 12
  | 2, 4 => 1 / 3
  | 2, 6 => 35 / 48
  | 2, 8 => 23 / 60
  | 3, 4 => 17 / 60
  | 3, 6 => 41 / 80
  | 3, 8 => 191 / 180
  | _, _ => 0

/-- The factors of the leading errors. -/
def differenceLeading : ℤ → ℤ → ℚ
  | 1, 1 => 1 / 24
  | 1, 2 => 1 / 6
  | 1, 4 => -1 / 30
  | 2, 2 => 1 / 12
  | 2, 4 => 1 / 3
  | 2, 6 => 1 / 6
  | 2, 8 => -1 / 15
  | 3, 4 => 1 / 4
  | 3, 6 => 1 / 2
  | 3, 8 => 1 / 3
  | _, _ => 0

theorem difference_constants (d N : ℤ) (b : List ℝ) (hb : Derivative.table d N = some b) :
    ∑ i ∈ range b.length, |at0 b i| * |(N : ℝ) / 2 - i| ^ (differenceDegree d N + 1) = differenceConstant d N * (differenceDegree d N + 1).factorial ∧
    ∑ i ∈ range b.length, at0 b i * ((N : ℝ) / 2 - i) ^ (differenceDegree d N + 1) = differenceLeading d N * (differenceDegree d N + 1).factorial ∧ d.toNat ≤ differenceDegree d N := by
  unfold Derivative.table at hb
  split at hb <;> cases hb <;> (refine ⟨?_, ?_, by decide⟩) <;>
    norm_num [scaled, Finset.sum_range_succ, at0, differenceDegree, differenceConstant, differenceLeading, Nat.factorial, abs_div, abs_mul]

theorem difference_error (d N : ℤ) (b : List ℝ) (hb : Derivative.table d N = some b) (F : ℝ → ℝ) (hF : ContDiff ℝ (differenceDegree d N + 1 : ℕ) F) (M : ℝ) (hM : ∀ s, |iteratedDeriv (differenceDegree d N + 1) F s| ≤ M) (t : ℝ) :
    |∑ i ∈ range b.length, at0 b i * F (t - i) - iteratedDeriv d.toNat F (t - (N : ℝ) / 2)| ≤ differenceConstant d N * M := by
  set p := differenceDegree d N
  set T := taylorPoly F p (t - (N : ℝ) / 2)
  obtain ⟨h1, -, h3⟩ := difference_constants d N b hb
  have e := (difference_exact d N b hb T (taylorPoly_natDegree _ _ _) t).2.2
  rw [taylorPoly_derivative F p _ _ h3] at e
  rw [← e, ← sum_sub_distrib]
  have hfac : (0 : ℝ) < (p + 1).factorial := by exact_mod_cast Nat.factorial_pos _
  calc |∑ i ∈ range b.length, (at0 b i * F (t - i) - at0 b i * T.eval (t - i))|
      ≤ ∑ i ∈ range b.length, |at0 b i * F (t - i) - at0 b i * T.eval (t - i)| := abs_sum_le_sum_abs _ _
    _ ≤ ∑ i ∈ range b.length, |at0 b i| * (M * |(N : ℝ) / 2 - i| ^ (p + 1) / (p + 1).factorial) := by
        refine sum_le_sum fun i _ => ?_
        rw [← mul_sub, abs_mul]
        refine mul_le_mul_of_nonneg_left ?_ (abs_nonneg _)
        have := taylorPoly_error F p hF (t - (N : ℝ) / 2) (t - i) M hM
        rwa [show t - (i : ℝ) - (t - (N : ℝ) / 2) = (N : ℝ) / 2 - i by ring] at this
    _ = (∑ i ∈ range b.length, |at0 b i| * |(N : ℝ) / 2 - i| ^ (p + 1)) * (M / (p + 1).factorial) := by
        rw [sum_mul]; refine sum_congr rfl fun i _ => by ring
    _ = differenceConstant d N * M := by
        rw [h1, show differenceDegree d N = p from rfl]; field_simp

theorem derivative_window {K : Type*} [Field K] [CharZero K] (d N : ℤ) (f : Fir K) (hf : Derivative.new d N = .ok f) (ops : List (FirOp K)) (x : List K) (hx0 : x ≠ []) :
    ∃ b y f', Derivative.table d N = some b ∧ b.length = N.toNat + 1 ∧ (f.after ops).filter x = (.ok y, f') ∧ y.length = x.length ∧
      ∀ n, N.toNat ≤ n → n < x.length → at0 y n = ∑ i ∈ range b.length, at0 b i * at0 x (n - i) := by
  unfold Derivative.new at hf
  split at hf
  · cases hf
  · rename_i b hb
    have hlen := (difference_exact d N b hb 0 (by simp) 0).2.1
    have hlen' : b.length = N.toNat + 1 := by
      have : 0 ≤ N := by
        unfold Derivative.table at hb
        split at hb <;> first | omega | cases hb
      omega
    have hb0 : b ≠ [] := by rintro rfl; simp at hlen'
    obtain ⟨f0, h1, hwf, hcast, hfb, _⟩ := Fir.new_spec id b none hb0
    rw [h1] at hf
    cases hf
    have hfb' : f.b = b := by
      rw [hfb]; simp [padTo]
    obtain ⟨hwf2, hb2, _⟩ := Fir.after_wf f hwf ops
    obtain ⟨y, g1, g2, g3⟩ := Fir.filter_wf _ hwf2 x hx0
    refine ⟨b, y, _, hb, hlen', g1, g2, fun n hNn hn => ?_⟩
    have := g3 n hn
    rw [Fir.after_cast f hwf ops, hcast, hb2, hfb'] at this
    simp only [id, List.map_id] at this
    rw [dot_window b x _ n _ le_rfl hn, tail_full b _ n (by omega), add_zero] at this
    rw [at0, List.getD, this, Option.getD_some, conv, sum_eq_length _ _ (by omega)]

/-- C99: on samples of a smooth function, taken with the frequency `r`, the output of DerivativeFilter times `r ^ d` is the derivative at the middle of the window up to a multiple of `r ^ (d - p - 1)`, after any history. -/
theorem C99_derivative (d N : ℤ) (f : Fir ℝ) (hf : Derivative.new d N = .ok f) (ops : List (FirOp ℝ)) (g : ℝ → ℝ) (hg : ContDiff ℝ (differenceDegree d N + 1 : ℕ) g) (M : ℝ) (hM : ∀ s, |iteratedDeriv (differenceDegree d N + 1) g s| ≤ M)
    (r : ℝ) (hr : 0 < r) (x : List ℝ) (hx0 : x ≠ []) (hx : ∀ n < x.length, at0 x n = g (n / r)) :
    ∃ y f', (f.after ops).filter x = (.ok y, f') ∧ y.length = x.length ∧
      ∀ n, N.toNat ≤ n → n < x.length → |at0 y n * r ^ d.toNat - iteratedDeriv d.toNat g (((n : ℝ) - (N : ℝ) / 2) / r)| ≤ differenceConstant d N * M / r ^ (differenceDegree d N + 1 - d.toNat) := by
  obtain ⟨b, y, f', h1, h2, h3, h4, h5⟩ := derivative_window d N f hf ops x hx0
  refine ⟨y, f', h3, h4, fun n hN hn => ?_⟩
  have hd := (difference_constants d N b h1).2.2
  set p := differenceDegree d N
  have hu : ∀ k ≤ p + 1, ∀ s, iteratedDeriv k (fun u => g (r⁻¹ * u)) s = r⁻¹ ^ k * iteratedDeriv k g (r⁻¹ * s) := by
    intro k hk s
    exact congrFun (iteratedDeriv_comp_const_mul (hg.of_le (by exact_mod_cast hk)) r⁻¹) s
  have hM0 : 0 ≤ M := (abs_nonneg _).trans (hM 0)
  have e := difference_error d N b h1 (fun u => g (r⁻¹ * u)) (by fun_prop) (r⁻¹ ^ (p + 1) * M) (by
    intro s
    rw [hu _ le_rfl, abs_mul, abs_of_pos (by positivity)]
    exact mul_le_mul_of_nonneg_left (hM _) (by positivity)) n
  rw [hu _ (by omega)] at e
  have e2 : at0 y n = ∑ i ∈ range b.length, at0 b i * g (r⁻¹ * ((n : ℝ) - i)) := by
    rw [h5 n hN hn]
    refine sum_congr rfl fun i hi => ?_
    have := mem_range.mp hi
    rw [hx _ (by omega), Nat.cast_sub (by omega), div_eq_inv_mul]
  rw [← e2] at e
  have e3 : at0 y n * r ^ d.toNat - iteratedDeriv d.toNat g (((n : ℝ) - (N : ℝ) / 2) / r) = r ^ d.toNat * (at0 y n - r⁻¹ ^ d.toNat * iteratedDeriv d.toNat g (r⁻¹ * ((n : ℝ) - (N : ℝ) / 2))) := by
    rw [div_eq_inv_mul]
    generalize iteratedDeriv d.toNat g (r⁻¹ * ((n : ℝ) - (N : ℝ) / 2)) = v
    rw [mul_sub, ← mul_assoc, ← mul_pow, mul_inv_cancel₀ hr.ne', one_pow, one_mul, mul_comm]
  rw [e3, abs_mul, abs_of_pos (by positivity)]
  refine (mul_le_mul_of_nonneg_left e (by positivity)).trans (le_of_eq ?_)
  rw [inv_pow, show p + 1 = d.toNat + (p + 1 - d.toNat) by omega, pow_add, show d.toNat + (p + 1 - d.toNat) - d.toNat = p + 1 - d.toNat by omega]
  field_simp

/-- C99: the power of the frequency cannot be improved: on samples of the power `p + 1` the error is a constant which is not zero. -/
theorem C99_order (d N : ℤ) (f : Fir ℝ) (hf : Derivative.new d N = .ok f) (m : ℕ) (hm : N.toNat ≤ m) :
    ∃ y f', f.filter ((List.range (m + 1)).map fun n : ℕ => ((n : ℝ) - ((m : ℝ) - (N : ℝ) / 2)) ^ (differenceDegree d N + 1)) = (.ok y, f') ∧
      at0 y m - iteratedDeriv d.toNat (fun u : ℝ => (u - ((m : ℝ) - (N : ℝ) / 2)) ^ (differenceDegree d N + 1)) ((m : ℝ) - (N : ℝ) / 2) = differenceLeading d N * (differenceDegree d N + 1).factorial ∧ differenceLeading d N ≠ 0 := by
  obtain ⟨b, y, f', h1, h2, h3, h4, h5⟩ := derivative_window d N f hf [] ((List.range (m + 1)).map fun n : ℕ => ((n : ℝ) - ((m : ℝ) - (N : ℝ) / 2)) ^ (differenceDegree d N + 1)) (by simp)
  obtain ⟨-, c2, c3⟩ := difference_constants d N b h1
  refine ⟨y, f', h3, ?_, ?_⟩
  · rw [h5 m hm (by simp), ← c2]
    have e1 : iteratedDeriv d.toNat (fun u : ℝ => (u - ((m : ℝ) - (N : ℝ) / 2)) ^ (differenceDegree d N + 1)) ((m : ℝ) - (N : ℝ) / 2) = 0 := by
      have := congrFun (iteratedDeriv_poly ((X - C ((m : ℝ) - (N : ℝ) / 2)) ^ (differenceDegree d N + 1)) d.toNat) ((m : ℝ) - (N : ℝ) / 2)
      rw [iterate_derivative_X_sub_pow] at this
      simp only [eval_pow, eval_sub, eval_X, eval_C] at this
      rw [this]
      simp [zero_pow (by omega : differenceDegree d N + 1 - d.toNat ≠ 0)]
    rw [e1, sub_zero]
    refine sum_congr rfl fun i hi => ?_
    have := mem_range.mp hi
    congr 1
    rw [at0_of_lt _ _ (by simp)]
    simp only [List.getElem_map, List.getElem_range]
    rw [Nat.cast_sub (by omega)]
    congr 1
    ring
  · unfold Derivative.table at h1
    split at h1 <;> cases h1 <;> norm_num [differenceLeading]

/-- The hypotheses hold: the filter of first derivatives of order two. -/
example : ∃ f, Derivative.new (K := ℝ) 1 2 = .ok f ∧ (2 : ℤ).toNat ≤ 5 := by
  obtain ⟨f, hf⟩ := (C31_derivative_supported (K := ℝ) 1 2).1 (by decide)
  exact ⟨f, hf, by decide⟩

/-- C99: among the filters of the same degree of exactness a higher order has a larger error. -/
theorem C99_higher_is_worse : (differenceDegree 1 1 = differenceDegree 1 2 ∧ differenceLeading 1 1 < differenceLeading 1 2) ∧
    (differenceDegree 2 2 = differenceDegree 2 6 ∧ differenceLeading 2 2 < differenceLeading 2 6 ∧ differenceDegree 2 2 = differenceDegree 2 4 ∧ differenceLeading 2 2 < differenceLeading 2 4) ∧
    (differenceDegree 3 4 = differenceDegree 3 6 ∧ differenceLeading 3 4 < differenceLeading 3 6 ∧ differenceDegree 3 4 = differenceDegree 3 8 ∧ differenceLeading 3 4 < differenceLeading 3 8) := by
  norm_num [differenceDegree, differenceLeading]

/-! ### The integral filter -/

/-- An antiderivative of the Taylor polynomial. -/
noncomputable def taylorPrim (F : ℝ → ℝ) (p : ℕ) (c : ℝ) : ℝ[X] := ∑ k ∈ range (p + 1), C (iteratedDeriv k F c / (k.factorial : ℝ) / (k + 1)) * (X - C c) ^ (k + 1)

theorem taylorPrim_natDegree (F : ℝ → ℝ) (p : ℕ) (c : ℝ) : (taylorPrim F p c).natDegree ≤ p + 1 := by
  refine natDegree_sum_le_of_forall_le _ _ fun k hk => ?_
  refine (natDegree_C_mul_le _ _).trans ?_
  refine natDegree_pow_le.trans ?_
  rw [natDegree_X_sub_C, mul_one]
  have := mem_range.mp hk
  omega

theorem taylorPrim_derivative (F : ℝ → ℝ) (p : ℕ) (c : ℝ) : derivative (taylorPrim F p c) = taylorPoly F p c := by
  rw [taylorPrim, taylorPoly, derivative_sum]
  refine sum_congr rfl fun k _ => ?_
  rw [derivative_C_mul, derivative_X_sub_C_pow, Nat.add_sub_cancel, ← mul_assoc, ← C_mul]
  congr 2
  push_cast
  field_simp

/-- The quadrature rules of the table are exact up to the degree of the closed Newton–Cotes rules. -/
theorem quadrature_exact (N : ℤ) (hN : 1 ≤ N) (b : List ℝ) (hb : Integral.table N = some b) (P : ℝ[X]) (hP : P.natDegree ≤ quadratureDegree N + 1) (t : ℝ) :
    (b.length : ℤ) = N + 1 ∧ (∀ i, 0 ≤ at0 b i) ∧ ∑ i ∈ range b.length, at0 b i = 1 ∧
    ∑ i ∈ range b.length, at0 b i * (derivative P).eval (t - i) = (P.eval t - P.eval (t - (N : ℝ))) / (N : ℝ) := by
  have hN' : 0 ≤ N ∧ N ≤ 4 := by
    by_contra hc
    rw [(C32_integral_weights N).2 (by omega)] at hb
    cases hb
  have hc : ∀ k, quadratureDegree N + 1 < k → P.coeff k = 0 := fun k hk => coeff_eq_zero_of_natDegree_lt (by omega)
  have hpoly : P = C (P.coeff 0) + C (P.coeff 1) * X + C (P.coeff 2) * X ^ 2 + C (P.coeff 3) * X ^ 3 + C (P.coeff 4) * X ^ 4
      + C (P.coeff 5) * X ^ 5 + C (P.coeff 6) * X ^ 6 := by
    have : quadratureDegree N ≤ 5 := by unfold quadratureDegree; split <;> omega
    conv_lhs => rw [P.as_sum_range_C_mul_X_pow' (n := 7) (by omega)]
    simp [Finset.sum_range_succ]
  generalize P.coeff 0 = c0 at hpoly
  generalize P.coeff 1 = c1 at hpoly
  generalize P.coeff 2 = c2 at hpoly
  generalize h3 : P.coeff 3 = c3 at hpoly
  generalize h4 : P.coeff 4 = c4 at hpoly
  generalize h5 : P.coeff 5 = c5 at hpoly
  generalize h6 : P.coeff 6 = c6 at hpoly
  have e3 := hc 3
  have e4 := hc 4
  have e5 := hc 5
  have e6 := hc 6
  rw [h3] at e3; rw [h4] at e4; rw [h5] at e5; rw [h6] at e6
  have hpos : ∀ (b : List ℝ), (∀ v ∈ b, 0 ≤ v) → ∀ i, 0 ≤ at0 b i := by
    intro b hb i
    by_cases h : i < b.length
    · rw [at0_of_lt _ _ h]; exact hb _ (List.getElem_mem h)
    · rw [at0_of_le _ _ (by omega)]
  obtain ⟨_, hN4⟩ := hN'
  interval_cases N <;> cases hb <;> simp only [quadratureDegree] at e3 e4 e5 e6 <;> norm_num at e3 e4 e5 e6 <;>
    rw [hpoly] <;> clear hpoly hP hc h3 h4 h5 h6 <;> subst_vars <;>
    (refine ⟨rfl, hpos _ (by simp [scaled]; try norm_num), by norm_num [scaled, Finset.sum_range_succ, at0], ?_⟩) <;>
    simp [scaled, Finset.sum_range_succ, at0] <;>
    ring

/-- The error constants of the quadrature rules. -/
noncomputable def quadratureConstant (N : ℤ) : ℝ := 2 * ((N : ℝ) / 2) ^ (quadratureDegree N + 1) / (quadratureDegree N + 1).factorial

theorem quadrature_error (N : ℤ) (hN : 1 ≤ N) (b : List ℝ) (hb : Integral.table N = some b) (F : ℝ → ℝ) (hF : ContDiff ℝ (quadratureDegree N + 1 : ℕ) F) (M : ℝ) (hM : ∀ s, |iteratedDeriv (quadratureDegree N + 1) F s| ≤ M) (t : ℝ) :
    |∑ i ∈ range b.length, at0 b i * F (t - i) - (∫ u in (t - (N : ℝ))..t, F u) / N| ≤ quadratureConstant N * M := by
  set q := quadratureDegree N with hq
  set c := t - (N : ℝ) / 2 with hc
  obtain ⟨h1, h2, h3, h4⟩ := quadrature_exact N hN b hb (taylorPrim F q c) (taylorPrim_natDegree _ _ _) t
  rw [taylorPrim_derivative] at h4
  have hN0 : (0 : ℝ) < N := by exact_mod_cast (by omega : 0 < N)
  have hM0 : 0 ≤ M := (abs_nonneg _).trans (hM 0)
  have hint : ∫ u in (t - (N : ℝ))..t, (taylorPoly F q c).eval u = (taylorPrim F q c).eval t - (taylorPrim F q c).eval (t - N) := by
    refine intervalIntegral.integral_eq_sub_of_hasDerivAt (f := fun u => (taylorPrim F q c).eval u) (fun u _ => ?_) ((Polynomial.continuous _).intervalIntegrable _ _)
    rw [← taylorPrim_derivative]
    exact Polynomial.hasDerivAt _ _
  set B := M * ((N : ℝ) / 2) ^ (q + 1) / (q + 1).factorial with hB
  have hR : ∀ u, t - N ≤ u → u ≤ t → |F u - (taylorPoly F q c).eval u| ≤ B := by
    intro u hu1 hu2
    refine (taylorPoly_error F q hF c u M hM).trans ?_
    rw [hB]
    gcongr
    rw [abs_le]
    constructor <;> rw [hc] <;> linarith
  have e1 : |∑ i ∈ range b.length, at0 b i * F (t - i) - ∑ i ∈ range b.length, at0 b i * (taylorPoly F q c).eval (t - i)| ≤ B := by
    rw [← sum_sub_distrib]
    refine (abs_sum_le_sum_abs _ _).trans ?_
    calc ∑ i ∈ range b.length, |at0 b i * F (t - i) - at0 b i * (taylorPoly F q c).eval (t - i)| ≤ ∑ i ∈ range b.length, at0 b i * B := by
          refine sum_le_sum fun i hi => ?_
          rw [← mul_sub, abs_mul, abs_of_nonneg (h2 i)]
          refine mul_le_mul_of_nonneg_left (hR _ ?_ ?_) (h2 i)
          · have : (i : ℝ) ≤ N := by
              have := mem_range.mp hi
              exact_mod_cast (by omega : (i : ℤ) ≤ N)
            linarith
          · have : (0 : ℝ) ≤ i := Nat.cast_nonneg _
            linarith
      _ = B := by rw [← sum_mul, h3, one_mul]
  have e2 : |(∫ u in (t - (N : ℝ))..t, F u) / N - (∫ u in (t - (N : ℝ))..t, (taylorPoly F q c).eval u) / N| ≤ B := by
    rw [← sub_div, ← intervalIntegral.integral_sub (hF.continuous.intervalIntegrable _ _) ((Polynomial.continuous _).intervalIntegrable _ _), abs_div, abs_of_pos hN0, div_le_iff₀ hN0]
    have := intervalIntegral.norm_integral_le_of_norm_le_const (a := t - (N : ℝ)) (b := t) (f := fun u => F u - (taylorPoly F q c).eval u) (C := B) (fun u hu => by
      rw [Set.uIoc_of_le (by linarith)] at hu
      exact hR u hu.1.le hu.2)
    rw [sub_sub_cancel, abs_of_pos hN0] at this
    exact this
  rw [hint, ← h4] at e2
  have e3 : quadratureConstant N * M = B + B := by
    rw [quadratureConstant, hB]; ring
  rw [e3]
  rw [abs_sub_comm] at e2
  have := abs_add_le (∑ i ∈ range b.length, at0 b i * F (t - i) - ∑ i ∈ range b.length, at0 b i * (taylorPoly F q c).eval (t - i)) (∑ i ∈ range b.length, at0 b i * (taylorPoly F q c).eval (t - i) - (∫ u in (t - (N : ℝ))..t, F u) / N)
  rw [sub_add_sub_cancel] at this
  linarith

/-- C99: the increment of IntegralFilter over the sampling frequency is the mean of the integrals over the last `N` sampling intervals, up to a multiple of `r ^ (- q - 2)`. -/
theorem integral_increment_error (N : ℤ) (hN : 1 ≤ N) (f : Iir ℝ) (hf : Integral.new N = .ok f) (g : ℝ → ℝ) (hg : ContDiff ℝ (quadratureDegree N + 1 : ℕ) g) (M : ℝ) (hM : ∀ s, |iteratedDeriv (quadratureDegree N + 1) g s| ≤ M)
    (r : ℝ) (hr : 0 < r) (x : List ℝ) (hx0 : x ≠ []) (hx : ∀ n < x.length, at0 x n = g (n / r)) :
    ∃ y f', f.filter x = (.ok y, f') ∧ y.length = x.length ∧ ∀ n, N.toNat ≤ n → n < x.length →
      |(at0 y n - at0 y (n - 1)) / r - (∫ u in (((n : ℝ) - N) / r)..((n : ℝ) / r), g u) / N| ≤ quadratureConstant N * M / r ^ (quadratureDegree N + 2) := by
  obtain ⟨b, y, f', h1, h2, h3, h4⟩ := C32_integral_increment N f hf x hx0
  refine ⟨y, f', h2, h3, fun n hNn hn => ?_⟩
  have hlen := (quadrature_exact N hN b h1 0 (by simp) 0).1
  set q := quadratureDegree N with hq
  have hu : ∀ s, iteratedDeriv (q + 1) (fun u => g (r⁻¹ * u)) s = r⁻¹ ^ (q + 1) * iteratedDeriv (q + 1) g (r⁻¹ * s) := fun s => congrFun (iteratedDeriv_comp_const_mul hg r⁻¹) s
  have e := quadrature_error N hN b h1 (fun u => g (r⁻¹ * u)) (by fun_prop) (r⁻¹ ^ (q + 1) * M) (by
    intro s
    rw [hu, abs_mul, abs_of_pos (by positivity)]
    exact mul_le_mul_of_nonneg_left (hM _) (by positivity)) n
  have e2 : at0 y n - at0 y (n - 1) = ∑ i ∈ range b.length, at0 b i * g (r⁻¹ * ((n : ℝ) - i)) := by
    rw [h4 n hn, if_neg (by omega), add_sub_cancel_left, sum_eq_length (fun i => at0 x (n - i)) _ (by omega)]
    refine sum_congr rfl fun i hi => ?_
    have := mem_range.mp hi
    rw [hx _ (by omega), Nat.cast_sub (by omega), div_eq_inv_mul]
  have e3 : ∫ u in ((n : ℝ) - N)..n, g (r⁻¹ * u) = r * ∫ u in (((n : ℝ) - N) / r)..((n : ℝ) / r), g u := by
    rw [intervalIntegral.integral_comp_mul_left g (inv_ne_zero hr.ne'), inv_inv, smul_eq_mul, div_eq_inv_mul, div_eq_inv_mul]
  rw [← e2, e3] at e
  set J := ∫ u in (((n : ℝ) - N) / r)..((n : ℝ) / r), g u
  have e4 : (at0 y n - at0 y (n - 1)) / r - J / N = (at0 y n - at0 y (n - 1) - r * J / N) / r := by
    field_simp
  rw [e4, abs_div, abs_of_pos hr, div_le_iff₀ hr]
  refine e.trans (le_of_eq ?_)
  rw [inv_pow, pow_succ r (q + 1)]
  field_simp

theorem shifted_integrals (g : ℝ → ℝ) (hg : Continuous g) (r : ℝ) (N k : ℕ) (n : ℕ) (hn : k ≤ n) :
    ∑ m ∈ Ico (k + 1) (n + 1), (∫ u in (((m : ℝ) - N) / r)..((m : ℝ) / r), g u) = ∑ j ∈ range N, ∫ u in (((k : ℝ) - j) / r)..(((n : ℝ) - j) / r), g u := by
  induction n, hn using Nat.le_induction with
  | base => simp
  | succ n hn ih =>
    rw [sum_Ico_succ_top (by omega), ih]
    have e1 : ∀ j : ℕ, ∫ u in (((k : ℝ) - j) / r)..((((n + 1 : ℕ) : ℝ) - j) / r), g u = (∫ u in (((k : ℝ) - j) / r)..(((n : ℝ) - j) / r), g u) + ∫ u in (((n : ℝ) - j) / r)..((((n + 1 : ℕ) : ℝ) - j) / r), g u :=
      fun j => (intervalIntegral.integral_add_adjacent_intervals (hg.intervalIntegrable _ _) (hg.intervalIntegrable _ _)).symm
    rw [sum_congr rfl fun j _ => e1 j, sum_add_distrib]
    congr 1
    have e2 := intervalIntegral.sum_integral_adjacent_intervals (a := fun j : ℕ => (((n + 1 : ℕ) : ℝ) - j) / r) (n := N) (f := g) (μ := MeasureTheory.volume) (fun j _ => hg.intervalIntegrable _ _)
    have e3 : (((n + 1 : ℕ) : ℝ) - (0 : ℕ)) / r = ((n + 1 : ℕ) : ℝ) / r := by simp
    rw [e3] at e2
    rw [intervalIntegral.integral_symm, ← e2, ← sum_neg_distrib]
    refine sum_congr rfl fun j _ => ?_
    rw [← intervalIntegral.integral_symm]
    congr 2
    push_cast
    ring

/-- C99: so is the output between two samples, up to the sum of the errors. -/
theorem C99_integral (N : ℤ) (hN : 1 ≤ N) (f : Iir ℝ) (hf : Integral.new N = .ok f) (g : ℝ → ℝ) (hg : ContDiff ℝ (quadratureDegree N + 1 : ℕ) g) (M : ℝ) (hM : ∀ s, |iteratedDeriv (quadratureDegree N + 1) g s| ≤ M)
    (r : ℝ) (hr : 0 < r) (x : List ℝ) (hx0 : x ≠ []) (hx : ∀ n < x.length, at0 x n = g (n / r)) :
    ∃ y f', f.filter x = (.ok y, f') ∧ y.length = x.length ∧ ∀ k n, N.toNat ≤ k + 1 → k ≤ n → n < x.length →
      |(at0 y n - at0 y k) / r - (∑ j ∈ range N.toNat, ∫ u in (((k : ℝ) - j) / r)..(((n : ℝ) - j) / r), g u) / N| ≤ ((n : ℝ) - k) * (quadratureConstant N * M / r ^ (quadratureDegree N + 2)) := by
  obtain ⟨y, f', h1, h2, h3⟩ := integral_increment_error N hN f hf g hg M hM r hr x hx0 hx
  refine ⟨y, f', h1, h2, fun k n hk hkn hn => ?_⟩
  rw [← shifted_integrals g hg.continuous r N.toNat k n hkn]
  have hNc : ((N.toNat : ℕ) : ℝ) = (N : ℝ) := by exact_mod_cast Int.toNat_of_nonneg (by omega : 0 ≤ N)
  rw [hNc]
  set D := quadratureConstant N * M / r ^ (quadratureDegree N + 2)
  induction n, hkn using Nat.le_induction with
  | base => simp
  | succ n hkn ih =>
    have i1 := ih (by omega)
    have i2 := h3 (n + 1) (by omega) hn
    rw [Nat.add_sub_cancel] at i2
    rw [sum_Ico_succ_top (by omega)]
    set S := ∑ m ∈ Ico (k + 1) (n + 1), ∫ u in (((m : ℝ) - N) / r)..((m : ℝ) / r), g u
    set J := ∫ u in ((((n + 1 : ℕ) : ℝ) - N) / r)..(((n + 1 : ℕ) : ℝ) / r), g u
    have e : (at0 y (n + 1) - at0 y k) / r - (S + J) / N = ((at0 y n - at0 y k) / r - S / N) + ((at0 y (n + 1) - at0 y n) / r - J / N) := by ring
    rw [e]
    refine (abs_add_le _ _).trans ?_
    push_cast
    linarith

/-- Samples of a sine, ten to the unit of time. -/
noncomputable def tenSines : List ℝ := (List.range 10).map fun n : ℕ => Real.sin (n / 10)

theorem tenSines_at (n : ℕ) (hn : n < tenSines.length) : at0 tenSines n = Real.sin (n / 10) := by
  rw [at0_of_lt _ _ hn]
  simp [tenSines]

/-- The first derivative of order 2 of a sine: an error of at most `1/600`. -/
example : ∃ f y f', Derivative.new 1 2 = .ok f ∧ f.filter tenSines = (.ok y, f') ∧ ∀ n, 2 ≤ n → n < 10 → |at0 y n * 10 - Real.cos (((n : ℝ) - 1) / 10)| ≤ 1 / 600 := by
  obtain ⟨f, hf⟩ := (C31_derivative_supported (K := ℝ) 1 2).1 (by decide)
  obtain ⟨y, f', h1, h2, h3⟩ := C99_derivative 1 2 f hf [] Real.sin (by fun_prop) 1 sin_bounds.2.1 10 (by norm_num) tenSines (by simp [tenSines]) tenSines_at
  refine ⟨f, y, f', hf, h1, fun n hn hn' => ?_⟩
  have := h3 n hn (by simpa [tenSines] using hn')
  norm_num [differenceDegree, differenceConstant, iteratedDeriv_one] at this
  exact this.trans (by norm_num)

/-- The integral of a sine with the trapezoidal rule: an error of at most `n/4000`. -/
example : ∃ f y f', Integral.new 1 = .ok f ∧ f.filter tenSines = (.ok y, f') ∧ ∀ n, n < 10 → |(at0 y n - at0 y 0) / 10 - (1 - Real.cos ((n : ℝ) / 10))| ≤ n / 4000 := by
  obtain ⟨f, -, -, hf, -⟩ := C07_iir_difference_equation (R := ℝ) [0, 1] (scaled (1 / 2) [1, 1]) [0] (.inl (by simp)) rfl (by simp)
  replace hf : Integral.new 1 = .ok f := hf
  obtain ⟨y, f', h1, h2, h3⟩ := C99_integral 1 le_rfl f hf Real.sin (by fun_prop) 1 sin_bounds.1 10 (by norm_num) tenSines (by simp [tenSines]) tenSines_at
  refine ⟨f, y, f', hf, h1, fun n hn => ?_⟩
  have := h3 0 n (by decide) (Nat.zero_le _) (by simpa [tenSines] using hn)
  simp [quadratureDegree, quadratureConstant] at this
  refine this.trans (le_of_eq ?_)
  norm_num [Nat.factorial]
  ring

end Verif.Props
