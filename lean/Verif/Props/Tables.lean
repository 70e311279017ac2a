import Verif.Model.Tables
import Verif.Spec.Numeric
import Verif.Props.Fir
import Verif.Props.Iir
import Mathlib.Algebra.Polynomial.Eval.Degree
import Mathlib.Tactic.IntervalCases

/-
Properties C31 (DerivativeFilter) and C32 (IntegralFilter).
-/

namespace Verif.Props

open Finset Spec Polynomial

variable {K : Type*} [Field K]

theorem poly_deg5 (p : K[X]) (h : p.natDegree ≤ 5) :
    p = C (p.coeff 0) + C (p.coeff 1) * X + C (p.coeff 2) * X ^ 2 + C (p.coeff 3) * X ^ 3 + C (p.coeff 4) * X ^ 4
      + C (p.coeff 5) * X ^ 5 := by
  conv_lhs => rw [p.as_sum_range_C_mul_X_pow' (n := 6) (by omega)]
  simp [Finset.sum_range_succ]

/-- The finite differences of the table are exact for polynomials up to the stated degree. -/
theorem difference_exact [CharZero K] (d N : ℤ) (b : List K) (hb : Derivative.table d N = some b) (p : K[X])
    (hp : p.natDegree ≤ differenceDegree d N) (t : K) :
    0 ≤ d ∧ (b.length : ℤ) = N + 1 ∧
    ∑ i ∈ range b.length, at0 b i * p.eval (t - i) = (derivative^[d.toNat] p).eval (t - (N : K) / 2) := by
  have hc : ∀ k, differenceDegree d N < k → p.coeff k = 0 := fun k hk => coeff_eq_zero_of_natDegree_lt (by omega)
  have hd5 : differenceDegree d N ≤ 5 := by unfold differenceDegree; split <;> omega
  have hpoly := poly_deg5 p (by omega)
  generalize p.coeff 0 = c0 at hpoly
  generalize p.coeff 1 = c1 at hpoly
  generalize h2 : p.coeff 2 = c2 at hpoly
  generalize h3 : p.coeff 3 = c3 at hpoly
  generalize h4 : p.coeff 4 = c4 at hpoly
  generalize h5 : p.coeff 5 = c5 at hpoly
  unfold Derivative.table at hb
  split at hb <;> cases hb <;>
    simp only [differenceDegree] at hc <;>
    (refine ⟨by norm_num, rfl, ?_⟩) <;>
    (have e5 := hc 5) <;> (have e4 := hc 4) <;> (have e3 := hc 3) <;>
    rw [h5] at e5 <;> rw [h4] at e4 <;> rw [h3] at e3 <;>
    norm_num at e3 e4 e5 <;>
    rw [hpoly] <;> clear hpoly hp hc h2 h3 h4 h5 hd5 <;> subst_vars <;>
    simp [scaled, Finset.sum_range_succ, at0, Function.iterate_succ] <;>
    ring

omit [Field K] in
theorem Fir.after_cast [Dot K] (f : Fir K) (hf : f.WF) (ops : List (FirOp K)) : (f.after ops).cast = f.cast := by
  induction ops generalizing f with
  | nil => rfl
  | cons op ops ih =>
    have key : (f.apply op).2.WF ∧ (f.apply op).2.cast = f.cast := by
      refine ⟨(Fir.after_wf f hf [op]).1, ?_⟩
      cases op with
      | filter x =>
        by_cases hx : x = []
        · subst hx; rfl
        · obtain ⟨y, h, _⟩ := Fir.filter_wf f hf x hx
          simp only [Fir.apply, h]
      | reset a => cases a <;> rfl
    have := ih _ key.1
    simp only [Fir.after, List.foldl_cons] at this ⊢
    rw [this, key.2]

theorem sum_eq_length {b : List K} (f : ℕ → K) (n : ℕ) (hn : b.length ≤ n) :
    ∑ i ∈ range n, at0 b i * f i = ∑ i ∈ range b.length, at0 b i * f i := by
  symm
  apply sum_subset
  · intro i; simp; omega
  · intro i _ hi
    rw [at0_of_le b i (by simpa using hi), zero_mul]

theorem tail_full (b s : List K) (n : ℕ) (hn : b.length ≤ n + 1) : tail b s n = 0 := by
  unfold tail
  apply sum_eq_zero
  intro i hi
  rw [if_neg]
  have := mem_range.mp hi
  omega

theorem conv_samples (b x : List K) (p : K[X]) (hx : SamplesOf p x) (n : ℕ) (hn : n < x.length) (hb : b.length ≤ n + 1) :
    conv b x n = ∑ i ∈ range b.length, at0 b i * p.eval ((n : K) - i) := by
  unfold conv
  rw [← sum_eq_length (fun i => p.eval ((n : K) - i)) (n + 1) hb]
  apply sum_congr rfl
  intro i hi
  have hi' := mem_range.mp hi
  have := hx (n - i) (by omega)
  simp only [at0, List.getD, this, Option.getD_some]
  rw [Nat.cast_sub (by omega)]

/-- C31.  For every supported (derivative `d`, order `N`), after any history of filter and reset calls: once its window is full
(`n ≥ N`), the output for samples of a polynomial of degree at most the degree of exactness is exactly its `d`-th derivative
at time `n - N/2`. -/
theorem C31_derivative_exact [CharZero K] (d N : ℤ) (f : Fir K) (hf : Derivative.new d N = .ok f) (ops : List (FirOp K))
    (p : K[X]) (hp : p.natDegree ≤ differenceDegree d N) (x : List K) (hx0 : x ≠ []) (hx : SamplesOf p x) :
    ∃ y f', (f.after ops).filter x = (.ok y, f') ∧ y.length = x.length ∧
      ∀ n, N.toNat ≤ n → n < x.length → y[n]? = some ((derivative^[d.toNat] p).eval ((n : K) - (N : K) / 2)) := by
  unfold Derivative.new at hf
  split at hf
  · cases hf
  · rename_i b hb
    have hlen := (difference_exact d N b hb p hp 0).2.1
    have hlen' : b.length = N.toNat + 1 := by
      have : 0 ≤ N := by
        unfold Derivative.table at hb
        split at hb <;> first | omega | cases hb
      omega
    have hb0 : b ≠ [] := by rintro rfl; simp at hlen'
    obtain ⟨f0, h1, hwf, hcast, hfb, _⟩ := Fir.new_spec id b none hb0
    rw [h1] at hf
    cases hf
    have hfb' : f.b = b := by
      rw [hfb]; simp [padTo]
    obtain ⟨hwf2, hb2, _⟩ := Fir.after_wf f hwf ops
    obtain ⟨y, g1, g2, g3⟩ := Fir.filter_wf _ hwf2 x hx0
    refine ⟨y, _, g1, g2, fun n hNn hn => ?_⟩
    rw [g3 n hn, Fir.after_cast f hwf ops, hcast, hb2, hfb']
    simp only [id, List.map_id]
    rw [dot_window b x _ n _ le_rfl hn, tail_full b _ n (by omega), add_zero,
      conv_samples b x p hx n hn (by omega), (difference_exact d N b hb p hp n).2.2]

/-- The second derivative of a cube; the hypotheses hold. -/
example : ∃ f : Fir ℚ, Derivative.new 2 4 = .ok f ∧ ∃ y f', f.filter [0, 1, 8, 27, 64] = (.ok y, f') ∧ y[4]? = some 12 := by
  obtain ⟨y, f', h1, -, h2⟩ := C31_derivative_exact (K := ℚ) 2 4 _ rfl [] (X ^ 3) (by simp [differenceDegree]) [0, 1, 8, 27, 64] (by simp) (by
    intro n hn
    match n, hn with
    | 0, _ => simp
    | 1, _ => simp
    | 2, _ => norm_num
    | 3, _ => norm_num
    | 4, _ => norm_num)
  refine ⟨_, rfl, y, f', h1, (h2 4 (by norm_num) (by norm_num)).trans ?_⟩
  simp [Function.iterate_succ]
  norm_num

/-- C31.  Exactly the documented pairs are accepted; every other pair raises ValueError. -/
theorem C31_derivative_supported (d N : ℤ) :
    ((d, N) ∈ [(1, 1), (1, 2), (1, 4), (2, 2), (2, 4), (2, 6), (2, 8), (3, 4), (3, 6), (3, 8)] →
      ∃ f : Fir K, Derivative.new d N = .ok f) ∧
    ((d, N) ∉ [(1, 1), (1, 2), (1, 4), (2, 2), (2, 4), (2, 6), (2, 8), (3, 4), (3, 6), (3, 8)] →
      (Derivative.new d N : Res (Fir K)) = .error .valueError) := by
  constructor
  · intro h
    simp only [List.mem_cons, List.not_mem_nil, or_false, Prod.mk.injEq] at h
    rcases h with ⟨rfl, rfl⟩ | ⟨rfl, rfl⟩ | ⟨rfl, rfl⟩ | ⟨rfl, rfl⟩ | ⟨rfl, rfl⟩ | ⟨rfl, rfl⟩ | ⟨rfl, rfl⟩ | ⟨rfl, rfl⟩ |
      ⟨rfl, rfl⟩ | ⟨rfl, rfl⟩ <;> exact ⟨_, rfl⟩
  · intro h
    unfold Derivative.new Derivative.table
    split
    · rfl
    · rename_i hb
      split at hb <;> first | (exact absurd (by decide) h) | cases hb

/-- The hypotheses of C31 hold for the cubic `t³` and the second derivative of order 4. -/
example : (∃ f : Fir ℚ, Derivative.new 2 4 = .ok f) ∧ ((X : ℚ[X]) ^ 3).natDegree ≤ differenceDegree 2 4 ∧
    SamplesOf ((X : ℚ[X]) ^ 3) [0, 1, 8, 27, 64] := by
  refine ⟨⟨_, rfl⟩, by simp [differenceDegree], ?_⟩
  intro n hn
  simp only [List.length_cons, List.length_nil] at hn
  interval_cases n <;> norm_num

/-- The degree of exactness is sharp: e.g. the order-2 first derivative of `t³` at `n - 1` is off by one. -/
example : ∑ i ∈ range 3, at0 (scaled (1 / 2) [(1 : ℚ), 0, -1]) i * ((5 : ℚ) - i) ^ 3 = 3 * (5 - 1) ^ 2 + 1 := by
  norm_num [Finset.sum_range_succ, at0, scaled]

/-! ### C32 -/

/-- C32.  For every supported order and every signal, a new IntegralFilter accumulates the weighted samples: the output
increases by `∑_i B_i x_{n-i}` per sample. -/
theorem C32_integral_increment [DecidableEq K] (N : ℤ) (f : Iir K) (hf : Integral.new N = .ok f) (x : List K) (hx : x ≠ []) :
    ∃ b y f', Integral.table N = some b ∧ f.filter x = (.ok y, f') ∧ y.length = x.length ∧
      (∀ n, n < x.length →
        at0 y n = (if n = 0 then 0 else at0 y (n - 1)) + ∑ i ∈ range (n + 1), at0 b i * at0 x (n - i)) := by
  unfold Integral.new at hf
  split at hf
  · cases hf
  · rename_i b hb
    obtain ⟨f0, y, f', h1, h2, h3, h4⟩ := C07_iir_difference_equation [0, 1] b x (.inl (by simp)) rfl hx
    rw [h1] at hf
    cases hf
    refine ⟨b, y, f', hb, h2, h3, fun n hn => ?_⟩
    rw [h4 n hn]
    congr 1
    rcases n with _ | n
    · simp
    · rw [if_neg (by omega), Finset.sum_eq_single 1]
      · simp [at0]
      · intro i hi h1
        rw [at0_of_le [0, 1] i (by simp at hi ⊢; omega), zero_mul]
      · intro h; simp at h

/-- C32.  The weights of every supported order sum to one, and the supported orders are 0 to 4. -/
theorem C32_integral_weights [CharZero K] (N : ℤ) :
    (0 ≤ N ∧ N ≤ 4 → ∃ b : List K, Integral.table N = some b ∧ (b.length : ℤ) = N + 1 ∧ ∑ i ∈ range b.length, at0 b i = 1) ∧
    (N < 0 ∨ 4 < N → (Integral.table N : Option (List K)) = none) := by
  constructor
  · rintro ⟨h1, h2⟩
    interval_cases N <;> refine ⟨_, rfl, rfl, ?_⟩ <;> norm_num [scaled, Finset.sum_range_succ, at0]
  · intro h
    unfold Integral.table
    split <;> first | omega | rfl

example : ∃ b : List ℚ, Integral.table 3 = some b ∧ (b.length : ℤ) = 4 ∧ ∑ i ∈ range b.length, at0 b i = 1 := (C32_integral_weights 3).1 (by norm_num)

/-- C32.  Closed form: the output is the running sum of the weighted windows. -/
theorem C32_integral_running_sum [DecidableEq K] (N : ℤ) (f : Iir K) (hf : Integral.new N = .ok f) (x : List K) (hx : x ≠ []) :
    ∃ b y f', Integral.table N = some b ∧ f.filter x = (.ok y, f') ∧
      ∀ n, n < x.length → y[n]? = some (∑ m ∈ range (n + 1), ∑ i ∈ range (m + 1), at0 b i * at0 x (m - i)) := by
  obtain ⟨b, y, f', h1, h2, h3, h4⟩ := C32_integral_increment N f hf x hx
  refine ⟨b, y, f', h1, h2, fun n hn => ?_⟩
  have key : ∀ n, n < x.length → at0 y n = ∑ m ∈ range (n + 1), ∑ i ∈ range (m + 1), at0 b i * at0 x (m - i) := by
    intro n
    induction n with
    | zero => intro hn; rw [h4 0 hn]; simp
    | succ n ih =>
      intro hn
      rw [h4 _ hn, if_neg (by omega), Nat.add_sub_cancel, ih (by omega), ← Finset.sum_range_succ]
  rw [← key n hn, at0_of_lt _ _ (by omega), List.getElem?_eq_getElem]

/-- C32.  Order 0 is the running sum. -/
theorem C32_integral_order_zero [DecidableEq K] (f : Iir K) (hf : Integral.new 0 = .ok f) (x : List K) (hx : x ≠ []) :
    ∃ y f', f.filter x = (.ok y, f') ∧ ∀ n, n < x.length → y[n]? = some (∑ m ∈ range (n + 1), at0 x m) := by
  obtain ⟨b, y, f', h1, h2, h3⟩ := C32_integral_running_sum 0 f hf x hx
  refine ⟨y, f', h2, fun n hn => ?_⟩
  rw [h3 n hn]
  cases h1
  congr 1
  apply sum_congr rfl
  intro m _
  rw [sum_range_succ']
  simp [at0]

/-- C32.  A constant `c` grows by exactly `c` per sample once the window is full. -/
theorem C32_integral_constant [DecidableEq K] [CharZero K] (N : ℤ) (f : Iir K) (hf : Integral.new N = .ok f) (c : K) (L : ℕ)
    (hL : 0 < L) :
    ∃ y f', f.filter (List.replicate L c) = (.ok y, f') ∧
      ∀ n, 1 ≤ n → N.toNat ≤ n → n < L → at0 y n = at0 y (n - 1) + c := by
  obtain ⟨b, y, f', h1, h2, h3, h4⟩ := C32_integral_increment N f hf (List.replicate L c) (by simp; omega)
  refine ⟨y, f', h2, fun n hn hN hL' => ?_⟩
  rw [h4 n (by simpa using hL'), if_neg (by omega)]
  congr 1
  have hN' : 0 ≤ N ∧ N ≤ 4 := by
    by_contra hc
    rw [(C32_integral_weights N).2 (by omega)] at h1
    cases h1
  obtain ⟨b', g1, g2, g3⟩ := (C32_integral_weights (K := K) N).1 hN'
  rw [h1] at g1
  cases g1
  calc ∑ i ∈ range (n + 1), at0 b i * at0 (List.replicate L c) (n - i)
      = ∑ i ∈ range (n + 1), at0 b i * c := by
        apply sum_congr rfl
        intro i hi
        rw [at0_of_lt (List.replicate L c) (n - i) (by rw [List.length_replicate]; omega), List.getElem_replicate]
    _ = c := by rw [sum_eq_length (fun _ => c) (n + 1) (by omega), ← Finset.sum_mul, g3, one_mul]

/-- The hypotheses of the theorems of C32 on IntegralFilter hold. -/
example := And.intro (C32_integral_increment (K := ℚ) 2 _ rfl [1, 4, 2] (by simp)) (And.intro (C32_integral_running_sum (K := ℚ) 3 _ rfl [1, 4, 2] (by simp))
  (And.intro (C32_integral_order_zero (K := ℚ) _ rfl [1, 4, 2] (by simp)) (C32_integral_constant (K := ℚ) 4 _ rfl 5 10 (by norm_num))))

/-- C32.  The orders 1 to 4 are the closed Newton–Cotes rules: on samples of a polynomial `p = P'` of degree at most the degree of
exactness, the increment is the mean of `p` over the window, `(P(n) - P(n-N)) / N`. -/
theorem C32_integral_quadrature [DecidableEq K] [CharZero K] (N : ℤ) (hN : 1 ≤ N) (f : Iir K) (hf : Integral.new N = .ok f)
    (P : K[X]) (hP : P.natDegree ≤ quadratureDegree N + 1) (x : List K) (hx0 : x ≠ [])
    (hx : SamplesOf (derivative P) x) :
    ∃ y f', f.filter x = (.ok y, f') ∧ ∀ n, N.toNat ≤ n → n < x.length →
      at0 y n = at0 y (n - 1) + (P.eval (n : K) - P.eval ((n : K) - (N : K))) / (N : K) := by
  obtain ⟨b, y, f', h1, h2, h3, h4⟩ := C32_integral_increment N f hf x hx0
  refine ⟨y, f', h2, fun n hNn hn => ?_⟩
  rw [h4 n hn, if_neg (by omega)]
  congr 1
  have hN' : 0 ≤ N ∧ N ≤ 4 := by
    by_contra hc
    rw [(C32_integral_weights N).2 (by omega)] at h1
    cases h1
  have hlen : b.length = N.toNat + 1 := by
    obtain ⟨b', g1, g2, _⟩ := (C32_integral_weights (K := K) N).1 hN'
    rw [h1] at g1; cases g1; omega
  have hcv := conv_samples b x (derivative P) hx n hn (by omega)
  unfold conv at hcv
  rw [hcv]
  clear hcv h4 h2 hf hx
  have hc : ∀ k, quadratureDegree N + 1 < k → P.coeff k = 0 := fun k hk => coeff_eq_zero_of_natDegree_lt (by omega)
  have hpoly : P = C (P.coeff 0) + C (P.coeff 1) * X + C (P.coeff 2) * X ^ 2 + C (P.coeff 3) * X ^ 3 + C (P.coeff 4) * X ^ 4
      + C (P.coeff 5) * X ^ 5 + C (P.coeff 6) * X ^ 6 := by
    have : quadratureDegree N ≤ 5 := by unfold quadratureDegree; split <;> omega
    conv_lhs => rw [P.as_sum_range_C_mul_X_pow' (n := 7) (by omega)]
    simp [Finset.sum_range_succ]
  generalize P.coeff 0 = c0 at hpoly
  generalize P.coeff 1 = c1 at hpoly
  generalize P.coeff 2 = c2 at hpoly
  generalize h3 : P.coeff 3 = c3 at hpoly
  generalize h4 : P.coeff 4 = c4 at hpoly
  generalize h5 : P.coeff 5 = c5 at hpoly
  generalize h6 : P.coeff 6 = c6 at hpoly
  have e3 := hc 3
  have e4 := hc 4
  have e5 := hc 5
  have e6 := hc 6
  rw [h3] at e3; rw [h4] at e4; rw [h5] at e5; rw [h6] at e6
  obtain ⟨_, hN4⟩ := hN'
  interval_cases N <;> cases h1 <;> simp only [quadratureDegree] at e3 e4 e5 e6 <;> norm_num at e3 e4 e5 e6 <;>
    rw [hpoly] <;> clear hpoly hP hc h3 h4 h5 h6 hlen <;> subst_vars <;>
    simp [scaled, Finset.sum_range_succ, at0] <;>
    ring

example : (∃ f : Iir ℚ, Integral.new 2 = .ok f) ∧ ((X : ℚ[X]) ^ 4).natDegree ≤ quadratureDegree 2 + 1 ∧
    SamplesOf (derivative ((X : ℚ[X]) ^ 4)) [0, 4, 32] := by
  refine ⟨⟨_, rfl⟩, by simp [quadratureDegree], ?_⟩
  intro n hn
  simp only [List.length_cons, List.length_nil] at hn
  interval_cases n <;> norm_num

end Verif.Props
