import Verif.Model.ComplexRounded
import Verif.Spec.MachineC
import Verif.Props.Adaptive
import Verif.Props.Exponential
import Verif.Props.RoundingSum
import Verif.Props.Sweep
import Verif.Props.GoertzelRounding

/-
Property C140: rounding errors of the complex filters (diamondback/filters/complex_exponential_filter.py, complex_bandpass_filter.py, complex_frequency_filter.py).
-/

namespace Verif.Props

open Spec Complex Finset

/-- One step of the adaptation `b + rate (d - x b) conj(x)` in machine arithmetic. -/
theorem adapt_step {F : Type*} [Add F] [Sub F] [Mul F] (val : F → ℂ) (conj : F → F) (u η M : ℝ) (hF : MachineC val conj u η) (hu : 0 ≤ u) (hu1 : u ≤ 1) (hη : 0 ≤ η)
    (rate b x d p : F) (hr : ‖val rate‖ ≤ 1) (hx : ‖val x‖ ≤ 2) (hd : ‖val d‖ ≤ M) (hp : ‖val p - val x * val b‖ ≤ u * (‖val x‖ * ‖val b‖) + η) :
    ‖val (b + rate * (d - p) * conj x) - (val b + val rate * (val d - val x * val b) * (starRingEnd ℂ) (val x))‖ ≤ 125 * u * (‖val b‖ + M) + 59 * η := by
  set v := ‖val b‖ with hv
  have hv0 : 0 ≤ v := norm_nonneg _
  have hM0 : 0 ≤ M := (norm_nonneg _).trans hd
  have huη : u * η ≤ η := mul_le_of_le_one_left hη hu1
  have huv : u * v ≤ v := mul_le_of_le_one_left hv0 hu1
  have huM : u * M ≤ M := mul_le_of_le_one_left hM0 hu1
  have huv0 : 0 ≤ u * v := mul_nonneg hu hv0
  have huM0 : 0 ≤ u * M := mul_nonneg hu hM0
  have tri : ∀ a b : ℂ, ‖a‖ ≤ ‖b‖ + ‖a - b‖ := fun a b => by
    have := norm_le_norm_add_norm_sub' a b
    exact this
  have hxb : ‖val x‖ * v ≤ 2 * v := mul_le_mul_of_nonneg_right hx hv0
  -- the product
  have p1 : ‖val p - val x * val b‖ ≤ 2 * (u * v) + η := by
    refine hp.trans ?_
    nlinarith
  have p2 : ‖val p‖ ≤ 4 * v + η := by
    have := tri (val p) (val x * val b)
    rw [norm_mul] at this
    linarith
  -- the difference
  have e1 : ‖val (d - p) - (val d - val x * val b)‖ ≤ u * M + 6 * (u * v) + 3 * η := by
    have h1 := hF.sub d p
    have h2 : val (d - p) - (val d - val x * val b) = (val (d - p) - (val d - val p)) - (val p - val x * val b) := by ring
    rw [h2]
    refine (norm_sub_le _ _).trans ?_
    have h3 : u * (‖val d‖ + ‖val p‖) ≤ u * (M + (4 * v + η)) := mul_le_mul_of_nonneg_left (add_le_add hd p2) hu
    nlinarith
  set e := d - p with he
  set E := val d - val x * val b with hE
  have hE1 : ‖E‖ ≤ M + 2 * v := by
    refine (norm_sub_le _ _).trans ?_
    rw [norm_mul]
    linarith
  have e2 : ‖val e‖ ≤ 2 * M + 8 * v + 3 * η := by
    have := tri (val e) E
    linarith
  -- times the rate
  have q1 : ‖val (rate * e) - val rate * E‖ ≤ 3 * (u * M) + 14 * (u * v) + 7 * η := by
    have h1 := hF.mul rate e
    have h2 : val (rate * e) - val rate * E = (val (rate * e) - val rate * val e) + val rate * (val e - E) := by ring
    rw [h2]
    refine (norm_add_le _ _).trans ?_
    rw [norm_mul]
    have h3 : ‖val rate‖ * ‖val e - E‖ ≤ 1 * ‖val e - E‖ := mul_le_mul_of_nonneg_right hr (norm_nonneg _)
    have h4 : u * (‖val rate‖ * ‖val e‖) ≤ u * (2 * M + 8 * v + 3 * η) := by
      refine mul_le_mul_of_nonneg_left ?_ hu
      have : ‖val rate‖ * ‖val e‖ ≤ 1 * ‖val e‖ := mul_le_mul_of_nonneg_right hr (norm_nonneg _)
      linarith
    nlinarith
  have hrE : ‖val rate * E‖ ≤ M + 2 * v := by
    rw [norm_mul]
    have : ‖val rate‖ * ‖E‖ ≤ 1 * ‖E‖ := mul_le_mul_of_nonneg_right hr (norm_nonneg _)
    linarith
  have q2 : ‖val (rate * e)‖ ≤ 4 * M + 16 * v + 7 * η := by
    have := tri (val (rate * e)) (val rate * E)
    linarith
  -- times the conjugate
  have hcx : ‖val (conj x)‖ ≤ 2 := by rw [hF.conj]; simpa using hx
  have s1 : ‖val (rate * e * conj x) - val rate * E * (starRingEnd ℂ) (val x)‖ ≤ 14 * (u * M) + 60 * (u * v) + 29 * η := by
    have h1 := hF.mul (rate * e) (conj x)
    have h2 : val (rate * e * conj x) - val rate * E * (starRingEnd ℂ) (val x) =
        (val (rate * e * conj x) - val (rate * e) * val (conj x)) + (val (rate * e) - val rate * E) * val (conj x) := by rw [hF.conj]; ring
    rw [h2]
    refine (norm_add_le _ _).trans ?_
    rw [norm_mul]
    have h3 : ‖val (rate * e) - val rate * E‖ * ‖val (conj x)‖ ≤ ‖val (rate * e) - val rate * E‖ * 2 := mul_le_mul_of_nonneg_left hcx (norm_nonneg _)
    have h4 : u * (‖val (rate * e)‖ * ‖val (conj x)‖) ≤ u * ((4 * M + 16 * v + 7 * η) * 2) :=
      mul_le_mul_of_nonneg_left (mul_le_mul q2 hcx (norm_nonneg _) (by positivity)) hu
    nlinarith
  have s2 : ‖val (rate * e * conj x)‖ ≤ 16 * M + 64 * v + 29 * η := by
    have h1 := tri (val (rate * e * conj x)) (val rate * E * (starRingEnd ℂ) (val x))
    have h2 : ‖val rate * E * (starRingEnd ℂ) (val x)‖ ≤ (M + 2 * v) * 2 := by
      rw [norm_mul]
      refine mul_le_mul hrE ?_ (norm_nonneg _) (by positivity)
      simpa using hx
    linarith
  have a1 := hF.add b (rate * e * conj x)
  have a2 : val (b + rate * e * conj x) - (val b + val rate * E * (starRingEnd ℂ) (val x)) =
      (val (b + rate * e * conj x) - (val b + val (rate * e * conj x))) + (val (rate * e * conj x) - val rate * E * (starRingEnd ℂ) (val x)) := by ring
  rw [a2]
  refine (norm_add_le _ _).trans ?_
  have a3 : u * (‖val b‖ + ‖val (rate * e * conj x)‖) ≤ u * (v + (16 * M + 64 * v + 29 * η)) := mul_le_mul_of_nonneg_left (by linarith) hu
  nlinarith

/-- The exact adaptation contracts. -/
theorem adapt_contract (r : ℝ) (hr0 : 0 ≤ r) (hr1 : r ≤ 1) (x : ℂ) (h1 : 1 / 2 ≤ ‖x‖ ^ 2) (h2 : ‖x‖ ^ 2 ≤ 3 / 2) (b c : ℂ) (d : ℂ) :
    ‖(b + r * (d - x * b) * (starRingEnd ℂ) x) - (c + r * (d - x * c) * (starRingEnd ℂ) x)‖ ≤ (1 - r / 2) * ‖b - c‖ := by
  have e : (b + r * (d - x * b) * (starRingEnd ℂ) x) - (c + r * (d - x * c) * (starRingEnd ℂ) x) = ((1 - r * ‖x‖ ^ 2 : ℝ) : ℂ) * (b - c) := by
    have := Complex.mul_conj' x
    push_cast
    rw [← this]
    ring
  rw [e, norm_mul, Complex.norm_real]
  refine mul_le_mul_of_nonneg_right ?_ (norm_nonneg _)
  rw [Real.norm_eq_abs, abs_le]
  constructor <;> nlinarith

/-- The adaptation of both filters in machine arithmetic against the exact one, for any sequence of pairs. -/
theorem adapt_rounding {F : Type*} [Add F] [Sub F] [Mul F] (val : F → ℂ) (conj : F → F) (u η M W r : ℝ) (hF : MachineC val conj u η) (hu : 0 ≤ u) (hη : 0 ≤ η)
    (hr0 : 0 < r) (hr1 : r ≤ 1) (hur : 500 * u ≤ r) (rate : F) (hrate : val rate = r) (x d p B : ℕ → F) (C : ℕ → ℂ) (N : ℕ)
    (hx : ∀ n < N, 1 / 2 ≤ ‖val (x n)‖ ^ 2 ∧ ‖val (x n)‖ ^ 2 ≤ 3 / 2) (hd : ∀ n < N, ‖val (d n)‖ ≤ M) (hM : 0 ≤ M)
    (hp : ∀ n < N, ‖val (p n) - val (x n) * val (B n)‖ ≤ u * (‖val (x n)‖ * ‖val (B n)‖) + η)
    (hB : ∀ n < N, B (n + 1) = B n + rate * (d n - p n) * conj (x n)) (hC0 : C 0 = val (B 0))
    (hC : ∀ n < N, C (n + 1) = C n + r * (val (d n) - val (x n) * C n) * (starRingEnd ℂ) (val (x n))) (hW0 : ‖val (B 0)‖ ≤ W) (hW : 6 * M + 236 * η / r ≤ W) :
    ∀ n ≤ N, ‖val (B n)‖ ≤ W ∧ ‖val (B n) - C n‖ ≤ (250 * u * (W + M) + 118 * η) / r := by
  have hW' : 6 * M * r + 236 * η ≤ W * r := by
    have := mul_le_mul_of_nonneg_right hW hr0.le
    rw [add_mul, div_mul_cancel₀ _ hr0.ne'] at this
    exact this
  have hWp : 0 ≤ W := (norm_nonneg _).trans hW0
  intro n
  induction n with
  | zero =>
    intro _
    refine ⟨hW0, ?_⟩
    rw [hC0, sub_self, norm_zero]
    positivity
  | succ n ih =>
    intro hn
    obtain ⟨i1, i2⟩ := ih (by omega)
    obtain ⟨x1, x2⟩ := hx n (by omega)
    have hx2 : ‖val (x n)‖ ≤ 5 / 4 := by
      have : ‖val (x n)‖ ^ 2 ≤ (5 / 4) ^ 2 := x2.trans (by norm_num)
      exact le_of_sq_le_sq this (by norm_num)
    have st := adapt_step val conj u η M hF hu (by linarith) hη rate (B n) (x n) (d n) (p n) (by rw [hrate, Complex.norm_real, Real.norm_eq_abs, abs_of_pos hr0]; exact hr1)
      (by linarith) (hd n (by omega)) (hp n (by omega))
    rw [← hB n (by omega), hrate] at st
    have hdl : 125 * u * (‖val (B n)‖ + M) + 59 * η ≤ 125 * u * (W + M) + 59 * η := by
      have := mul_le_mul_of_nonneg_left (add_le_add_left i1 M) (by positivity : 0 ≤ 125 * u)
      linarith
    constructor
    · have c0 := adapt_contract r hr0.le hr1 (val (x n)) x1 x2 (val (B n)) 0 (val (d n))
      have c1 : ‖(0 : ℂ) + r * (val (d n) - val (x n) * 0) * (starRingEnd ℂ) (val (x n))‖ ≤ r * M * (5 / 4) := by
        rw [zero_add, mul_zero, sub_zero, norm_mul, norm_mul, Complex.norm_real, Real.norm_eq_abs, abs_of_pos hr0, Complex.norm_conj]
        exact mul_le_mul (mul_le_mul_of_nonneg_left (hd n (by omega)) hr0.le) hx2 (norm_nonneg _) (by positivity)
      rw [sub_zero] at c0
      have c2 := norm_le_norm_add_norm_sub' (val (B (n + 1))) (val (B n) + r * (val (d n) - val (x n) * val (B n)) * (starRingEnd ℂ) (val (x n)))
      have c3 := norm_le_norm_add_norm_sub' (val (B n) + r * (val (d n) - val (x n) * val (B n)) * (starRingEnd ℂ) (val (x n)))
        ((0 : ℂ) + r * (val (d n) - val (x n) * 0) * (starRingEnd ℂ) (val (x n)))
      have c4 : (1 - r / 2) * ‖val (B n)‖ ≤ (1 - r / 2) * W := mul_le_mul_of_nonneg_left i1 (by linarith)
      have c5 : 125 * u * (W + M) ≤ r / 4 * (W + M) := mul_le_mul_of_nonneg_right (by linarith) (by positivity)
      nlinarith
    · have c0 := adapt_contract r hr0.le hr1 (val (x n)) x1 x2 (val (B n)) (C n) (val (d n))
      rw [← hC n (by omega)] at c0
      have c1 := norm_sub_le_norm_sub_add_norm_sub (val (B (n + 1))) (val (B n) + r * (val (d n) - val (x n) * val (B n)) * (starRingEnd ℂ) (val (x n))) (C (n + 1))
      have c2 : (1 - r / 2) * ‖val (B n) - C n‖ ≤ (1 - r / 2) * ((250 * u * (W + M) + 118 * η) / r) := mul_le_mul_of_nonneg_left i2 (by linarith)
      have c3 : (1 - r / 2) * ((250 * u * (W + M) + 118 * η) / r) = (250 * u * (W + M) + 118 * η) / r - (125 * u * (W + M) + 59 * η) := by
        field_simp
        ring
      linarith

/-- The loop of ComplexBandpassFilter, sample by sample. -/
theorem machineBandpass_loop {F : Type*} [Add F] [Sub F] [Mul F] (conj : F → F) (rate : F) (l : List (F × F)) : ∀ b : F, ∃ B : ℕ → F, B 0 = b ∧
    (∀ n (h : n < l.length), B (n + 1) = B n + rate * (l[n].2 - l[n].1 * B n) * conj l[n].1 ∧
      (MachineBandpass.loop conj rate b l).1[n]? = some (l[n].1 * B n, l[n].2 - l[n].1 * B n, B n)) ∧
    (MachineBandpass.loop conj rate b l).1.length = l.length ∧ (MachineBandpass.loop conj rate b l).2 = B l.length := by
  induction l with
  | nil => intro b; exact ⟨fun _ => b, rfl, by simp, rfl, rfl⟩
  | cons q t ih =>
    intro b
    obtain ⟨B, h0, h1, h2, h3⟩ := ih (b + rate * (q.2 - q.1 * b) * conj q.1)
    refine ⟨fun n => if n = 0 then b else B (n - 1), rfl, ?_, ?_, ?_⟩
    · intro n hn
      rcases n with _ | n
      · simp [MachineBandpass.loop, h0]
      · have := h1 n (by simpa using hn)
        simpa [MachineBandpass.loop] using this
    · simp [MachineBandpass.loop, h2]
    · simp [MachineBandpass.loop, h3]

theorem exact_bandpass_loop (r : ℝ) (l : List (ℂ × ℂ)) : ∀ b : ℂ, Bandpass.loop r b l = MachineBandpass.loop (starRingEnd ℂ) (r : ℂ) b l := by
  induction l with
  | nil => intro b; rfl
  | cons q t ih =>
    intro b
    obtain ⟨x, d⟩ := q
    simp only [Bandpass.loop, MachineBandpass.loop, ih]

/-- The phases in the machine. -/
theorem machineExp_loop {F : Type*} (add : ℝ → ℝ → ℝ) (exp : ℝ → F) (u : ℝ) (hu : 0 ≤ u) (hadd : ∀ a b, |add a b - (a + b)| ≤ u * |a + b|) (x : List ℝ)
    (hx : ∀ v ∈ x, |v| ≤ 1) (p0 : ℝ) (hp0 : |p0| ≤ 1) :
    ∃ P : ℕ → ℝ, P 0 = p0 ∧ (∀ n ≤ x.length, |P n - (p0 + ∑ i ∈ range n, at0 x i)| ≤ ((1 + u) ^ n - 1) * (n + 1)) ∧
      (∀ n < x.length, (MachineExp.loop add exp p0 x).1[n]? = some (exp (P n))) ∧ (MachineExp.loop add exp p0 x).1.length = x.length ∧
      (MachineExp.loop add exp p0 x).2 = P x.length := by
  have gen : ∀ (x : List ℝ) (p : ℝ), ∃ P : ℕ → ℝ, P 0 = p ∧ (∀ n < x.length, P (n + 1) = add (P n) (at0 x n)) ∧
      (∀ n < x.length, (MachineExp.loop add exp p x).1[n]? = some (exp (P n))) ∧ (MachineExp.loop add exp p x).1.length = x.length ∧
      (MachineExp.loop add exp p x).2 = P x.length := by
    intro x
    induction x with
    | nil => intro p; exact ⟨fun _ => p, rfl, by simp, by simp, rfl, rfl⟩
    | cons v t ih =>
      intro p
      obtain ⟨P, h0, h1, h2, h3, h4⟩ := ih (add p v)
      refine ⟨fun n => if n = 0 then p else P (n - 1), rfl, ?_, ?_, ?_, ?_⟩
      · intro n hn
        rcases n with _ | n
        · simp [h0, at0]
        · have := h1 n (by simpa using hn)
          simpa [at0] using this
      · intro n hn
        rcases n with _ | n
        · simp [MachineExp.loop]
        · have := h2 n (by simpa using hn)
          simpa [MachineExp.loop] using this
      · simp [MachineExp.loop, h3]
      · simp [MachineExp.loop, h4]
  obtain ⟨P, h0, h1, h2, h3, h4⟩ := gen x p0
  refine ⟨P, h0, ?_, h2, h3, h4⟩
  have hsum : ∀ n ≤ x.length, |p0 + ∑ i ∈ range n, at0 x i| ≤ n + 1 := by
    intro n hn
    have : |∑ i ∈ range n, at0 x i| ≤ n := by
      refine (abs_sum_le_sum_abs _ _).trans ?_
      refine (sum_le_sum (g := fun _ => (1 : ℝ)) ?_).trans (by simp)
      intro i hi
      have := mem_range.mp hi
      rw [at0_of_lt _ _ (by omega)]
      exact hx _ (List.getElem_mem _)
    refine (abs_add_le _ _).trans ?_
    linarith
  intro n
  induction n with
  | zero => intro _; simp [h0]
  | succ n ih =>
    intro hn
    have i1 := ih (by omega)
    have a1 := hadd (P n) (at0 x n)
    rw [← h1 n (by omega)] at a1
    have a2 := hsum (n + 1) hn
    rw [sum_range_succ] at a2 ⊢
    set S := p0 + ∑ i ∈ range n, at0 x i with hS
    rw [← add_assoc] at a2 ⊢
    have hpow : 1 ≤ (1 + u) ^ n := one_le_pow₀ (by linarith)
    have a3 : |P n + at0 x n| ≤ |P n - S| + (n + 2) := by
      have : P n + at0 x n = (P n - S) + (S + at0 x n) := by ring
      rw [this]
      refine (abs_add_le _ _).trans ?_
      push_cast at a2
      linarith
    have a4 : P (n + 1) - (S + at0 x n) = (P (n + 1) - (P n + at0 x n)) + (P n - S) := by ring
    rw [a4]
    refine (abs_add_le _ _).trans ?_
    have a5 : u * |P n + at0 x n| ≤ u * (|P n - S| + (n + 2)) := mul_le_mul_of_nonneg_left a3 hu
    have a6 : (1 + u) * |P n - S| ≤ (1 + u) * (((1 + u) ^ n - 1) * (n + 1)) := mul_le_mul_of_nonneg_left i1 (by linarith)
    have a7 : (1 + u) * (((1 + u) ^ n - 1) * (n + 1)) ≤ (1 + u) * (((1 + u) ^ n - 1) * (n + 2)) := by
      refine mul_le_mul_of_nonneg_left ?_ (by linarith)
      exact mul_le_mul_of_nonneg_left (by linarith) (by linarith)
    rw [pow_succ]
    push_cast
    nlinarith

/-- C140.  ComplexExponentialFilter in machine arithmetic: the phase is not reduced during a call, so within one call its error after `n` samples is bounded by
`((1 + u)^n - 1) (n + 1)`, which grows with the square of `n`.  The phase kept for the next call has the error at the end of this one, up to full turns. -/
theorem C140_exponential {F : Type*} (add : ℝ → ℝ → ℝ) (exp : ℝ → F) (u : ℝ) (hu : 0 ≤ u) (hadd : ∀ a b, |add a b - (a + b)| ≤ u * |a + b|) (f : CExp)
    (hf : |f.phase| ≤ 1) (x : List ℝ) (hne : x ≠ []) (hx : ∀ v ∈ x, |v| ≤ 1) :
    ∃ y f', MachineExp.filter add exp f x = (.ok y, f') ∧ y.length = x.length ∧
      (∀ n < x.length, ∃ p, y[n]? = some (exp p) ∧ |p - (f.phase + ∑ i ∈ range n, at0 x i)| ≤ ((1 + u) ^ n - 1) * (n + 1)) ∧
      |f'.phase| ≤ 1 ∧ ∃ k : ℤ, |f'.phase - (f.phase + ∑ i ∈ range x.length, at0 x i + 2 * k)| ≤ ((1 + u) ^ x.length - 1) * (x.length + 1) := by
  obtain ⟨P, h0, h1, h2, h3, h4⟩ := machineExp_loop add exp u hu hadd x hx f.phase hf
  obtain ⟨w1, w2, k, w3⟩ := wrapPhase_spec (MachineExp.loop add exp f.phase x).2
  have hc : ¬ (x.length = 0 ∨ ∃ v ∈ x, |v| > 1) := by
    rintro (h | ⟨v, hv, h⟩)
    · exact hne (List.length_eq_zero_iff.mp h)
    · exact absurd (hx v hv) (not_le.mpr h)
  have hset : f.setPhase (wrapPhase (MachineExp.loop add exp f.phase x).2) = (.ok (), ⟨wrapPhase (MachineExp.loop add exp f.phase x).2⟩) := by
    rw [CExp.setPhase, if_neg]
    push Not
    exact ⟨w1, w2⟩
  refine ⟨_, ⟨wrapPhase (MachineExp.loop add exp f.phase x).2⟩, by simp only [MachineExp.filter, if_neg hc, hset], h3, fun n hn => ⟨P n, h2 n hn, h1 n hn.le⟩, abs_le.mpr ⟨w1, w2⟩, k, ?_⟩
  have := h1 x.length le_rfl
  show |wrapPhase _ - _| ≤ _
  rw [w3, h4]
  rw [show P x.length + 2 * (k : ℝ) - (f.phase + ∑ i ∈ range x.length, at0 x i + 2 * k) = P x.length - (f.phase + ∑ i ∈ range x.length, at0 x i) by ring]
  exact this

/-- The hypotheses hold of a machine whose sums are two percent too large. -/
example := C140_exponential (fun a b => (a + b) * 1.02) phasor 0.02 (by norm_num)
  (fun a b => by rw [show (a + b) * 1.02 - (a + b) = 0.02 * (a + b) by ring, abs_mul, abs_of_pos (by norm_num : (0 : ℝ) < 0.02)]) ⟨1 / 2⟩ (by norm_num [abs_le]) [1 / 4, -1]
  (by simp) (by intro v hv; simp at hv; rcases hv with rfl | rfl <;> norm_num [abs_le])

/-- The error bound of one call. -/
noncomputable def callError (u : ℝ) (n : ℕ) : ℝ := ((1 + u) ^ n - 1) * (n + 1)

/-- C140.  Over a sequence of calls the bounds of the calls add up: many short calls are better than a long one. -/
theorem C140_exponential_calls {F : Type*} (add : ℝ → ℝ → ℝ) (exp : ℝ → F) (u : ℝ) (hu : 0 ≤ u) (hadd : ∀ a b, |add a b - (a + b)| ≤ u * |a + b|)
    (calls : List (List ℝ)) (hne : ∀ x ∈ calls, x ≠ []) (hx : ∀ x ∈ calls, ∀ v ∈ x, |v| ≤ 1) : ∀ (f : CExp), |f.phase| ≤ 1 →
    ∃ y f', callChunks (MachineExp.filter add exp) f calls = (.ok y, f') ∧ |f'.phase| ≤ 1 ∧
      ∃ k : ℤ, |f'.phase - (f.phase + calls.flatten.sum + 2 * k)| ≤ (calls.map fun x => callError u x.length).sum := by
  induction calls with
  | nil => intro f hf; exact ⟨[], f, rfl, hf, 0, by simp⟩
  | cons c cs ih =>
    intro f hf
    obtain ⟨y, f1, h1, -, -, h4, k1, h5⟩ := C140_exponential add exp u hu hadd f hf c (hne c (by simp)) (hx c (by simp))
    obtain ⟨z, f2, g1, g2, k2, g3⟩ := ih (fun x hx' => hne x (by simp [hx'])) (fun x hx' => hx x (by simp [hx'])) f1 h4
    refine ⟨y ++ z, f2, by simp [callChunks, h1, g1], g2, k1 + k2, ?_⟩
    have hs : ∑ i ∈ range c.length, at0 c i = c.sum := by
      clear h1 h5 hne hx ih
      induction c with
      | nil => rfl
      | cons v t ih2 =>
        rw [List.length_cons, sum_range_succ', List.sum_cons, add_comm]
        simpa [at0] using ih2
    rw [hs] at h5
    have e : f2.phase - (f.phase + (c :: cs).flatten.sum + 2 * ((k1 + k2 : ℤ) : ℝ)) =
        (f2.phase - (f1.phase + cs.flatten.sum + 2 * k2)) + (f1.phase - (f.phase + c.sum + 2 * k1)) := by
      rw [List.flatten_cons, List.sum_append]
      push_cast
      ring
    rw [e, List.map_cons, List.sum_cons]
    refine (abs_add_le _ _).trans ?_
    have : callError u c.length = ((1 + u) ^ c.length - 1) * (c.length + 1) := rfl
    linarith

/-- The hypotheses hold of a machine whose sums are two percent too large. -/
example := C140_exponential_calls (fun a b => (a + b) * 1.02) phasor 0.02 (by norm_num)
  (fun a b => by rw [show (a + b) * 1.02 - (a + b) = 0.02 * (a + b) by ring, abs_mul, abs_of_pos (by norm_num : (0 : ℝ) < 0.02)]) [[1 / 4, -1], [1]]
  (by simp) (by
    intro x hx v hv
    simp at hx
    rcases hx with rfl | rfl <;> simp at hv
    · rcases hv with rfl | rfl <;> norm_num [abs_le]
    · rw [hv]; norm_num) ⟨1 / 2⟩ (by norm_num [abs_le])

/-- C140.  In binary arithmetic with `p` significant bits a call at the constant frequency `2^-k` stops turning after `2^p` samples (`16777216` for float32): the
phase has become so large that the frequency is lost in rounding. -/
theorem C140_stall {F : Type*} (add : ℝ → ℝ → ℝ) (exp : ℝ → F) (p k : ℕ) (hp : 2 ≤ p) (hadd : ∀ n : ℕ, add (n / 2 ^ k) (1 / 2 ^ k) = nearest p (n + 1) / 2 ^ k)
    (N : ℕ) (hN : 0 < N) : ∃ y f', MachineExp.filter add exp ⟨0⟩ (List.replicate N (1 / 2 ^ k)) = (.ok y, f') ∧ y.length = N ∧
      ∀ n < N, y[n]? = some (exp ((min n (2 ^ p) : ℕ) / 2 ^ k)) := by
  have step : ∀ n ≤ 2 ^ p, nearest p (n + 1) = min (n + 1) (2 ^ p) := by
    intro n hn
    rcases hn.lt_or_eq with h | h
    · rw [min_eq_left (by omega)]
      rcases (show n + 1 ≤ 2 ^ p by omega).lt_or_eq with h' | h'
      · exact nearest_small p _ h'
      · rw [h']; exact (nearest_pow p hp).1
    · rw [h, min_eq_right (by omega)]; exact (nearest_pow p hp).2
  have gen : ∀ (N m : ℕ), m ≤ 2 ^ p → (MachineExp.loop add exp ((m : ℝ) / 2 ^ k) (List.replicate N (1 / 2 ^ k))).1.length = N ∧
      ∀ n < N, (MachineExp.loop add exp ((m : ℝ) / 2 ^ k) (List.replicate N (1 / 2 ^ k))).1[n]? = some (exp ((min (m + n) (2 ^ p) : ℕ) / 2 ^ k)) := by
    intro N
    induction N with
    | zero => intro m hm; simp [MachineExp.loop]
    | succ N ih =>
      intro m hm
      obtain ⟨i1, i2⟩ := ih (min (m + 1) (2 ^ p)) (min_le_right _ _)
      rw [List.replicate_succ, MachineExp.loop, hadd, step m hm]
      refine ⟨by rw [List.length_cons, i1], fun n hn => ?_⟩
      rcases n with _ | n
      · simp [min_eq_left hm]
      · rw [List.getElem?_cons_succ, i2 n (by omega)]
        congr 4
        omega
  obtain ⟨g1, g2⟩ := gen N 0 (Nat.zero_le _)
  simp only [Nat.cast_zero, zero_div, zero_add] at g1 g2
  obtain ⟨w1, w2, -⟩ := wrapPhase_spec (MachineExp.loop add exp 0 (List.replicate N (1 / 2 ^ k))).2
  have hc : ¬ ((List.replicate N ((1 : ℝ) / 2 ^ k)).length = 0 ∨ ∃ v ∈ List.replicate N ((1 : ℝ) / 2 ^ k), |v| > 1) := by
    rintro (h | ⟨v, hv, h⟩)
    · rw [List.length_replicate] at h; omega
    · rw [List.eq_of_mem_replicate hv, abs_of_pos (by positivity), gt_iff_lt, lt_div_iff₀ (by positivity), one_mul] at h
      exact absurd (one_le_pow₀ (by norm_num : (1 : ℝ) ≤ 2)) (not_le.mpr h)
  have hset : (CExp.mk 0).setPhase (wrapPhase (MachineExp.loop add exp 0 (List.replicate N (1 / 2 ^ k))).2) =
      (.ok (), ⟨wrapPhase (MachineExp.loop add exp 0 (List.replicate N (1 / 2 ^ k))).2⟩) := by
    rw [CExp.setPhase, if_neg]
    push Not
    exact ⟨w1, w2⟩
  exact ⟨_, ⟨wrapPhase (MachineExp.loop add exp 0 (List.replicate N (1 / 2 ^ k))).2⟩, by simp only [MachineExp.filter, if_neg hc, hset], g1, g2⟩

/-- C140.  ComplexBandpassFilter in machine arithmetic: the coefficient and the output stay within a multiple of `1 / rate` rounding errors of those of the exact
adaptation to the oscillator's values `x`, however long the signal. -/
theorem C140_bandpass {F : Type*} [Add F] [Sub F] [Mul F] (val : F → ℂ) (conj : F → F) (add : ℝ → ℝ → ℝ) (exp : ℝ → F) (u η M W r : ℝ) (hF : MachineC val conj u η)
    (hu : 0 ≤ u) (hη : 0 ≤ η) (hadd : ∀ a b, |add a b - (a + b)| ≤ u * |a + b|) (hexp : ∀ p, ‖val (exp p) - phasor p‖ ≤ 1 / 5) (hr0 : 0 < r) (hr1 : r ≤ 1)
    (hur : 500 * u ≤ r) (f : MachineBandpass F) (hrate : val f.rate = r) (hfr : |f.frequency| ≤ 1) (hph : |f.osc.phase| ≤ 1) (d : List F) (hne : d ≠ [])
    (hd : ∀ v ∈ d, ‖val v‖ ≤ M) (hW0 : ‖val f.b‖ ≤ W) (hW : 6 * M + 236 * η / r ≤ W) :
    ∃ out f' x osc', MachineBandpass.filter add exp conj f d = (.ok out, f') ∧ MachineExp.filter add exp f.osc (List.replicate d.length f.frequency) = (.ok x, osc') ∧
      out.length = d.length ∧ ‖val f'.b‖ ≤ W ∧ ∀ n < d.length, ∃ t z, out[n]? = some t ∧
        (Bandpass.loop r (val f.b) ((x.map val).zip (d.map val))).1[n]? = some z ∧
        ‖val t.2.2 - z.2.2‖ ≤ (250 * u * (W + M) + 118 * η) / r ∧ ‖val t.1 - z.1‖ ≤ 2 * ((250 * u * (W + M) + 118 * η) / r) + 2 * u * W + η := by
  obtain ⟨x, osc', k1, k2, k3, k4, -⟩ := C140_exponential add exp u hu hadd f.osc hph (List.replicate d.length f.frequency) (by simpa using hne)
    (by intro v hv; rw [List.eq_of_mem_replicate hv]; exact hfr)
  rw [List.length_replicate] at k2 k3
  set l := x.zip d with hl
  have hll : l.length = d.length := by simp [hl, k2]
  obtain ⟨B, b0, b1, b2, b3⟩ := machineBandpass_loop conj f.rate l f.b
  obtain ⟨C, c0, c1, c2, c3⟩ := machineBandpass_loop (starRingEnd ℂ) (r : ℂ) ((x.map val).zip (d.map val)) (val f.b)
  have hmap : (x.map val).zip (d.map val) = l.map (Prod.map val val) := by rw [hl, List.zip_map]
  have hM : 0 ≤ M := by
    obtain ⟨v, hv⟩ := List.exists_mem_of_ne_nil d hne
    exact (norm_nonneg _).trans (hd v hv)
  let X : ℕ → F := fun n => (l[n]?.getD (f.b, f.b)).1
  let D : ℕ → F := fun n => (l[n]?.getD (f.b, f.b)).2
  have hXl : ∀ n (h : n < l.length), X n = l[n].1 ∧ D n = l[n].2 := by
    intro n h
    simp only [X, D, List.getElem?_eq_getElem h, Option.getD_some, and_self]
  have hx1 : ∀ n (h : n < l.length), 4 / 5 ≤ ‖val (X n)‖ ∧ ‖val (X n)‖ ≤ 6 / 5 := by
    intro n h
    obtain ⟨p, hp, -⟩ := k3 n (by omega)
    have : X n = exp p := by
      rw [(hXl n h).1]
      simp only [hl, List.getElem_zip]
      rw [List.getElem?_eq_getElem (by omega)] at hp
      exact Option.some.inj hp
    rw [this]
    have h1 := hexp p
    have h2 := norm_le_norm_add_norm_sub' (val (exp p)) (phasor p)
    have h3 := norm_le_norm_add_norm_sub' (phasor p) (val (exp p))
    rw [phasor_norm] at h2 h3
    rw [norm_sub_rev] at h3
    constructor <;> linarith
  have hdn : ∀ n (h : n < l.length), ‖val (D n)‖ ≤ M := by
    intro n h
    rw [(hXl n h).2]
    simp only [hl, List.getElem_zip]
    exact hd _ (List.getElem_mem _)
  have hmul : ∀ n (h : n < l.length), ‖val (X n * B n) - val (X n) * val (B n)‖ ≤ u * (‖val (X n)‖ * ‖val (B n)‖) + η := fun n h => hF.mul _ _
  have main := adapt_rounding val conj u η M W r hF hu hη hr0 hr1 hur f.rate hrate X D (fun n => X n * B n) B C l.length
    (fun n h => by obtain ⟨h1, h2⟩ := hx1 n h; constructor <;> nlinarith) hdn hM hmul
    (fun n h => by rw [(b1 n h).1, (hXl n h).1, (hXl n h).2]) (by rw [c0, b0])
    (fun n h => by
      have := (c1 n (by simpa [hmap] using h)).1
      rw [this, (hXl n h).1, (hXl n h).2]
      simp [hmap]) (by rw [b0]; exact hW0) hW
  have hdl : ¬ d.length = 0 := by simpa using hne
  refine ⟨(MachineBandpass.loop conj f.rate f.b l).1, { f with osc := osc', b := (MachineBandpass.loop conj f.rate f.b l).2 }, x, osc',
    by simp only [MachineBandpass.filter, if_neg hdl, k1, hl], k1, by rw [b2, hll], ?_, fun n hn => ?_⟩
  · show ‖val (MachineBandpass.loop conj f.rate f.b l).2‖ ≤ W
    rw [b3]
    exact (main _ le_rfl).1
  · have hn' : n < l.length := by omega
    obtain ⟨m1, m2⟩ := main n hn'.le
    refine ⟨_, _, (b1 n hn').2, by rw [exact_bandpass_loop]; exact (c1 n (by simpa [hmap] using hn')).2, m2, ?_⟩
    simp only [hmap, List.getElem_map, Prod.map_fst]
    rw [← (hXl n hn').1]
    have h1 := hmul n hn'
    obtain ⟨-, h2⟩ := hx1 n hn'
    have e : val (X n * B n) - val (X n) * C n = (val (X n * B n) - val (X n) * val (B n)) + val (X n) * (val (B n) - C n) := by ring
    rw [e]
    refine (norm_add_le _ _).trans ?_
    rw [norm_mul]
    have h3 : ‖val (X n)‖ * ‖val (B n) - C n‖ ≤ 2 * ((250 * u * (W + M) + 118 * η) / r) := mul_le_mul (by linarith) m2 (norm_nonneg _) (by norm_num)
    have h4 : u * (‖val (X n)‖ * ‖val (B n)‖) ≤ u * (2 * W) := mul_le_mul_of_nonneg_left (mul_le_mul (by linarith) m1 (norm_nonneg _) (by norm_num)) hu
    linarith

/-- The loop of ComplexFrequencyFilter, sample by sample. -/
theorem machineFreq_loop {F : Type*} [Add F] [Sub F] [Mul F] (conj : F → F) (rate : F) (xs : List F) : ∀ b s : F, ∃ B : ℕ → F, B 0 = b ∧
    (∀ n (h : n < xs.length), B (n + 1) = B n + rate * (xs[n] - B n * (s :: xs)[n]'(by simp; omega)) * conj ((s :: xs)[n]'(by simp; omega)) ∧
      (MachineFreq.loop conj rate b s xs).1[n]? = some (xs[n] - B n * (s :: xs)[n]'(by simp; omega), B n)) ∧
    (MachineFreq.loop conj rate b s xs).1.length = xs.length ∧ (MachineFreq.loop conj rate b s xs).2.1 = B xs.length := by
  induction xs with
  | nil => intro b s; exact ⟨fun _ => b, rfl, by simp, rfl, rfl⟩
  | cons x t ih =>
    intro b s
    obtain ⟨B, h0, h1, h2, h3⟩ := ih (b + rate * (x - b * s) * conj s) x
    refine ⟨fun n => if n = 0 then b else B (n - 1), rfl, ?_, ?_, ?_⟩
    · intro n hn
      rcases n with _ | n
      · simp [MachineFreq.loop, h0]
      · have := h1 n (by simpa using hn)
        simpa [MachineFreq.loop] using this
    · simp [MachineFreq.loop, h2]
    · simp [MachineFreq.loop, h3]

/-- C140.  ComplexFrequencyFilter in machine arithmetic, on normalised samples: the coefficient stays within a multiple of `1 / rate` rounding errors of the exact one,
however long the signal. -/
theorem C140_frequency {F : Type*} [Add F] [Sub F] [Mul F] (val : F → ℂ) (conj : F → F) (u η W r : ℝ) (hF : MachineC val conj u η)
    (hu : 0 ≤ u) (hη : 0 ≤ η) (hr0 : 0 < r) (hr1 : r ≤ 1) (hur : 500 * u ≤ r) (rate b s : F) (v : ℝ) (hrate : val rate = r) (xs : List F)
    (hx : ∀ t ∈ s :: xs, 1 / 2 ≤ ‖val t‖ ^ 2 ∧ ‖val t‖ ^ 2 ≤ 3 / 2) (hW0 : ‖val b‖ ≤ W) (hW : 12 + 236 * η / r ≤ W) :
    ∃ out f', runLoop FreqF.step ⟨val b, val s, v, r⟩ (xs.map val) = (.ok out, f') ∧ (MachineFreq.loop conj rate b s xs).1.length = xs.length ∧
      ∀ n < xs.length, ∃ t z, (MachineFreq.loop conj rate b s xs).1[n]? = some t ∧ out[n]? = some z ∧ ‖val t.2‖ ≤ W ∧
        ‖val t.2 - z.2.2‖ ≤ (250 * u * (W + 2) + 118 * η) / r := by
  obtain ⟨B, b0, b1, b2, b3⟩ := machineFreq_loop conj rate xs b s
  obtain ⟨out, q1, q2, q3⟩ := FreqF.run (xs.map val) ⟨val b, val s, v, r⟩
  set f0 : FreqF := ⟨val b, val s, v, r⟩ with hf0
  let S : ℕ → F := fun n => (s :: xs).getD n s
  let D : ℕ → F := fun n => xs.getD n s
  have hS : ∀ n (h : n < xs.length), (s :: xs)[n]'(by simp; omega) = S n := by
    intro n h
    simp only [S]
    rw [List.getD_eq_getElem?_getD, List.getElem?_eq_getElem (by simp; omega)]
    rfl
  have hD : ∀ n (h : n < xs.length), xs[n] = D n := by
    intro n h
    simp only [D]
    rw [List.getD_eq_getElem?_getD, List.getElem?_eq_getElem h]
    rfl
  have hstate : ∀ n ≤ xs.length, (FreqF.afterN f0 (xs.map val) n).s = val (S n) := by
    intro n
    induction n with
    | zero => intro _; rfl
    | succ n ih =>
      intro hn
      rw [FreqF.afterN_succ _ _ _ (by simpa using hn)]
      show (xs.map val)[n]'(by simpa using hn) = _
      rw [List.getElem_map, hD n (by omega)]
      rfl
  have hnorm : ∀ n < xs.length, 1 / 2 ≤ ‖val (S n)‖ ^ 2 ∧ ‖val (S n)‖ ^ 2 ≤ 3 / 2 := by
    intro n h
    rw [← hS n h]
    exact hx _ (List.getElem_mem _)
  have hdn : ∀ n < xs.length, ‖val (D n)‖ ≤ 2 := by
    intro n h
    rw [← hD n h]
    have := (hx xs[n] (List.mem_cons_of_mem _ (List.getElem_mem h))).2
    exact le_of_sq_le_sq (this.trans (by norm_num)) (by norm_num)
  have main := adapt_rounding val conj u η 2 W r hF hu hη hr0 hr1 hur rate hrate S D (fun n => B n * S n) B (fun n => (FreqF.afterN f0 (xs.map val) n).b) xs.length
    hnorm hdn (by norm_num) (fun n h => by
      have := hF.mul (B n) (S n)
      rw [mul_comm (val (S n)), mul_comm ‖val (S n)‖]
      exact this)
    (fun n h => by rw [(b1 n h).1, hS n h, hD n h]) (by rw [b0]; rfl)
    (fun n h => by
      show (FreqF.afterN f0 (xs.map val) (n + 1)).b = _
      rw [FreqF.afterN_succ _ _ _ (by simpa using h)]
      show (FreqF.afterN f0 (xs.map val) n).b + (FreqF.afterN f0 (xs.map val) n).rate * ((xs.map val)[n]'(by simpa using h) - (FreqF.afterN f0 (xs.map val) n).b *
        (FreqF.afterN f0 (xs.map val) n).s) * (starRingEnd ℂ) (FreqF.afterN f0 (xs.map val) n).s = _
      rw [FreqF.afterN_rate, hstate n h.le, List.getElem_map, hD n h, mul_comm (val (S n)) _]) (by rw [b0]; exact hW0) (by linarith)
  refine ⟨out, _, q1, b2, fun n hn => ⟨_, _, (b1 n hn).2, q3 n (by simpa using hn), (main n hn.le).1, ?_⟩⟩
  exact (main n hn.le).2

instance : Sub FixedC := ⟨fun x y => ⟨x.re - y.re, x.im - y.im⟩⟩

/-- The conjugate of a complex fixed point number. -/
def FixedC.conj (x : FixedC) : FixedC := ⟨x.re, -x.im⟩

/-- Complex fixed point arithmetic satisfies the hypotheses with `u = 0` and `η = 1/128`. -/
theorem fixedC_machine : MachineC FixedC.val FixedC.conj 0 (1 / 128) := by
  have h := fixedC_rounded 0
  refine ⟨h.add, ?_, ?_, ?_⟩
  · intro x y
    have : FixedC.val (x - y) - (FixedC.val x - FixedC.val y) = 0 := by
      show FixedC.val ⟨x.re - y.re, x.im - y.im⟩ - _ = 0
      simp only [FixedC.val]
      push_cast; ring
    rw [this]; norm_num
  · intro x y
    have := h.mul x y
    rwa [norm_mul] at this
  · intro x
    simp only [FixedC.val, FixedC.conj, map_add, map_mul, Complex.conj_ofReal, Complex.conj_I]
    push_cast; ring

/-- The exponential, both parts rounded down. -/
noncomputable def FixedC.exp (p : ℝ) : FixedC := ⟨⌊256 * (phasor p).re⌋, ⌊256 * (phasor p).im⌋⟩

theorem fixedC_exp (p : ℝ) : ‖FixedC.val (FixedC.exp p) - phasor p‖ ≤ 1 / 5 := by
  have h : ∀ v : ℝ, |(⌊256 * v⌋ : ℝ) / 256 - v| ≤ 1 / 256 := by
    intro v
    have h1 := Int.floor_le (256 * v)
    have h2 := Int.lt_floor_add_one (256 * v)
    rw [abs_le]
    constructor <;> linarith
  have e : FixedC.val (FixedC.exp p) - phasor p = (((⌊256 * (phasor p).re⌋ : ℝ) / 256 - (phasor p).re : ℝ) : ℂ) + (((⌊256 * (phasor p).im⌋ : ℝ) / 256 - (phasor p).im : ℝ) : ℂ) * I := by
    have h1 := Complex.re_add_im (phasor p)
    simp only [FixedC.val, FixedC.exp]
    push_cast
    linear_combination h1
  rw [e]
  refine (norm_add_le _ _).trans ?_
  rw [norm_mul, norm_I, mul_one, Complex.norm_real, Complex.norm_real, Real.norm_eq_abs, Real.norm_eq_abs]
  linarith [h (phasor p).re, h (phasor p).im]

/-- C140 for complex fixed point: the rate 1/2 and the frequency 1/10, on any signal of samples of magnitude at most one. -/
example (d : List FixedC) (hne : d ≠ []) (hd : ∀ v ∈ d, ‖v.val‖ ≤ 1) :
    ∃ out f', MachineBandpass.filter (· + ·) FixedC.exp FixedC.conj ⟨⟨0, 0⟩, ⟨0⟩, 1 / 10, ⟨128, 0⟩⟩ d = (.ok out, f') ∧ out.length = d.length ∧ ‖f'.b.val‖ ≤ 10 := by
  obtain ⟨out, f', x, o, h1, h2, h3, h4, -⟩ := C140_bandpass FixedC.val FixedC.conj (· + ·) FixedC.exp 0 (1 / 128) 1 10 (1 / 2) fixedC_machine le_rfl (by norm_num)
    (by simp) fixedC_exp (by norm_num) (by norm_num) (by norm_num) ⟨⟨0, 0⟩, ⟨0⟩, 1 / 10, ⟨128, 0⟩⟩ (by simp [FixedC.val]; norm_num) (by rw [abs_of_pos] <;> norm_num) (by simp) d hne hd
    (by simp [FixedC.val]) (by norm_num)
  exact ⟨out, f', h1, h3, h4⟩

/-- The hypotheses of `C140_frequency` for complex fixed point: samples `1`, `j`, `-1` from the state `1`. -/
example : ∀ t ∈ (⟨256, 0⟩ : FixedC) :: [⟨256, 0⟩, ⟨0, 256⟩, ⟨-256, 0⟩], 1 / 2 ≤ ‖t.val‖ ^ 2 ∧ ‖t.val‖ ^ 2 ≤ 3 / 2 := by
  intro t ht
  simp only [List.mem_cons, List.not_mem_nil, or_false] at ht
  rcases ht with rfl | rfl | rfl | rfl <;> simp [FixedC.val] <;> norm_num

/-- Single precision at the frequency 1/2: a call of more samples than `2^24 + m` returns the sample 1 ever after the first `2^24`, where the tone has the period 4. -/
example (N m : ℕ) (hN : 2 ^ 24 + m < N) : ∃ y f', MachineExp.filter (fun a b => (nearest 24 ⌊(a + b) * 2⌋₊ : ℝ) / 2) phasor ⟨0⟩ (List.replicate N (1 / 2 ^ 1)) = (.ok y, f') ∧
    y[2 ^ 24 + m]? = some 1 := by
  obtain ⟨y, f', h1, -, h3⟩ := C140_stall (fun a b => (nearest 24 ⌊(a + b) * 2⌋₊ : ℝ) / 2) phasor 24 1 (by norm_num) (by
    intro n
    have : ((n : ℝ) / 2 ^ 1 + 1 / 2 ^ 1) * 2 = ((n + 1 : ℕ) : ℝ) := by push_cast; ring
    beta_reduce
    rw [this, Nat.floor_natCast, pow_one]) N (by omega)
  have e : phasor (((2 ^ 24 : ℕ) : ℝ) / 2 ^ 1) = 1 := by
    have := phasor_periodic 0 (2 ^ 22)
    rw [zero_add] at this
    rw [show (((2 ^ 24 : ℕ) : ℝ) / 2 ^ 1) = 2 * ((2 ^ 22 : ℤ) : ℝ) by norm_num, this]
    simp [phasor]
  exact ⟨y, f', h1, by rw [h3 _ hN, min_eq_right (Nat.le_add_right _ _), e]⟩

end Verif.Props
