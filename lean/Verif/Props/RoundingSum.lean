import Verif.Props.Rounding
import Verif.Props.PidLaw
import Mathlib.Data.Nat.Size

/-
Property C111: rounding errors of filters which accumulate, and how fast they grow: IirFilter (diamondback/filters/iir_filter.py) without any hypothesis of
stability, IntegralFilter (diamondback/filters/integral_filter.py) and PidFilter (diamondback/filters/pid_filter.py).
-/

namespace Verif.Props

open Finset Spec

/-- The reciprocal of `1 - a` is determined by its recursion. -/
theorem recip_coeff (a : List ℝ) (h0 : at0 a 0 = 0) (h : ℕ → ℝ) (hh : ∀ n, h n = (if n = 0 then 1 else 0) + ∑ i ∈ range (n + 1), at0 a i * h (n - i)) (n : ℕ) :
    PowerSeries.coeff n (recip a) = h n := by
  have e : (1 - ser a) * PowerSeries.mk h = 1 := by
    ext m
    rw [sub_mul, one_mul, map_sub, PowerSeries.coeff_mk, PowerSeries.coeff_mul, Finset.Nat.sum_antidiagonal_eq_sum_range_succ_mk, hh m, PowerSeries.coeff_one]
    simp only [coeff_ser, PowerSeries.coeff_mk]
    ring
  have e2 : recip a = PowerSeries.mk h := by
    have h1 := mul_recip a h0
    calc recip a = recip a * ((1 - ser a) * PowerSeries.mk h) := by rw [e, mul_one]
      _ = ((1 - ser a) * recip a) * PowerSeries.mk h := by ring
      _ = PowerSeries.mk h := by rw [h1, one_mul]
  rw [e2, PowerSeries.coeff_mk]

/-- C111.  Rounding in any IirFilter, stable or not.  Let `h` be the response of the recursion `h_n = δ_n + Σ a_i h_{n-i}` to one unit error, and let
`G ≥ 1` bound the sum of `|h_k|` over the length of the signal.  Then every output sample differs from the exact one by at most `K G² (u M + η (1 + M))` as
long as `u G ≤ c`, where `K` and `c` depend on the coefficients alone. -/
theorem C111_iir_rounding_growth (a b : List ℝ) (hab : a.length = b.length) (ha : a ≠ []) (h0 : at0 a 0 = 0) (h : ℕ → ℝ)
    (hh : ∀ n, h n = (if n = 0 then 1 else 0) + ∑ i ∈ range (n + 1), at0 a i * h (n - i)) :
    ∃ K c : ℝ, 0 ≤ K ∧ 0 < c ∧ ∀ (F : Type) [Add F] [Mul F] [Dot F] [Zero F] (val : F → ℝ) (u η G M : ℝ), Rounded val a.length u η → 0 ≤ u → 0 ≤ η → η ≤ 1 →
      1 ≤ G → u * G ≤ c → ∀ f : Iir F, f.cast = id → f.a.map val = a → f.b.map val = b → f.s.length = a.length → (∀ v ∈ f.s, |val v| ≤ M) →
      ∀ x : List F, x ≠ [] → (∀ v ∈ x, |val v| ≤ M) → ∑ k ∈ range x.length, |h k| ≤ G →
        ∃ y f' z g', f.filter x = (.ok y, f') ∧ (Iir.mk id a b (f.s.map val)).filter (x.map val) = (.ok z, g') ∧
          y.length = x.length ∧ z.length = x.length ∧ ∀ n < x.length, |val (at0 y n) - at0 z n| ≤ K * G ^ 2 * (u * M + η * (1 + M)) := by
  obtain ⟨K, c, hK, hc, hr⟩ := iir_rounding a b hab ha h0
  refine ⟨K, c, hK, hc, ?_⟩
  intro F _ _ _ _ val u η G M hF hu hη hη1 hG1 huG f hfc hfa hfb hfs hsM x hx hxM hG
  refine hr G hG1 F val u η hF hu huG hη hη1 f hfc hfa hfb hfs x M hx ?_ hxM hsM
  intro n hn
  simp only [recip_coeff a h0 h hh]
  exact (sum_le_sum_of_subset_of_nonneg (range_mono hn) fun _ _ _ => abs_nonneg _).trans hG

/-- C111.  IntegralFilter: `a = (0, 1, 0, ...)` with any coefficients `b` (the quadrature weights as the machine holds them).  Over `N` samples the error is at
most `K N² (u M + η (1 + M))`. -/
theorem C111_integral_rounding (m : ℕ) (b : List ℝ) (hb : b.length = m + 2) :
    ∃ K c : ℝ, 0 ≤ K ∧ 0 < c ∧ ∀ (F : Type) [Add F] [Mul F] [Dot F] [Zero F] (val : F → ℝ) (u η M : ℝ), Rounded val (m + 2) u η → 0 ≤ u → 0 ≤ η → η ≤ 1 →
      ∀ f : Iir F, f.cast = id → f.a.map val = 0 :: 1 :: List.replicate m 0 → f.b.map val = b → f.s.length = m + 2 → (∀ v ∈ f.s, |val v| ≤ M) →
      ∀ x : List F, x ≠ [] → u * x.length ≤ c → (∀ v ∈ x, |val v| ≤ M) →
        ∃ y f' z g', f.filter x = (.ok y, f') ∧ (Iir.mk id (0 :: 1 :: List.replicate m 0) b (f.s.map val)).filter (x.map val) = (.ok z, g') ∧
          y.length = x.length ∧ z.length = x.length ∧ ∀ n < x.length, |val (at0 y n) - at0 z n| ≤ K * (x.length : ℝ) ^ 2 * (u * M + η * (1 + M)) := by
  have hlen : ((0 : ℝ) :: 1 :: List.replicate m 0).length = m + 2 := by simp
  have hat : ∀ i, at0 ((0 : ℝ) :: 1 :: List.replicate m 0) i = if i = 1 then 1 else 0 := by
    intro i
    rcases i with _ | _ | i
    · rfl
    · rfl
    · rw [at0_cons_succ, at0_cons_succ, if_neg (by omega)]
      simp only [at0, List.getD_eq_getElem?_getD, List.getElem?_replicate]
      split_ifs <;> rfl
  obtain ⟨K, c, hK, hc, hr⟩ := C111_iir_rounding_growth (0 :: 1 :: List.replicate m 0) b (by rw [hlen, hb]) (by simp) rfl (fun _ => 1) (by
    intro n
    simp only [hat]
    rcases n with _ | n
    · simp
    · simp)
  rw [hlen] at hr
  refine ⟨K, c, hK, hc, ?_⟩
  intro F _ _ _ _ val u η M hF hu hη hη1 f hfc hfa hfb hfs hsM x hx huN hxM
  have h1 : (1 : ℝ) ≤ x.length := by
    have := List.length_pos_of_ne_nil hx
    exact_mod_cast this
  exact hr F val u η x.length M hF hu hη hη1 h1 huN f hfc hfa hfb hfs hsM x hx hxM (by simp)

/-- The integral of the samples in the arithmetic of the machine. -/
def machineSum {F : Type*} [Add F] [Zero F] (s : F) (x : List F) : ℕ → F
  | 0 => s
  | n + 1 => machineSum s x n + at0 x n

theorem machineSum_shift {F : Type*} [Add F] [Zero F] (s v : F) (x : List F) (n : ℕ) : machineSum s (v :: x) (n + 1) = machineSum (s + v) x n := by
  induction n with
  | zero => rfl
  | succ n ih => rw [machineSum, ih]; rfl

theorem pid_loop_free {F K : Type*} [Add F] [Sub F] [Dot F] [Zero F] [LT K] [DecidableLT K] (mag : F → K) (xs : List F) : ∀ f : Pid F K, f.cast = id → f.limit = none →
    ∃ ys f', runLoop (Pid.step mag) f xs = (.ok ys, f') ∧ ys.length = xs.length ∧
      ∀ n, n < xs.length → at0 ys n = dot [f.b0, f.b1, f.b2] [at0 xs n, machineSum f.s1 xs (n + 1), at0 xs n - if n = 0 then f.s0 else at0 xs (n - 1)] := by
  induction xs with
  | nil => intro f _ _; exact ⟨[], f, rfl, rfl, by simp⟩
  | cons x xs ih =>
    intro f hc hl
    obtain ⟨ys, f', h1, h2, h3⟩ := ih { f with s0 := x, s1 := f.s1 + x, s2 := x - f.s0 } hc hl
    have hst : Pid.step mag f x = (.ok (dot [f.b0, f.b1, f.b2] [x, f.s1 + x, x - f.s0]), { f with s0 := x, s1 := f.s1 + x, s2 := x - f.s0 }) := by
      simp [Pid.step, hc, hl, belowLimit]
    refine ⟨dot [f.b0, f.b1, f.b2] [x, f.s1 + x, x - f.s0] :: ys, f', ?_, by simp [h2], ?_⟩
    · rw [runLoop_cons_ok _ _ _ _ _ _ hst]; simp [thenRun, h1]
    · intro n hn
      rcases n with _ | n
      · simp [at0_cons_zero, machineSum]
      · rw [at0_cons_succ, at0_cons_succ, h3 n (by simpa using hn), machineSum_shift]
        rcases n with _ | n
        · simp [at0_cons_zero]
        · simp [at0_cons_succ]

/-- The error of a sum formed one term at a time. -/
theorem machineSum_error {F : Type*} [Add F] [Zero F] (val : F → ℝ) (u η : ℝ) (hu : 0 ≤ u) (hη : 0 ≤ η) (hz : val 0 = 0)
    (hadd : ∀ x y, |val (x + y) - (val x + val y)| ≤ u * (|val x| + |val y|) + η) (x : List F) (n : ℕ) :
    |val (machineSum 0 x n) - ∑ k ∈ range n, val (at0 x k)| ≤ ((1 + u) ^ n - 1) * ∑ k ∈ range n, |val (at0 x k)| + n * (1 + u) ^ n * η := by
  induction n with
  | zero => simp [machineSum, hz]
  | succ n ih =>
    have h := hadd (machineSum 0 x n) (at0 x n)
    rw [machineSum, sum_range_succ, sum_range_succ]
    have hS : |∑ k ∈ range n, val (at0 x k)| ≤ ∑ k ∈ range n, |val (at0 x k)| := abs_sum_le_sum_abs _ _
    set v := val (machineSum 0 x n + at0 x n)
    set s := val (machineSum 0 x n)
    set t := val (at0 x n)
    set S := ∑ k ∈ range n, val (at0 x k)
    set T := ∑ k ∈ range n, |val (at0 x k)|
    have h1 : |s| ≤ |s - S| + T := by
      have := abs_add_le (s - S) S
      rw [sub_add_cancel] at this
      linarith
    have h2 := abs_add_le (v - (s + t)) (s - S)
    rw [show v - (s + t) + (s - S) = v - (S + t) by ring] at h2
    have hp : 1 ≤ (1 + u) ^ n := one_le_pow₀ (by linarith)
    have h3 := mul_le_mul_of_nonneg_left h1 hu
    have h4 : (1 + u) * |s - S| ≤ (1 + u) * (((1 + u) ^ n - 1) * T + n * (1 + u) ^ n * η) := mul_le_mul_of_nonneg_left ih (by linarith)
    have h5 : 0 ≤ ((1 + u) ^ (n + 1) - 1 - u) * |t| := by
      apply mul_nonneg _ (abs_nonneg _)
      rw [pow_succ]
      nlinarith
    have h6 : η ≤ (1 + u) ^ (n + 1) * η := le_mul_of_one_le_left hη (one_le_pow₀ (by linarith))
    rw [pow_succ] at h5 h6 ⊢
    push_cast
    nlinarith

/-- The error of a product with a rounded factor, within a rounded dot product. -/
theorem weighted_error (b s S T e u g : ℝ) (hS : |S| ≤ T) (hs : |s - S| ≤ e) (hu : 0 ≤ u) (he : (1 + u) * e ≤ g) :
    u * |b * s| + |b * s - b * S| ≤ |b| * (u * T + g) := by
  rw [← mul_sub, abs_mul, abs_mul]
  have h1 : |s| ≤ e + T := by
    have := abs_add_le (s - S) S
    rw [sub_add_cancel] at this
    linarith
  have h2 : u * |s| + |s - S| ≤ u * T + g := by
    have := mul_le_mul_of_nonneg_left h1 hu
    nlinarith
  have := mul_le_mul_of_nonneg_left h2 (abs_nonneg b)
  linarith

/-- C111.  PidFilter without a limit: the error of the `n`-th output sample of a new instance is bounded by the absolute integral of the samples so far, with a
factor `(1 + u)^(n + 2) - 1` (which is about `(n + 2) u`). -/
theorem C111_pid_rounding {F K : Type*} [Add F] [Sub F] [Mul F] [Dot F] [Zero F] [LT K] [DecidableLT K] (mag : F → K) (val : F → ℝ) (u η : ℝ) (hu : 0 ≤ u)
    (hη : 0 ≤ η) (hF : Rounded val 3 u η) (hsub : ∀ x y, |val (x - y) - (val x - val y)| ≤ u * (|val x| + |val y|) + η) (b0 b1 b2 : F) (x : List F) (hx : x ≠ []) :
    ∃ f y f', Pid.new id [b0, b1, b2] = .ok f ∧ f.filter mag x = (.ok y, f') ∧ y.length = x.length ∧ ∀ n < x.length,
      |val (at0 y n) - (val b0 * val (at0 x n) + val b1 * ∑ k ∈ range (n + 1), val (at0 x k) + val b2 * (val (at0 x n) - if n = 0 then 0 else val (at0 x (n - 1))))| ≤
        ((1 + u) ^ (n + 2) - 1) * (|val b0| * |val (at0 x n)| + |val b1| * ∑ k ∈ range (n + 1), |val (at0 x k)| +
          |val b2| * (|val (at0 x n)| + if n = 0 then 0 else |val (at0 x (n - 1))|)) + η * (1 + (1 + u) ^ (n + 2) * ((n + 1) * |val b1| + |val b2|)) := by
  have hxl : x.length ≠ 0 := by simpa using hx
  obtain ⟨y, f', h1, h2, h3⟩ := pid_loop_free mag x (Pid.mk id b0 b1 b2 0 0 0 none) rfl rfl
  refine ⟨_, y, f', rfl, by simpa [Pid.filter, hxl] using h1, h2, fun n hn => ?_⟩
  rw [h3 n hn]
  have hd := hF.dot [b0, b1, b2] [at0 x n, machineSum 0 x (n + 1), at0 x n - if n = 0 then 0 else at0 x (n - 1)] rfl rfl
  simp only [sum_range_succ, sum_range_zero, zero_add, at0_cons_zero, at0_cons_succ] at hd
  have hz := hF.zero
  have hI := machineSum_error val u η hu hη hz hF.add x (n + 1)
  have hp : (if n = 0 then 0 else val (at0 x (n - 1))) = val (if n = 0 then 0 else at0 x (n - 1)) := by split <;> simp [hz]
  have hp' : (if n = 0 then 0 else |val (at0 x (n - 1))|) = |val (if n = 0 then 0 else at0 x (n - 1))| := by split <;> simp [hz]
  rw [hp, hp']
  have hD := hsub (at0 x n) (if n = 0 then 0 else at0 x (n - 1))
  generalize (if n = 0 then 0 else at0 x (n - 1)) = w at *
  have hST : |∑ k ∈ range (n + 1), val (at0 x k)| ≤ ∑ k ∈ range (n + 1), |val (at0 x k)| := abs_sum_le_sum_abs _ _
  generalize ∑ k ∈ range (n + 1), val (at0 x k) = S at *
  generalize ∑ k ∈ range (n + 1), |val (at0 x k)| = T at *
  generalize val (dot [b0, b1, b2] [at0 x n, machineSum 0 x (n + 1), at0 x n - w]) = Y at *
  generalize val (machineSum 0 x (n + 1)) = s at *
  generalize val (at0 x n - w) = d at *
  generalize val (at0 x n) = t at *
  generalize val w = w at *
  generalize val b0 = B0 at *
  generalize val b1 = B1 at *
  generalize val b2 = B2 at *
  have hT0 : 0 ≤ T := (abs_nonneg _).trans hST
  have hP : 1 ≤ (1 + u) ^ n := one_le_pow₀ (by linarith)
  have e1 := weighted_error B1 s S T _ u ((1 + u) * (((1 + u) ^ (n + 1) - 1) * T + (n + 1 : ℕ) * (1 + u) ^ (n + 1) * η)) hST hI hu le_rfl
  have e2 := weighted_error B2 d (t - w) (|t| + |w|) _ u ((1 + u) * (u * (|t| + |w|) + η)) (abs_sub _ _) hD hu le_rfl
  have e0 := weighted_error B0 t t |t| 0 u 0 le_rfl (by simp) hu (by simp)
  have h4 : |Y - (B0 * t + B1 * S + B2 * (t - w))| ≤ |Y - (B0 * t + B1 * s + B2 * d)| + (|B0 * t - B0 * t| + |B1 * s - B1 * S| + |B2 * d - B2 * (t - w)|) := by
    have a1 := abs_add_le (Y - (B0 * t + B1 * s + B2 * d)) ((B0 * t - B0 * t) + (B1 * s - B1 * S) + (B2 * d - B2 * (t - w)))
    have a2 := abs_add_three (B0 * t - B0 * t) (B1 * s - B1 * S) (B2 * d - B2 * (t - w))
    rw [show Y - (B0 * t + B1 * s + B2 * d) + ((B0 * t - B0 * t) + (B1 * s - B1 * S) + (B2 * d - B2 * (t - w))) = Y - (B0 * t + B1 * S + B2 * (t - w)) by ring] at a1
    linarith
  have f0 : |B0| * (u * |t| + 0) ≤ ((1 + u) ^ (n + 2) - 1) * (|B0| * |t|) := by
    have : u ≤ (1 + u) ^ (n + 2) - 1 := by rw [pow_add]; nlinarith
    have := mul_le_mul_of_nonneg_right this (mul_nonneg (abs_nonneg B0) (abs_nonneg t))
    linarith
  have f1 : |B1| * (u * T + (1 + u) * (((1 + u) ^ (n + 1) - 1) * T + (n + 1 : ℕ) * (1 + u) ^ (n + 1) * η)) =
      ((1 + u) ^ (n + 2) - 1) * (|B1| * T) + η * ((1 + u) ^ (n + 2) * ((n + 1) * |B1|)) := by
    push_cast; ring
  have f2 : |B2| * (u * (|t| + |w|) + (1 + u) * (u * (|t| + |w|) + η)) ≤
      ((1 + u) ^ (n + 2) - 1) * (|B2| * (|t| + |w|)) + η * ((1 + u) ^ (n + 2) * |B2|) := by
    have g1 : u + (1 + u) * u ≤ (1 + u) ^ (n + 2) - 1 := by rw [pow_add]; nlinarith
    have g2 : 1 + u ≤ (1 + u) ^ (n + 2) := by rw [pow_add]; nlinarith
    have k1 := mul_le_mul_of_nonneg_right g1 (mul_nonneg (abs_nonneg B2) (add_nonneg (abs_nonneg t) (abs_nonneg w)))
    have k2 := mul_le_mul_of_nonneg_right g2 (mul_nonneg hη (abs_nonneg B2))
    linarith
  rw [f1] at e1
  linarith

/-- Rounding of a natural number to `p` significant bits, to nearest, ties to even. -/
def nearest (p n : ℕ) : ℕ :=
  let k := n.size - p
  let q := n / 2 ^ k
  let r := n % 2 ^ k
  if 2 * r < 2 ^ k ∨ (2 * r = 2 ^ k ∧ q % 2 = 0) then q * 2 ^ k else (q + 1) * 2 ^ k

theorem nearest_error (p n : ℕ) (hp : 0 < p) : |(nearest p n : ℝ) - n| ≤ (1 / 2) ^ p * n := by
  have hn := Nat.div_add_mod n (2 ^ (n.size - p))
  set k := n.size - p with hk
  set q := n / 2 ^ k with hq
  set r := n % 2 ^ k with hr
  have hr1 : r < 2 ^ k := Nat.mod_lt _ (by positivity)
  have hnR : (n : ℝ) = 2 ^ k * q + r := by exact_mod_cast hn.symm
  have hr0 : (0 : ℝ) ≤ r := Nat.cast_nonneg _
  rcases Nat.eq_zero_or_pos k with hk0 | hkp
  · have : nearest p n = n := by
      unfold nearest
      simp only [← hk, hk0]
      simp [Nat.mod_one]
    rw [this]
    simp
  · -- the step is at most `2^{1-p} n`
    have hs : 2 ^ k * 2 ^ p ≤ 2 * n := by
      have h1 : 2 ^ (n.size - 1) ≤ n := by
        rw [← Nat.lt_size]; omega
      calc 2 ^ k * 2 ^ p = 2 * 2 ^ (n.size - 1) := by rw [← pow_add, ← pow_succ']; congr 1; omega
        _ ≤ 2 * n := by omega
    have hsR : (2 : ℝ) ^ k * 2 ^ p ≤ 2 * n := by exact_mod_cast hs
    have hstep : (2 : ℝ) ^ k / 2 ≤ (1 / 2) ^ p * n := by
      rw [one_div, inv_pow, ← div_eq_inv_mul, le_div_iff₀ (by positivity)]
      linarith
    refine le_trans ?_ hstep
    have hr1R : (r : ℝ) < 2 ^ k := by exact_mod_cast hr1
    unfold nearest
    simp only [← hk, ← hq, ← hr]
    split_ifs with h
    · have : 2 * r ≤ 2 ^ k := by rcases h with h | h <;> omega
      have hR : 2 * (r : ℝ) ≤ 2 ^ k := by exact_mod_cast this
      push_cast
      rw [hnR, abs_le]
      constructor <;> linarith
    · have : 2 ^ k ≤ 2 * r := by
        by_contra h'
        exact h (Or.inl (by omega))
      have hR : (2 : ℝ) ^ k ≤ 2 * (r : ℝ) := by exact_mod_cast this
      push_cast
      rw [hnR, abs_le]
      constructor <;> linarith

theorem nearest_small (p n : ℕ) (h : n < 2 ^ p) : nearest p n = n := by
  have : n.size - p = 0 := by
    have := Nat.size_le.mpr h
    omega
  unfold nearest
  simp [this, Nat.mod_one]

theorem size_two_pow_add (p : ℕ) (m : ℕ) (hm : m < 2 ^ p) : (2 ^ p + m).size = p + 1 := by
  apply le_antisymm
  · rw [Nat.size_le, pow_succ]; omega
  · rw [Nat.succ_le_iff, Nat.lt_size]; omega

theorem nearest_pow (p : ℕ) (hp : 2 ≤ p) : nearest p (2 ^ p) = 2 ^ p ∧ nearest p (2 ^ p + 1) = 2 ^ p := by
  obtain ⟨q, rfl⟩ : ∃ q, p = q + 2 := ⟨p - 2, by omega⟩
  have hq : 0 < 2 ^ q := by positivity
  have e : 2 ^ (q + 2) = 4 * 2 ^ q := by rw [pow_add]; ring
  have s0 : (2 ^ (q + 2)).size = q + 2 + 1 := by simpa using size_two_pow_add (q + 2) 0 (by positivity)
  have s1 := size_two_pow_add (q + 2) 1 (by omega)
  rw [e] at s0 s1 ⊢
  constructor
  · unfold nearest
    simp only [s0, show q + 2 + 1 - (q + 2) = 1 by omega]
    split_ifs <;> omega
  · unfold nearest
    simp only [s1, show q + 2 + 1 - (q + 2) = 1 by omega]
    split_ifs <;> omega

/-- Binary floating point with `p` significant bits and no bound on the exponent, restricted to integers: sums, differences, products and dot products are
rounded to nearest, ties to even (`float32` has `p = 24`, `float64` has `p = 53`). -/
structure Binary (p : ℕ) where
  raw : ℤ
  deriving DecidableEq

/-- Rounding of an integer. -/
def Binary.round (p : ℕ) (z : ℤ) : Binary p := ⟨z.sign * nearest p z.natAbs⟩

instance {p : ℕ} : Zero (Binary p) := ⟨⟨0⟩⟩
instance {p : ℕ} : Add (Binary p) := ⟨fun x y => .round p (x.raw + y.raw)⟩
instance {p : ℕ} : Sub (Binary p) := ⟨fun x y => .round p (x.raw - y.raw)⟩
instance {p : ℕ} : Mul (Binary p) := ⟨fun x y => .round p (x.raw * y.raw)⟩
instance {p : ℕ} : Dot (Binary p) := ⟨fun a b => .round p (dot (a.map Binary.raw) (b.map Binary.raw))⟩

/-- The value of a number. -/
def Binary.val {p : ℕ} (x : Binary p) : ℝ := x.raw

theorem Binary.round_error (p : ℕ) (hp : 0 < p) (z : ℤ) : |(Binary.round p z).val - z| ≤ (1 / 2) ^ p * |(z : ℝ)| := by
  have h := nearest_error p z.natAbs hp
  have hz : (z : ℝ) = (z.sign : ℝ) * (z.natAbs : ℝ) := by
    have := congrArg (Int.cast (R := ℝ)) (Int.sign_mul_natAbs z)
    rw [Int.cast_mul, Int.cast_natCast] at this
    exact this.symm
  have ha : |(z : ℝ)| = (z.natAbs : ℝ) := by
    rw [← Int.cast_abs, Int.abs_eq_natAbs]; simp
  have hs : |(z.sign : ℝ)| ≤ 1 := by
    rcases Int.sign_trichotomy z with h | h | h <;> rw [h] <;> simp
  rw [ha]
  calc |(Binary.round p z).val - z| = |(z.sign : ℝ)| * |(nearest p z.natAbs : ℝ) - z.natAbs| := by
        rw [← abs_mul, mul_sub, ← hz]
        simp [Binary.val, Binary.round]
    _ ≤ 1 * |(nearest p z.natAbs : ℝ) - z.natAbs| := mul_le_mul_of_nonneg_right hs (abs_nonneg _)
    _ ≤ _ := by rw [one_mul]; exact h

/-- Binary floating point satisfies the hypotheses with `u = 2^-p` and `η = 0`. -/
theorem binary_rounded (p : ℕ) (hp : 0 < p) (n : ℕ) : Rounded (Binary.val (p := p)) n ((1 / 2) ^ p) 0 ∧
    ∀ x y : Binary p, |(x - y).val - (x.val - y.val)| ≤ (1 / 2) ^ p * (|x.val| + |y.val|) + 0 := by
  have hp0 : (0 : ℝ) ≤ (1 / 2) ^ p := by positivity
  refine ⟨⟨?_, ?_, ?_, ?_⟩, ?_⟩
  · show ((0 : ℤ) : ℝ) = 0
    simp
  · intro x y
    have h := Binary.round_error p hp (x.raw + y.raw)
    push_cast at h
    have := mul_le_mul_of_nonneg_left (abs_add_le x.val y.val) hp0
    rw [add_zero]
    exact h.trans this
  · intro x y
    have h := Binary.round_error p hp (x.raw * y.raw)
    push_cast at h
    rw [add_zero]
    exact h
  · intro a b ha hb
    have h := Binary.round_error p hp (dot (a.map Binary.raw) (b.map Binary.raw))
    have hr : ∀ (l : List (Binary p)) (i : ℕ), ((at0 (l.map Binary.raw) i : ℤ) : ℝ) = (at0 l i).val := by
      intro l i
      by_cases hi : i < l.length
      · rw [at0_of_lt _ _ hi, at0_of_lt _ _ (by simpa using hi)]; simp [Binary.val]
      · rw [at0_of_le _ _ (by simpa using hi), at0_of_le _ _ (by simpa using hi)]
        rfl
    have e : ((dot (a.map Binary.raw) (b.map Binary.raw) : ℤ) : ℝ) = ∑ i ∈ range n, (at0 a i).val * (at0 b i).val := by
      rw [dot_eq_sum, List.length_map, ha]
      push_cast
      apply sum_congr rfl
      intro i _
      rw [hr, hr]
    rw [e] at h
    rw [add_zero]
    exact h.trans (mul_le_mul_of_nonneg_left (abs_sum_le_sum_abs _ _) hp0)
  · intro x y
    have h := Binary.round_error p hp (x.raw - y.raw)
    push_cast at h
    have := mul_le_mul_of_nonneg_left (abs_sub x.val y.val) hp0
    rw [add_zero]
    exact h.trans this

theorem Binary.round_le (p : ℕ) (hp : 2 ≤ p) (n : ℕ) (hn : n ≤ 2 ^ p) : Binary.round p n = ⟨n⟩ := by
  have h : nearest p n = n := by
    rcases hn.lt_or_eq with h | h
    · exact nearest_small p n h
    · rw [h]; exact (nearest_pow p hp).1
  have h2 := Int.sign_mul_natAbs (n : ℤ)
  simp only [Binary.round, Int.natAbs_natCast, h] at h2 ⊢
  rw [h2]

theorem Binary.round_next (p : ℕ) (hp : 2 ≤ p) (n : ℕ) (hn : n ≤ 2 ^ p) : Binary.round p (n + 1 : ℕ) = ⟨(min (n + 1) (2 ^ p) : ℕ)⟩ := by
  rcases hn.lt_or_eq with h | h
  · rw [min_eq_left (by omega), Binary.round_le p hp _ (by omega)]
  · rw [min_eq_right (by omega), h]
    simp only [Binary.round, Int.natAbs_natCast, (nearest_pow p hp).2]
    rw [Int.sign_eq_one_of_pos (by positivity), one_mul]

/-- C111.  The error of an integral in binary floating point is not bounded: on a constant signal of ones the integral of PidFilter stops at `2^p`
(`16777216` for `float32`), although the integral of the signal goes on. -/
theorem C111_pid_stalls (p : ℕ) (hp : 2 ≤ p) (mag : Binary p → ℝ) (N : ℕ) (hN : 0 < N) :
    ∃ f y f', Pid.new (K := ℝ) id [(⟨0⟩ : Binary p), ⟨1⟩, ⟨0⟩] = .ok f ∧ f.filter mag (List.replicate N ⟨1⟩) = (.ok y, f') ∧ y.length = N ∧
      ∀ n < N, (at0 y n).val = min (n + 1) (2 ^ p) := by
  obtain ⟨y, f', h1, h2, h3⟩ := pid_loop_free mag (List.replicate N (⟨1⟩ : Binary p)) (Pid.mk id ⟨0⟩ ⟨1⟩ ⟨0⟩ 0 0 0 none) rfl rfl
  refine ⟨_, y, f', rfl, by simpa [Pid.filter, Nat.pos_iff_ne_zero.mp hN] using h1, by simpa using h2, fun n hn => ?_⟩
  have hone : ∀ k < N, at0 (List.replicate N (⟨1⟩ : Binary p)) k = ⟨1⟩ := by
    intro k hk
    rw [at0_of_lt _ _ (by simpa using hk)]; simp
  have hsum : ∀ k ≤ N, machineSum 0 (List.replicate N (⟨1⟩ : Binary p)) k = ⟨(min k (2 ^ p) : ℕ)⟩ := by
    intro k
    induction k with
    | zero => intro _; simp [machineSum]; rfl
    | succ k ih =>
      intro hk
      rw [machineSum, ih (by omega), hone k (by omega)]
      show Binary.round p (((min k (2 ^ p) : ℕ) : ℤ) + 1) = _
      have := Binary.round_next p hp (min k (2 ^ p)) (min_le_right _ _)
      rw [Nat.cast_add_one] at this
      rw [this]
      congr 2
      omega
  rw [h3 n (by simpa using hn), hsum (n + 1) (by omega), hone n hn]
  generalize ((⟨1⟩ : Binary p) - if n = 0 then (Pid.mk id ⟨0⟩ ⟨1⟩ ⟨0⟩ 0 0 0 none : Pid (Binary p) ℝ).s0 else at0 (List.replicate N ⟨1⟩) (n - 1)) = d
  have hr := Binary.round_le p hp (min (n + 1) (2 ^ p)) (min_le_right _ _)
  have hdot : dot [(⟨0⟩ : Binary p), ⟨1⟩, ⟨0⟩] [⟨1⟩, ⟨(min (n + 1) (2 ^ p) : ℕ)⟩, d] = ⟨(min (n + 1) (2 ^ p) : ℕ)⟩ := by
    refine Eq.trans ?_ hr
    show Binary.round p (dot [0, 1, 0] [1, ((min (n + 1) (2 ^ p) : ℕ) : ℤ), d.raw]) = _
    congr 1
    simp [dot_def]
  show (dot [(⟨0⟩ : Binary p), ⟨1⟩, ⟨0⟩] [⟨1⟩, ⟨(min (n + 1) (2 ^ p) : ℕ)⟩, d]).val = _
  rw [hdot]
  simp [Binary.val]

/-- C111 for `float32` and PidFilter: 1000 samples, integral term only. -/
example (x : List (Binary 24)) (hx : x.length = 1000) : ∃ f y f', Pid.new (K := ℝ) id [(⟨0⟩ : Binary 24), ⟨1⟩, ⟨0⟩] = .ok f ∧
    f.filter Binary.val x = (.ok y, f') ∧ ∀ n < 1000, |(at0 y n).val - ∑ k ∈ range (n + 1), (at0 x k).val| ≤
      ((1 + (1 / 2) ^ 24) ^ (n + 2) - 1) * ∑ k ∈ range (n + 1), |(at0 x k).val| := by
  obtain ⟨hF, hs⟩ := binary_rounded 24 (by norm_num) 3
  obtain ⟨f, y, f', h1, h2, -, h4⟩ := C111_pid_rounding (K := ℝ) Binary.val Binary.val _ 0 (by positivity) le_rfl hF hs ⟨0⟩ ⟨1⟩ ⟨0⟩ x (by rintro rfl; simp at hx)
  refine ⟨f, y, f', h1, h2, fun n hn => ?_⟩
  have := h4 n (by omega)
  have v0 : (⟨0⟩ : Binary 24).val = 0 := by simp [Binary.val]
  have v1 : (⟨1⟩ : Binary 24).val = 1 := by simp [Binary.val]
  rw [v0, v1] at this
  simpa using this

/-- C111 for `float64` and the rectangular rule: the hypotheses are met by the instance with `a = (0, 1)`, `b = (1, 0)`. -/
example : ∃ K c : ℝ, 0 < c ∧ ∀ x : List (Binary 53), x ≠ [] → (1 / 2) ^ 53 * x.length ≤ c → (∀ v ∈ x, |v.val| ≤ 1) → ∃ y f' z g',
    (Iir.mk id [⟨0⟩, ⟨1⟩] [⟨1⟩, ⟨0⟩] [⟨0⟩, ⟨0⟩] : Iir (Binary 53)).filter x = (.ok y, f') ∧
    (Iir.mk id [0, 1] [1, 0] [0, 0] : Iir ℝ).filter (x.map Binary.val) = (.ok z, g') ∧
    ∀ n < x.length, |(at0 y n).val - at0 z n| ≤ K * (x.length : ℝ) ^ 2 * (1 / 2) ^ 53 := by
  obtain ⟨K, c, -, hc, h⟩ := C111_integral_rounding 0 [1, 0] rfl
  refine ⟨K, c, hc, fun x hx hxl hx1 => ?_⟩
  have v0 : (⟨0⟩ : Binary 53).val = 0 := by simp [Binary.val]
  have v1 : (⟨1⟩ : Binary 53).val = 1 := by simp [Binary.val]
  obtain ⟨y, f', z, g', h1, h2, -, -, h5⟩ := h (Binary 53) Binary.val _ 0 1 (binary_rounded 53 (by norm_num) 2).1 (by positivity) le_rfl zero_le_one
    (Iir.mk id [⟨0⟩, ⟨1⟩] [⟨1⟩, ⟨0⟩] [⟨0⟩, ⟨0⟩]) rfl (by simp [v0, v1]) (by simp [v0, v1]) rfl (by simp [v0]) x hx hxl hx1
  refine ⟨y, f', z, g', h1, by simpa [v0] using h2, fun n hn => ?_⟩
  have := h5 n hn
  rwa [mul_one, zero_mul, add_zero] at this

/-- The hypotheses of `C111_iir_rounding_growth` hold for an unstable filter, `y_n = 2 y_{n-1} + x_n`: the response to one error is `2^k`. -/
example : ∀ n, (2 : ℝ) ^ n = (if n = 0 then 1 else 0) + ∑ i ∈ range (n + 1), at0 [0, 2] i * 2 ^ (n - i) := by
  intro n
  rcases n with _ | n
  · simp [at0]
  · rw [sum_range_succ', sum_range_succ']
    simp [at0, pow_succ']

end Verif.Props
