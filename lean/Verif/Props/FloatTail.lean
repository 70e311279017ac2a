import Verif.Lemmas.RoundingFade
import Verif.Lemmas.IirState
import Verif.Props.FloatingPoint

/-
Property C160: what IirFilter (diamondback/filters/iir_filter.py) puts out in machine arithmetic after the signal has ended.
-/

namespace Verif.Props

open Finset Spec

section
variable {F : Type*} [Add F] [Mul F] [Dot F]

theorem iir_final (x : List F) : ∀ (f : Iir F), f.WF → ∀ y f', runLoop Iir.step f x = (.ok y, f') → f' = f.iter x x.length := by
  induction x with
  | nil =>
    intro f _ y f' h
    simp only [runLoop, Prod.mk.injEq] at h
    exact h.2.symm
  | cons v x ih =>
    intro f hf y f' h
    have hst := Iir.step_wf f hf v
    have hw := (Iir.step_wf_wf f hf v).1
    obtain ⟨y', g', r1, -, -⟩ := Iir.run_iter x _ hw
    have hg := ih _ hw y' g' r1
    have e : (f.step v).2 = { f with s := f.cast v :: f.mem.dropLast } := by rw [hst]
    rw [e] at r1
    simp only [runLoop, hst, r1, Prod.mk.injEq] at h
    rw [← h.2, hg]
    simp [Iir.iter]

variable [Zero F]

/-- The combined coefficients in machine arithmetic are bounded. -/
theorem comb_bound (a b : List ℝ) (hab : a.length = b.length) (val : F → ℝ) (n : ℕ) (u η : ℝ) (hF : Rounded val n u η) (hu1 : u ≤ 1)
    (f : Iir F) (hfa : f.a.map val = a) (hfb : f.b.map val = b) (i : ℕ) (hi : i < a.length) :
    |val (at0 f.comb i)| ≤ 4 * (|at0 a i * at0 b 0| + |at0 b i|) + 3 * η := by
  have hz := hF.zero
  have hav : ∀ i, val (at0 f.a i) = at0 a i := fun i => by rw [← hfa, at0_map_val val hz]
  have hbv : ∀ i, val (at0 f.b i) = at0 b i := fun i => by rw [← hfb, at0_map_val val hz]
  have hal : f.a.length = a.length := by rw [← hfa]; simp
  have hbl : f.b.length = a.length := by rw [hab, ← hfb]; simp
  have hfc : at0 f.comb i = at0 f.a i * at0 f.b 0 + at0 f.b i := by
    rcases hb : f.b with _ | ⟨b0, bt⟩
    · rw [hb] at hbl; simp at hbl; omega
    · have hbt : (b0 :: bt).length = a.length := by rw [← hb, hbl]
      simp only [Iir.comb, hb]
      rw [at0_of_lt _ _ (by simp only [List.length_zipWith, List.length_map, hal, hbt]; omega), at0_of_lt f.a _ (by omega),
        at0_of_lt (b0 :: bt) i (by omega)]
      simp only [List.getElem_zipWith, List.getElem_map]
      rfl
  rw [hfc]
  have hm := hF.mul (at0 f.a i) (at0 f.b 0)
  have had := hF.add (at0 f.a i * at0 f.b 0) (at0 f.b i)
  rw [hav, hbv] at hm
  rw [hbv] at had
  set m := val (at0 f.a i * at0 f.b 0)
  set P := at0 a i * at0 b 0
  set B := at0 b i
  have h1 := abs_sub_abs_le_abs_sub m P
  have h2 := abs_sub_abs_le_abs_sub (val (at0 f.a i * at0 f.b 0 + at0 f.b i)) (m + B)
  have h3 := abs_add_le m B
  have h4 : u * |P| ≤ |P| := mul_le_of_le_one_left (abs_nonneg _) hu1
  have h5 : u * (|m| + |B|) ≤ |m| + |B| := mul_le_of_le_one_left (by positivity) hu1
  have h6 := abs_nonneg B
  linarith

end

/-- C160.  Once the signal has ended, the output and the state of a stable filter fall at least exponentially until they have come down to a multiple of the absolute error of
one operation; the rate and the factor depend on the coefficients alone. -/
theorem C160_fade (a b : List ℝ) (hab : a.length = b.length) (ha : a ≠ []) (h0 : at0 a 0 = 0) (hst : Stable a) :
    ∃ (K u₀ : ℝ) (L : ℕ), 0 < u₀ ∧ 0 < L ∧ ∀ (F : Type) [Add F] [Mul F] [Dot F] [Zero F] (val : F → ℝ) (u η : ℝ), Rounded val a.length u η → 0 ≤ u → u ≤ u₀ →
      0 ≤ η → η ≤ 1 → ∀ f : Iir F, f.cast = id → f.a.map val = a → f.b.map val = b → f.s.length = a.length →
      ∀ (x : List F) (M : ℝ), x ≠ [] → (∀ v ∈ x, val v = 0) → 0 ≤ M → (∀ v ∈ f.s, |val v| ≤ M) →
        ∃ y f', f.filter x = (.ok y, f') ∧ y.length = x.length ∧ (∀ n < x.length, |val (at0 y n)| ≤ K * ((1 / 2) ^ (n / L) * M + η)) ∧
          ∀ v ∈ f'.s, |val v| ≤ K * ((1 / 2) ^ (x.length / L) * M + η) := by
  obtain ⟨G', hG'⟩ := stable_sumBound a h0 ha hst
  set G := max G' 1 with hGd
  have hG1 : 1 ≤ G := le_max_right _ _
  have hco : ∀ k, |PowerSeries.coeff k (recip a)| = ‖PowerSeries.coeff k ((recip a).map Complex.ofRealHom)‖ := by
    intro k
    rw [PowerSeries.coeff_map]; simp
  have hG : ∀ n, ∑ k ∈ range n, |PowerSeries.coeff k (recip a)| ≤ G := by
    intro n
    simp only [hco]
    exact (hG' n).trans (le_max_left _ _)
  have hsum : Summable fun k => |PowerSeries.coeff k (recip a)| := by
    simp only [hco]
    exact SumBound.summable hG'
  obtain ⟨n₀, hn₀, hfade⟩ := exact_fade a h0 hsum
  set A := ∑ i ∈ range a.length, |at0 a i| with hA
  have hA0 : 0 ≤ A := sum_nonneg fun i _ => abs_nonneg _
  have hG0 : 0 < G := by linarith
  set Q := ∑ i ∈ range a.length, (4 * (|at0 a i * at0 b 0| + |at0 b i|) + 3) with hQ
  have hQ0 : 0 ≤ Q := sum_nonneg fun i _ => by positivity
  set C := G * (1 + A) + 1 + (12 * G + 12 * G * (G * (1 + A))) with hC
  have hC0 : 0 ≤ C := by positivity
  have hpos : 0 < a.length := List.length_pos_of_ne_nil ha
  refine ⟨2 * Q * C + C + 1, min 1 (min (1 / (6 * A * G + 1)) (1 / (8 * G * ((1 + 3 * A) * (G * (1 + A)))))), n₀, by positivity, hn₀, ?_⟩
  intro F _ _ _ _ val u η hF hu hu0 hη hη1 f hc hfa hfb hfs x M hx hx0 hM hsM
  have hu1 : u ≤ 1 := hu0.trans (min_le_left _ _)
  have hsmall : 6 * u * A * G ≤ 1 := by
    have h := hu0.trans ((min_le_right _ _).trans (min_le_left _ _))
    rw [le_div_iff₀ (by positivity)] at h
    nlinarith
  have hsmall' : 8 * G * (u * (1 + 3 * A) * (G * (1 + A))) ≤ 1 := by
    have h := hu0.trans ((min_le_right _ _).trans (min_le_right _ _))
    rw [le_div_iff₀ (by positivity)] at h
    linarith
  have hal : f.a.length = a.length := by rw [← hfa]; simp
  have hbl : f.b.length = a.length := by rw [hab, ← hfb]; simp
  have hwf : f.WF := ⟨by rw [hal, hbl], by rw [hbl, hfs], by omega⟩
  have hxl : x.length ≠ 0 := by simpa using hx
  obtain ⟨y, f', r1, r2, r3⟩ := Iir.run_iter x f hwf
  have hfin := iir_final x f hwf y f' r1
  -- the state
  have hstate : ∀ k ≤ x.length, ∀ i, |val (at0 (f.iter x k).s i)| ≤ C * ((1 / 2) ^ (k / n₀) * M + η) := by
    intro k hk i
    have h := iir_state_fade a b hab ha h0 G hG1 A hA hG n₀ hfade val u η hF hu hu1 hη hsmall hsmall' x hx0 M hM (k / n₀) f hc hfa hfb hfs hsM k
      (Nat.div_mul_le_self k n₀) hk i
    refine h.trans ?_
    have hP : 0 ≤ (1 / 2 : ℝ) ^ (k / n₀) * M := by positivity
    have c1 : 0 ≤ (12 * G + 12 * G * (G * (1 + A))) * ((1 / 2 : ℝ) ^ (k / n₀) * M) := by positivity
    have c2 : 0 ≤ (G * (1 + A) + 1) * η := by positivity
    rw [hC]
    linarith
  have hlen : ∀ k, (f.iter x k).s.length = a.length := by
    intro k
    obtain ⟨w1, w2, w3, w4⟩ := Iir.iter_wf f hwf x k
    rw [← w1.2.1, w3, hbl]
  clear_value C Q
  refine ⟨y, f', by simp [Iir.filter, hxl, r1], r2, fun n hn => ?_, fun v hv => ?_⟩
  · have hy : at0 y n = dot f.comb (f.iter x (n + 1)).s := by
      unfold at0
      rw [List.getD_eq_getElem?_getD, r3 n hn, hc]; rfl
    set S := C * ((1 / 2) ^ (n / n₀) * M + η) with hS
    have hS0 : 0 ≤ S := by positivity
    have hs1 : ∀ i, |val (at0 (f.iter x (n + 1)).s i)| ≤ S := by
      intro i
      refine (hstate (n + 1) (by omega) i).trans ?_
      rw [hS]
      have : (1 / 2 : ℝ) ^ ((n + 1) / n₀) ≤ (1 / 2) ^ (n / n₀) := pow_le_pow_of_le_one (by norm_num) (by norm_num) (Nat.div_le_div_right (by omega))
      gcongr
    have hcl : f.comb.length = a.length := by rw [Iir.comb_length f hwf, hbl]
    have hdot := hF.dot f.comb (f.iter x (n + 1)).s hcl (hlen _)
    rw [hy]
    have hT : ∑ i ∈ range a.length, |val (at0 f.comb i) * val (at0 (f.iter x (n + 1)).s i)| ≤ Q * S := by
      rw [hQ, sum_mul]
      refine sum_le_sum fun i hi => ?_
      rw [abs_mul]
      have h1 := comb_bound a b hab val a.length u η hF hu1 f hfa hfb i (mem_range.mp hi)
      exact mul_le_mul (h1.trans (by linarith)) (hs1 i) (abs_nonneg _) (by positivity)
    have hT' := abs_sum_le_sum_abs (fun i => val (at0 f.comb i) * val (at0 (f.iter x (n + 1)).s i)) (range a.length)
    have h3 := abs_sub_abs_le_abs_sub (val (dot f.comb (f.iter x (n + 1)).s)) (∑ i ∈ range a.length, val (at0 f.comb i) * val (at0 (f.iter x (n + 1)).s i))
    have h4 := mul_le_mul_of_nonneg_left hT hu
    have h5 : u * (Q * S) ≤ Q * S := mul_le_of_le_one_left (by positivity) hu1
    have h6 : |val (dot f.comb (f.iter x (n + 1)).s)| ≤ 2 * (Q * S) + η := by linarith
    refine h6.trans ?_
    have hP : 0 ≤ (1 / 2 : ℝ) ^ (n / n₀) * M := by positivity
    have hfinal : ∀ X : ℝ, η ≤ X → 0 ≤ C * X → 2 * (Q * (C * X)) + η ≤ (2 * Q * C + C + 1) * X := by
      intro X h1 h2
      linarith
    exact hfinal _ (by linarith) (by positivity)
  · obtain ⟨m, hm, rfl⟩ := List.mem_iff_getElem.mp hv
    rw [← at0_of_lt _ _ hm, hfin]
    refine (hstate x.length le_rfl m).trans (mul_le_mul_of_nonneg_right ?_ (by positivity))
    linarith [mul_nonneg hQ0 hC0]

/-- C160.  In floating point the tail of a stable filter comes down to a multiple of the smallest positive number `2^e`, for binary64 `2^-1074`. -/
theorem C160_float_fade (a b : List ℝ) (hab : a.length = b.length) (ha : a ≠ []) (h0 : at0 a 0 = 0) (hst : Stable a) :
    ∃ (K : ℝ) (p₀ L : ℕ) (e₀ : ℤ), 0 < L ∧ ∀ (p : ℕ) (e : ℤ), p₀ ≤ p → e ≤ e₀ → ∀ (ρ : Nearest p e) (t : ℕ → DotOrder), Complete t →
      ∀ f : Iir (Machine ρ t), f.cast = id → f.a.map (·.val) = a → f.b.map (·.val) = b → f.s.length = a.length →
      ∀ (x : List (Machine ρ t)) (M : ℝ), x ≠ [] → (∀ v ∈ x, v.val = 0) → 0 ≤ M → (∀ v ∈ f.s, |v.val| ≤ M) →
        ∃ y f', f.filter x = (.ok y, f') ∧ y.length = x.length ∧ (∀ n < x.length, |(at0 y n).val| ≤ K * ((1 / 2) ^ (n / L) * M + 2 ^ e)) ∧
          ∀ v ∈ f'.s, |v.val| ≤ K * ((1 / 2) ^ (x.length / L) * M + 2 ^ e) := by
  obtain ⟨K, u₀, L, hu₀, hL, hK⟩ := C160_fade a b hab ha h0 hst
  set N := a.length with hN
  have hpos : 0 < N := List.length_pos_iff.mpr ha
  obtain ⟨p₀, hp₀⟩ := exists_pow_lt_of_lt_one (show (0 : ℝ) < u₀ / 2 ^ N by positivity) (by norm_num : (1 / 2 : ℝ) < 1)
  refine ⟨|K| * (1 + N * 2 ^ N), p₀, L, -(2 * N : ℕ), hL, fun p e hp he ρ t ht f hc hfa hfb hfs x M hx hx0 hM hsM => ?_⟩
  have hε : (0 : ℝ) < (1 / 2) ^ p := by positivity
  have hε1 : (1 / 2 : ℝ) ^ p ≤ 1 := pow_le_one₀ (by norm_num) (by norm_num)
  have hconv : ∀ n : ℕ, (1 + (1 / 2 : ℝ) ^ p) ^ n - 1 ≤ 2 ^ n * (1 / 2) ^ p := by
    intro n
    induction n with
    | zero => simp
    | succ n ih =>
      rw [pow_succ, pow_succ]
      have h1 : (1 + (1 / 2 : ℝ) ^ p) ^ n ≤ 2 ^ n := pow_le_pow_left₀ (by linarith) (by linarith) n
      have h2 := mul_le_mul_of_nonneg_right h1 hε.le
      linarith
  have hu : (1 + (1 / 2 : ℝ) ^ p) ^ N - 1 ≤ u₀ := by
    refine (hconv N).trans ?_
    have h1 : (1 / 2 : ℝ) ^ p ≤ (1 / 2) ^ p₀ := pow_le_pow_of_le_one (by norm_num) (by norm_num) hp
    have h2 : (1 / 2 : ℝ) ^ p ≤ u₀ / 2 ^ N := h1.trans hp₀.le
    rw [le_div_iff₀ (by positivity)] at h2
    linarith
  have hpow : (1 + (1 / 2 : ℝ) ^ p) ^ N ≤ 2 ^ N := pow_le_pow_left₀ (by linarith) (by linarith) N
  have hδ : (2 : ℝ) ^ (e - 1) ≤ 2 ^ e := zpow_le_zpow_right₀ (by norm_num) (by omega)
  have hη : (N : ℝ) * (1 + (1 / 2) ^ p) ^ N * 2 ^ (e - 1) ≤ N * 2 ^ N * 2 ^ e := by gcongr
  have hη1 : (N : ℝ) * (1 + (1 / 2) ^ p) ^ N * 2 ^ (e - 1) ≤ 1 := by
    refine hη.trans ?_
    have h1 : (2 : ℝ) ^ e ≤ 2 ^ (-((2 * N : ℕ) : ℤ)) := zpow_le_zpow_right₀ (by norm_num) he
    have h2 : (N : ℝ) ≤ 2 ^ N := by exact_mod_cast Nat.lt_two_pow_self.le
    rw [zpow_neg, zpow_natCast, two_mul, pow_add] at h1
    calc (N : ℝ) * 2 ^ N * 2 ^ e ≤ 2 ^ N * 2 ^ N * (2 ^ N * 2 ^ N)⁻¹ := by gcongr
      _ = 1 := mul_inv_cancel₀ (by positivity)
  obtain ⟨y, f', k1, k2, k3, k4⟩ := hK (Machine ρ t) Machine.val _ _ (C159_rounded ρ t ht N hpos)
    (by linarith [one_le_pow₀ (by linarith : (1 : ℝ) ≤ 1 + (1 / 2) ^ p) (n := N)]) hu (by positivity) hη1 f hc hfa hfb hfs x M hx hx0 hM hsM
  have hfin : ∀ j : ℕ, K * ((1 / 2) ^ j * M + N * (1 + (1 / 2) ^ p) ^ N * 2 ^ (e - 1)) ≤ |K| * (1 + N * 2 ^ N) * ((1 / 2) ^ j * M + 2 ^ e) := by
    intro j
    have hP : 0 ≤ (1 / 2 : ℝ) ^ j * M := by positivity
    have hE : (0 : ℝ) < 2 ^ e := by positivity
    have hA : (1 / 2) ^ j * M + N * (1 + (1 / 2) ^ p) ^ N * 2 ^ (e - 1) ≤ (1 + N * 2 ^ N) * ((1 / 2 : ℝ) ^ j * M + 2 ^ e) := by
      have : 0 ≤ (N : ℝ) * 2 ^ N * ((1 / 2) ^ j * M) := by positivity
      linarith
    refine (mul_le_mul_of_nonneg_right (le_abs_self K) (by positivity)).trans ?_
    rw [mul_assoc |K|]
    exact mul_le_mul_of_nonneg_left hA (abs_nonneg K)
  exact ⟨y, f', k1, k2, fun n hn => (k3 n hn).trans (hfin _), fun v hv => (k4 v hv).trans (hfin _)⟩

variable {p : ℕ} {e : ℤ} {ρ : Nearest p e} {t : ℕ → DotOrder}

theorem indices_length_pos (o : DotOrder) : 0 < o.indices.length := by
  cases o with
  | product i => simp [DotOrder.indices]
  | sum l r => have := indices_length_pos l; simp [DotOrder.indices]; omega
  | fused l i => simp [DotOrder.indices]

theorem indices_length_one (o : DotOrder) (h : o.indices.length = 1) : ∃ i, o = .product i := by
  cases o with
  | product i => exact ⟨i, rfl⟩
  | sum l r => have h1 := indices_length_pos l; have h2 := indices_length_pos r; simp [DotOrder.indices] at h; omega
  | fused l i =>
    have h1 := indices_length_pos l
    simp only [DotOrder.indices, List.length_append, List.length_cons, List.length_nil] at h
    omega

theorem fl_fl (ρ : Nearest p e) (x : ℝ) : ρ.fl (ρ.fl x) = ρ.fl x := ρ.ext_float _ (ρ.float x)

theorem fl_zero (ρ : Nearest p e) : ρ.fl 0 = 0 := ρ.ext_float _ ⟨0, e, by simp, le_rfl, by simp⟩

/-- A dot product of two terms one of which is zero. -/
theorem dot_two (ht : Complete t) (u v w z : Machine ρ t) (h : u.val * w.val = 0) : (dot [u, v] [w, z]).val = ρ.fl (v.val * z.val) := by
  show (t 2).eval ρ.fl (fun i => (at0 [u, v] i).val * (at0 [w, z] i).val) = _
  set q : ℕ → ℝ := fun i => (at0 [u, v] i).val * (at0 [w, z] i).val with hq
  have q0 : q 0 = 0 := h
  have q1 : q 1 = v.val * z.val := rfl
  rw [← q1]
  have hp := ht 2 (by omega)
  have hr : List.range 2 = [0, 1] := rfl
  rw [hr] at hp
  have hl := hp.length_eq
  have cases2 : ∀ i j : ℕ, [i, j].Perm [0, 1] → (i = 0 ∧ j = 1) ∨ (i = 1 ∧ j = 0) := by
    intro i j hij
    have h1 : i ∈ [0, 1] := hij.subset (by simp)
    have h2 : j ∈ [0, 1] := hij.subset (by simp)
    have h3 : ([i, j] : List ℕ).Nodup := hij.nodup_iff.mpr (by decide)
    simp at h1 h2 h3
    omega
  cases ho : t 2 with
  | product i => rw [ho] at hl; simp [DotOrder.indices] at hl
  | sum l r =>
    rw [ho] at hl hp
    have h1 := indices_length_pos l
    have h2 := indices_length_pos r
    simp only [DotOrder.indices, List.length_append, List.length_cons, List.length_nil] at hl
    obtain ⟨i, rfl⟩ := indices_length_one l (by omega)
    obtain ⟨j, rfl⟩ := indices_length_one r (by omega)
    rcases cases2 i j hp with ⟨rfl, rfl⟩ | ⟨rfl, rfl⟩
    · simp only [DotOrder.eval, q0, fl_zero, zero_add, fl_fl]
    · simp only [DotOrder.eval, q0, fl_zero, add_zero, fl_fl]
  | fused l j =>
    rw [ho] at hl hp
    have h1 := indices_length_pos l
    simp only [DotOrder.indices, List.length_append, List.length_cons, List.length_nil] at hl
    obtain ⟨i, rfl⟩ := indices_length_one l (by omega)
    rcases cases2 i j hp with ⟨rfl, rfl⟩ | ⟨rfl, rfl⟩
    · simp only [DotOrder.eval, q0, fl_zero, zero_add]
    · simp only [DotOrder.eval, q0, add_zero, fl_fl]

/-- One pole without a signal: the states are those of `d ↦ fl (α d)`, and the output is the product of the state and a coefficient. -/
theorem one_pole (ht : Complete t) (o α b₀ b₁ z d : Machine ρ t) (ho : o.val = 0) (hz : z.val = 0) (x : List (Machine ρ t)) (hx : x ≠ []) (hx0 : ∀ v ∈ x, v.val = 0) :
    ∃ y f', (Iir.mk id [o, α] [b₀, b₁] [z, d]).filter x = (.ok y, f') ∧ y.length = x.length ∧
      (∀ n < x.length, (at0 y n).val = ρ.fl (ρ.fl (ρ.fl (α.val * b₀.val) + b₁.val) * ((fun v => ρ.fl (α.val * v))^[n + 1] d.val))) ∧
      ∃ z' d' : Machine ρ t, f'.s = [z', d'] ∧ z'.val = 0 ∧ d'.val = (fun v => ρ.fl (α.val * v))^[x.length] d.val := by
  have key : ∀ (x : List (Machine ρ t)) (z d : Machine ρ t), z.val = 0 → (∀ v ∈ x, v.val = 0) →
      ∃ y f', runLoop Iir.step (Iir.mk id [o, α] [b₀, b₁] [z, d]) x = (.ok y, f') ∧ y.length = x.length ∧
      (∀ n < x.length, (at0 y n).val = ρ.fl (ρ.fl (ρ.fl (α.val * b₀.val) + b₁.val) * ((fun v => ρ.fl (α.val * v))^[n + 1] d.val))) ∧
      ∃ z' d' : Machine ρ t, f'.s = [z', d'] ∧ z'.val = 0 ∧ d'.val = (fun v => ρ.fl (α.val * v))^[x.length] d.val := by
    intro x
    induction x with
    | nil => intro z d hz _; exact ⟨[], _, rfl, rfl, by simp, z, d, rfl, hz, rfl⟩
    | cons v x ih =>
      intro z d hz hx0
      have hv := hx0 v (by simp)
      have hd : (z + dot [o, α] [z, d]).val = ρ.fl (α.val * d.val) := by
        show ρ.fl (z.val + (dot [o, α] [z, d]).val) = _
        rw [dot_two ht _ _ _ _ (by rw [ho, zero_mul]), hz, zero_add, fl_fl]
      obtain ⟨y, f', r1, r2, r3, z', d', r4, r5, r6⟩ := ih v (z + dot [o, α] [z, d]) hv (fun w hw => hx0 w (by simp [hw]))
      have hst : (Iir.mk id [o, α] [b₀, b₁] [z, d]).step v = (.ok (dot [o * b₀ + b₀, α * b₀ + b₁] [v, z + dot [o, α] [z, d]]),
          Iir.mk id [o, α] [b₀, b₁] [v, z + dot [o, α] [z, d]]) := rfl
      refine ⟨dot [o * b₀ + b₀, α * b₀ + b₁] [v, z + dot [o, α] [z, d]] :: y, f', by simp only [runLoop, hst, r1], by simp [r2], ?_, z', d', r4, r5, ?_⟩
      · intro n hn
        rcases n with _ | n
        · show (dot [o * b₀ + b₀, α * b₀ + b₁] [v, z + dot [o, α] [z, d]]).val = _
          rw [dot_two ht _ _ _ _ (by rw [hv, mul_zero]), hd]
          rfl
        · have := r3 n (by simpa using hn)
          show (at0 y n).val = _
          rw [this, hd, ← Function.iterate_succ_apply (fun v => ρ.fl (α.val * v))]
      · rw [r6, hd, ← Function.iterate_succ_apply (fun v => ρ.fl (α.val * v))]; rfl
  obtain ⟨y, f', r1, r2, r3, r4⟩ := key x z d hz hx0
  have hxl : x.length ≠ 0 := by simpa using hx
  exact ⟨y, f', by simp [Iir.filter, hxl, r1], r2, r3, r4⟩

/-- What is larger than half the smallest positive number is not rounded to zero. -/
theorem fl_ne_zero (ρ : Nearest p e) (x : ℝ) (h : 2 ^ (e - 1) < |x|) : 2 ^ e ≤ |ρ.fl x| := by
  have hE : (0 : ℝ) < 2 ^ e := by positivity
  have hE' : (2 : ℝ) ^ (e - 1) = 2 ^ e / 2 := by rw [zpow_sub_one₀ (by norm_num)]; ring
  obtain ⟨m, hm⟩ := (ρ.float x).onGrid
  have hm0 : m ≠ 0 := by
    rintro rfl
    have hf0 : ρ.fl x = 0 := by rw [hm]; simp
    have f1 : IsFloat p e (2 ^ e) := ⟨1, e, by simp; exact one_le_pow₀ (by norm_num), le_rfl, by simp⟩
    have f2 : IsFloat p e (-2 ^ e) := ⟨-1, e, by simp; exact one_le_pow₀ (by norm_num), le_rfl, by simp⟩
    have n1 := ρ.nearest x _ f1
    have n2 := ρ.nearest x _ f2
    rw [hf0, zero_sub, abs_neg] at n1 n2
    rw [hE'] at h
    rcases le_total 0 x with hx | hx
    · rw [abs_of_nonneg hx] at n1 h
      rcases abs_cases (2 ^ e - x) with ⟨h1, _⟩ | ⟨h1, _⟩ <;> linarith
    · rw [abs_of_nonpos hx] at n2 h
      rcases abs_cases (-2 ^ e - x) with ⟨h1, _⟩ | ⟨h1, _⟩ <;> linarith
  rw [hm, abs_mul, abs_of_pos hE]
  have : (1 : ℝ) ≤ |(m : ℝ)| := by exact_mod_cast Int.one_le_abs hm0
  nlinarith

/-- C160.  With a coefficient of magnitude above 1/2 the state never reaches zero once it is not zero: a tail of subnormal numbers is left for ever, though the state of the
exact filter tends to zero.  Nor does the output of the filter without zeros (`b` 1 and 0). -/
theorem C160_stuck (ht : Complete t) (o α b₀ b₁ z d : Machine ρ t) (ho : o.val = 0) (hz : z.val = 0) (hα : 1 / 2 < |α.val|) (hd : d.val ≠ 0)
    (x : List (Machine ρ t)) (hx : x ≠ []) (hx0 : ∀ v ∈ x, v.val = 0) :
    ∃ y f', (Iir.mk id [o, α] [b₀, b₁] [z, d]).filter x = (.ok y, f') ∧ y.length = x.length ∧ 2 ^ e ≤ |(at0 f'.s 1).val| ∧
      (b₀.val = 1 → b₁.val = 0 → ∀ n < x.length, 2 ^ e ≤ |(at0 y n).val|) := by
  obtain ⟨y, f', h1, h2, h3, z', d', h4, -, h6⟩ := one_pole ht o α b₀ b₁ z d ho hz x hx hx0
  have hE : (0 : ℝ) < 2 ^ e := by positivity
  have hE' : (2 : ℝ) ^ (e - 1) = 2 ^ e / 2 := by rw [zpow_sub_one₀ (by norm_num)]; ring
  have hstep : ∀ v : ℝ, 2 ^ e ≤ |v| → 2 ^ e ≤ |ρ.fl (α.val * v)| := by
    intro v hv
    refine fl_ne_zero ρ _ ?_
    rw [abs_mul, hE']
    nlinarith
  have hd' : 2 ^ e ≤ |d.val| := by
    obtain ⟨m, hm⟩ := d.float.onGrid
    have hm0 : m ≠ 0 := by rintro rfl; rw [hm] at hd; simp at hd
    rw [hm, abs_mul, abs_of_pos hE]
    have : (1 : ℝ) ≤ |(m : ℝ)| := by exact_mod_cast Int.one_le_abs hm0
    nlinarith
  have hall : ∀ n, 2 ^ e ≤ |(fun v => ρ.fl (α.val * v))^[n] d.val| := by
    intro n
    induction n with
    | zero => exact hd'
    | succ n ih => rw [Function.iterate_succ_apply']; exact hstep _ ih
  refine ⟨y, f', h1, h2, ?_, fun hb0 hb1 n hn => ?_⟩
  · rw [h4]
    show 2 ^ e ≤ |d'.val|
    rw [h6]; exact hall _
  · rw [h3 n hn, hb0, hb1, mul_one, add_zero, fl_fl, ρ.ext_float _ α.float]
    exact hstep _ (hall _)

/-- C160.  With a coefficient of magnitude below 1/2 the output and the state are exactly zero after finitely many samples. -/
theorem C160_dies (ht : Complete t) (o α b₀ b₁ z d : Machine ρ t) (ho : o.val = 0) (hz : z.val = 0) (x : List (Machine ρ t)) (hx : x ≠ []) (hx0 : ∀ v ∈ x, v.val = 0) :
    ∃ y f', (Iir.mk id [o, α] [b₀, b₁] [z, d]).filter x = (.ok y, f') ∧ y.length = x.length ∧
      (∀ n < x.length, (2 * |α.val|) ^ (n + 1) * |d.val| < 2 ^ e → (at0 y n).val = 0) ∧
      ((2 * |α.val|) ^ x.length * |d.val| < 2 ^ e → ∀ v ∈ f'.s, v.val = 0) := by
  obtain ⟨y, f', h1, h2, h3, z', d', h4, h5, h6⟩ := one_pole ht o α b₀ b₁ z d ho hz x hx hx0
  have hE : (0 : ℝ) < 2 ^ e := by positivity
  have hb : ∀ n, |(fun v => ρ.fl (α.val * v))^[n] d.val| ≤ (2 * |α.val|) ^ n * |d.val| := by
    intro n
    induction n with
    | zero => simp
    | succ n ih =>
      rw [Function.iterate_succ_apply']
      set w := (fun v => ρ.fl (α.val * v))^[n] d.val
      have hn := ρ.nearest (α.val * w) 0 ⟨0, e, by simp, le_rfl, by simp⟩
      rw [zero_sub, abs_neg] at hn
      have h3 := abs_sub_abs_le_abs_sub (ρ.fl (α.val * w)) (α.val * w)
      rw [abs_mul] at hn h3
      have h4 := mul_le_mul_of_nonneg_left ih (by positivity : 0 ≤ 2 * |α.val|)
      show |ρ.fl (α.val * w)| ≤ _
      rw [pow_succ]
      linarith
  have hgrid : ∀ n, IsFloat p e ((fun v => ρ.fl (α.val * v))^[n] d.val) := by
    intro n
    cases n with
    | zero => exact d.float
    | succ n => rw [Function.iterate_succ_apply']; exact ρ.float _
  have hzero : ∀ n, (2 * |α.val|) ^ n * |d.val| < 2 ^ e → (fun v => ρ.fl (α.val * v))^[n] d.val = 0 := by
    intro n hn
    obtain ⟨m, hm⟩ := (hgrid n).onGrid
    have := (hb n).trans_lt hn
    rw [hm] at this ⊢
    rw [abs_mul, abs_of_pos hE] at this
    have h1 : |(m : ℝ)| < 1 := by
      by_contra hc
      push Not at hc
      nlinarith
    have : m = 0 := by
      have : |m| < 1 := by exact_mod_cast h1
      exact Int.abs_lt_one_iff.mp this
    rw [this]; simp
  refine ⟨y, f', h1, h2, fun n hn h => ?_, fun h v hv => ?_⟩
  · rw [h3 n hn, hzero _ h, mul_zero, fl_zero]
  · rw [h4] at hv
    simp only [List.mem_cons, List.not_mem_nil, or_false] at hv
    rcases hv with rfl | rfl
    · exact h5
    · rw [h6, hzero _ h]

/-- C160: the smallest positive number is the fixed point of a filter with coefficient 3/4. -/
example (ρ : Nearest 53 (-1074)) (t : ℕ → DotOrder) (ht : Complete t) (o i α d : Machine ρ t) (ho : o.val = 0) (hi : i.val = 1) (hα : α.val = 3 / 4) (hd : d.val = 1) (n : ℕ) :
    ∃ y f', (Iir.mk id [o, α] [i, o] [o, d]).filter (List.replicate (n + 1) o) = (.ok y, f') ∧ 2 ^ (-1074 : ℤ) ≤ |(at0 y n).val| := by
  obtain ⟨y, f', h1, -, -, h4⟩ := C160_stuck ht o α i o o d ho ho (by rw [hα]; norm_num [abs_of_pos]) (by rw [hd]; norm_num) (List.replicate (n + 1) o) (by simp)
    (fun v hv => by rw [List.eq_of_mem_replicate hv, ho])
  exact ⟨y, f', h1, h4 hi ho n (by simp)⟩

/-- C160: with coefficient 1/4 the impulse response of binary64 is zero after 1075 samples. -/
example (ρ : Nearest 53 (-1074)) (t : ℕ → DotOrder) (ht : Complete t) (o i α d : Machine ρ t) (ho : o.val = 0) (hα : α.val = 1 / 4) (hd : d.val = 1) :
    ∃ y f', (Iir.mk id [o, α] [i, o] [o, d]).filter (List.replicate 1075 o) = (.ok y, f') ∧ (at0 y 1074).val = 0 := by
  obtain ⟨y, f', h1, -, h3, -⟩ := C160_dies ht o α i o o d ho ho (List.replicate 1075 o) (List.cons_ne_nil o (List.replicate 1074 o)) (fun v hv => by rw [List.eq_of_mem_replicate hv, ho])
  refine ⟨y, f', h1, h3 1074 (by rw [List.length_replicate]; omega) ?_⟩
  have key : ∀ k : ℕ, (2 * |α.val|) ^ (k + 1) * |d.val| < 2 ^ (-(k : ℤ)) := by
    intro k
    have e1 : (2 * |α.val|) = (2 : ℝ)⁻¹ := by rw [hα, abs_of_pos (by norm_num)]; norm_num
    rw [e1, hd, abs_one, mul_one, zpow_neg, zpow_natCast, inv_pow]
    exact inv_strictAnti₀ (by positivity) (pow_lt_pow_right₀ (by norm_num) (by omega))
  exact key 1074

/-- C160: stable coefficients. -/
example : ∃ (K : ℝ) (p₀ L : ℕ) (e₀ : ℤ), 0 < L ∧ ∀ (p : ℕ) (e : ℤ), p₀ ≤ p → e ≤ e₀ → ∀ (ρ : Nearest p e) (t : ℕ → DotOrder), Complete t →
    ∀ f : Iir (Machine ρ t), f.cast = id → f.a.map (·.val) = [0, 3 / 4] → f.b.map (·.val) = [1, 0] → f.s.length = 2 →
    ∀ (x : List (Machine ρ t)) (M : ℝ), x ≠ [] → (∀ v ∈ x, v.val = 0) → 0 ≤ M → (∀ v ∈ f.s, |v.val| ≤ M) →
      ∃ y f', f.filter x = (.ok y, f') ∧ y.length = x.length ∧ (∀ n < x.length, |(at0 y n).val| ≤ K * ((1 / 2) ^ (n / L) * M + 2 ^ e)) ∧
        ∀ v ∈ f'.s, |v.val| ≤ K * ((1 / 2) ^ (x.length / L) * M + 2 ^ e) :=
  C160_float_fade [0, 3 / 4] [1, 0] rfl (by simp) rfl (by
    intro z hz
    simp [Pole, at0] at hz
    rw [hz]
    norm_num)

/-- C160: a fixed point arithmetic, in which the tail falls to a multiple of `1/256`. -/
example : ∃ (K : ℝ) (L : ℕ), 0 < L ∧ ∀ n M : ℕ, ∃ y f', (Iir.mk id [⟨0⟩, ⟨128⟩] [⟨256⟩, ⟨0⟩] [⟨0⟩, ⟨M⟩] : Iir Fixed).filter (List.replicate (n + 1) ⟨0⟩) = (.ok y, f') ∧
    |(at0 y n).val| ≤ K * ((1 / 2) ^ (n / L) * (M / 256) + 1 / 256) := by
  obtain ⟨K, u₀, L, hu₀, hL, h⟩ := C160_fade [0, 1 / 2] [1, 0] rfl (by simp) rfl (by
    intro z hz
    simp [Pole, at0] at hz
    rw [hz]
    norm_num)
  refine ⟨K, L, hL, fun n M => ?_⟩
  obtain ⟨y, f', h1, -, h3, -⟩ := h Fixed Fixed.val 0 (1 / 256) (fixed_rounded 2) le_rfl hu₀.le (by norm_num) (by norm_num)
    (Iir.mk id [⟨0⟩, ⟨128⟩] [⟨256⟩, ⟨0⟩] [⟨0⟩, ⟨M⟩]) rfl (by simp [Fixed.val]; norm_num) (by simp [Fixed.val]) rfl (List.replicate (n + 1) ⟨0⟩) (M / 256) (by simp)
    (fun v hv => by rw [List.eq_of_mem_replicate hv]; simp [Fixed.val]) (by positivity) (by
      intro v hv
      simp only [List.mem_cons, List.not_mem_nil, or_false] at hv
      rcases hv with rfl | rfl
      · simp [Fixed.val]; positivity
      · have : Fixed.val ⟨(M : ℤ)⟩ = M / 256 := by simp [Fixed.val]
        rw [this, abs_of_nonneg (by positivity)])
  exact ⟨y, f', h1, h3 n (by simp)⟩

end Verif.Props
