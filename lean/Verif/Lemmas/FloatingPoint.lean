import Verif.Spec.FloatingPoint
import Verif.Lemmas.PolyRate
import Verif.Lemmas.Fir
import Mathlib.Data.Int.Log

/-
Rounding to the nearest binary floating point number.
-/

namespace Verif.Spec

open Finset

/-- Exponent of the last digit of the numbers near `x`. -/
noncomputable def lastDigit (p : ℕ) (e : ℤ) (x : ℝ) : ℤ := max (Int.log 2 |x| - (p - 1)) e

/-- Round to nearest, ties to even. -/
noncomputable def roundEven (p : ℕ) (e : ℤ) (x : ℝ) : ℝ := np.round (x / 2 ^ lastDigit p e x) * 2 ^ lastDigit p e x

theorem round_nearest (y : ℝ) (j : ℤ) : |(np.round y : ℝ) - y| ≤ |(j : ℝ) - y| := by
  have h := (np.round_spec y).1
  rw [abs_sub_comm] at h
  by_contra hc
  push Not at hc
  have h1 : |(np.round y : ℝ) - j| < 1 := by
    have := abs_sub_le (np.round y : ℝ) y j
    rw [abs_sub_comm y] at this
    linarith
  have h2 : np.round y - j = 0 := by
    have : |np.round y - j| < 1 := by exact_mod_cast h1
    exact Int.abs_lt_one_iff.mp this
  have h3 : (np.round y : ℝ) = j := by exact_mod_cast (sub_eq_zero.mp h2)
  rw [h3] at hc
  exact lt_irrefl _ hc

theorem lt_lastDigit (p : ℕ) (e : ℤ) (x : ℝ) : |x| < 2 ^ ((p : ℤ) + lastDigit p e x) := by
  have h := Int.lt_zpow_succ_log_self (b := 2) (by norm_num) |x|
  push_cast at h
  refine h.trans_le (zpow_le_zpow_right₀ (by norm_num) ?_)
  unfold lastDigit
  have := le_max_left (Int.log 2 |x| - ((p : ℤ) - 1)) e
  omega

theorem np_round_le (p : ℕ) (e : ℤ) (x : ℝ) : |np.round (x / 2 ^ lastDigit p e x)| ≤ 2 ^ p := by
  have h := (np.round_spec (x / 2 ^ lastDigit p e x)).1
  have hp : (0 : ℝ) < 2 ^ lastDigit p e x := by positivity
  have h1 : |x / 2 ^ lastDigit p e x| < 2 ^ p := by
    rw [abs_div, abs_of_pos hp, div_lt_iff₀ hp]
    have := lt_lastDigit p e x
    rwa [zpow_add₀ (by norm_num), zpow_natCast] at this
  have h2 : |(np.round (x / 2 ^ lastDigit p e x) : ℝ)| < 2 ^ p + 1 := by
    have := abs_sub_abs_le_abs_sub (np.round (x / 2 ^ lastDigit p e x) : ℝ) (x / 2 ^ lastDigit p e x)
    rw [abs_sub_comm] at this
    linarith
  have h3 : |np.round (x / 2 ^ lastDigit p e x)| < 2 ^ p + 1 := by exact_mod_cast h2
  omega

theorem roundEven_float (p : ℕ) (e : ℤ) (x : ℝ) : IsFloat p e (roundEven p e x) :=
  ⟨np.round (x / 2 ^ lastDigit p e x), lastDigit p e x, np_round_le p e x, le_max_right _ _, rfl⟩

theorem roundEven_grid (p : ℕ) (e : ℤ) (x : ℝ) (j : ℤ) : |roundEven p e x - x| ≤ |j * 2 ^ lastDigit p e x - x| := by
  have hp : (0 : ℝ) < 2 ^ lastDigit p e x := by positivity
  have h := round_nearest (x / 2 ^ lastDigit p e x) j
  have e1 : ∀ z : ℝ, |z * 2 ^ lastDigit p e x - x| = |z - x / 2 ^ lastDigit p e x| * 2 ^ lastDigit p e x := by
    intro z
    rw [← abs_of_pos hp, ← abs_mul, abs_of_pos hp, sub_mul, div_mul_cancel₀ _ hp.ne']
  unfold roundEven
  rw [e1, e1]
  exact mul_le_mul_of_nonneg_right h hp.le

theorem roundEven_nearest (p : ℕ) (hp : 0 < p) (e : ℤ) (x d : ℝ) (hd : IsFloat p e d) : |roundEven p e x - x| ≤ |d - x| := by
  obtain ⟨m, k, hm, hk, rfl⟩ := hd
  by_cases hE : lastDigit p e x ≤ k
  · have := roundEven_grid p e x (m * 2 ^ (k - lastDigit p e x).toNat)
    refine this.trans (le_of_eq ?_)
    congr 2
    push_cast
    rw [mul_assoc, ← zpow_natCast, ← zpow_add₀ (by norm_num)]
    congr 2
    omega
  · by_cases hx : x = 0
    · have := roundEven_grid p e x 0
      subst hx
      have h0 : |roundEven p e 0 - 0| ≤ 0 := this.trans (by simp)
      exact h0.trans (abs_nonneg _)
    have hx' : 0 < |x| := abs_pos.mpr hx
    have hl : lastDigit p e x = Int.log 2 |x| - (p - 1) := by
      unfold lastDigit at hE ⊢
      rcases max_cases (Int.log 2 |x| - ((p : ℤ) - 1)) e with h | h <;> omega
    have hlog := Int.zpow_log_le_self (b := 2) (by norm_num) hx'
    push_cast at hlog
    have hd1 : |(m : ℝ) * 2 ^ k| ≤ 2 ^ Int.log 2 |x| := by
      rw [abs_mul, abs_of_pos (a := (2 : ℝ) ^ k) (by positivity)]
      have h1 : |(m : ℝ)| ≤ 2 ^ p := by exact_mod_cast hm
      calc |(m : ℝ)| * 2 ^ k ≤ 2 ^ p * 2 ^ k := mul_le_mul_of_nonneg_right h1 (by positivity)
        _ = 2 ^ ((p : ℤ) + k) := by rw [zpow_add₀ (by norm_num), zpow_natCast]
        _ ≤ 2 ^ Int.log 2 |x| := zpow_le_zpow_right₀ (by norm_num) (by omega)
    have hgrid : (2 : ℝ) ^ (p - 1) * 2 ^ lastDigit p e x = 2 ^ Int.log 2 |x| := by
      rw [← zpow_natCast, ← zpow_add₀ (by norm_num), hl]
      congr 1
      push_cast [Nat.cast_sub hp]
      ring
    have key : ∃ j : ℤ, |(j : ℝ) * 2 ^ lastDigit p e x - x| = |x| - 2 ^ Int.log 2 |x| := by
      rcases lt_or_gt_of_ne hx with h | h
      · refine ⟨-2 ^ (p - 1), ?_⟩
        push_cast
        rw [neg_mul, hgrid]
        rw [abs_of_neg h] at hlog ⊢
        rw [abs_of_nonneg (by linarith)]
        ring
      · refine ⟨2 ^ (p - 1), ?_⟩
        push_cast
        rw [hgrid]
        rw [abs_of_pos h] at hlog ⊢
        rw [abs_of_nonpos (by linarith)]
        ring
    obtain ⟨j, hj⟩ := key
    refine (roundEven_grid p e x j).trans ?_
    rw [hj]
    have := abs_sub_abs_le_abs_sub x ((m : ℝ) * 2 ^ k)
    rw [abs_sub_comm] at this
    linarith

/-- Rounding as specified by IEEE 754, apart from overflow. -/
noncomputable def ieee (p : ℕ) (hp : 0 < p) (e : ℤ) : Nearest p e := ⟨roundEven p e, roundEven_float p e, roundEven_nearest p hp e⟩

/-- Some number is near. -/
theorem near_float (p : ℕ) (e : ℤ) (x : ℝ) : |roundEven p e x - x| ≤ max ((1 / 2) ^ p * |x|) (2 ^ (e - 1)) := by
  by_cases hx : x = 0
  · subst hx
    have := roundEven_grid p e 0 0
    have h0 : |roundEven p e 0 - 0| ≤ 0 := this.trans (by simp)
    exact h0.trans (le_max_of_le_left (by positivity))
  have hx' : 0 < |x| := abs_pos.mpr hx
  have hlog := Int.zpow_log_le_self (b := 2) (by norm_num) hx'
  push_cast at hlog
  have hp : (0 : ℝ) < 2 ^ lastDigit p e x := by positivity
  have h := (np.round_spec (x / 2 ^ lastDigit p e x)).1
  have e1 : |roundEven p e x - x| ≤ 1 / 2 * 2 ^ lastDigit p e x := by
    unfold roundEven
    have : (np.round (x / 2 ^ lastDigit p e x) : ℝ) * 2 ^ lastDigit p e x - x =
        -(x / 2 ^ lastDigit p e x - np.round (x / 2 ^ lastDigit p e x)) * 2 ^ lastDigit p e x := by field_simp; ring
    rw [this, abs_mul, abs_neg, abs_of_pos hp]
    exact mul_le_mul_of_nonneg_right h hp.le
  refine e1.trans ?_
  rcases max_cases (Int.log 2 |x| - ((p : ℤ) - 1)) e with hm | hm
  · refine le_max_of_le_left ?_
    have : lastDigit p e x = Int.log 2 |x| + (-(p : ℤ)) + 1 := by unfold lastDigit; omega
    rw [this, zpow_add₀ (by norm_num), zpow_add₀ (by norm_num), zpow_neg, zpow_natCast]
    have : (1 / 2 : ℝ) ^ p = ((2 : ℝ) ^ p)⁻¹ := by rw [one_div, inv_pow]
    rw [this]
    have h0 : (0 : ℝ) < ((2 : ℝ) ^ p)⁻¹ := by positivity
    nlinarith
  · refine le_max_of_le_right (le_of_eq ?_)
    have : lastDigit p e x = (e - 1) + 1 := by unfold lastDigit; omega
    rw [this, zpow_add₀ (by norm_num), zpow_one]
    ring

theorem Nearest.ext_float {p : ℕ} {e : ℤ} (ρ : Nearest p e) (x : ℝ) (hx : IsFloat p e x) : ρ.fl x = x := by
  have := ρ.nearest x x hx
  rw [sub_self, abs_zero] at this
  exact sub_eq_zero.mp (abs_eq_zero.mp (le_antisymm this (abs_nonneg _)))

theorem Nearest.error_max {p : ℕ} {e : ℤ} (ρ : Nearest p e) (x : ℝ) : |ρ.fl x - x| ≤ max ((1 / 2) ^ p * |x|) (2 ^ (e - 1)) :=
  (ρ.nearest x _ (roundEven_float p e x)).trans (near_float p e x)

theorem Nearest.error {p : ℕ} {e : ℤ} (ρ : Nearest p e) (x : ℝ) : |ρ.fl x - x| ≤ (1 / 2) ^ p * |x| + 2 ^ (e - 1) :=
  (ρ.error_max x).trans (max_le (le_add_of_nonneg_right (by positivity)) (le_add_of_nonneg_left (by positivity)))

theorem Nearest.mono {p : ℕ} {e : ℤ} (ρ : Nearest p e) {x y : ℝ} (h : x ≤ y) : ρ.fl x ≤ ρ.fl y := by
  rcases h.eq_or_lt with rfl | h
  · exact le_rfl
  by_contra hc
  push Not at hc
  have h1 := ρ.nearest x _ (ρ.float y)
  have h2 := ρ.nearest y _ (ρ.float x)
  have := sq_le_sq.mpr h1
  have := sq_le_sq.mpr h2
  nlinarith

theorem OnGrid.add {g : ℤ} {x y : ℝ} (hx : OnGrid g x) (hy : OnGrid g y) : OnGrid g (x + y) := by
  obtain ⟨m, rfl⟩ := hx; obtain ⟨n, rfl⟩ := hy
  exact ⟨m + n, by push_cast; ring⟩

theorem OnGrid.neg {g : ℤ} {x : ℝ} (hx : OnGrid g x) : OnGrid g (-x) := by
  obtain ⟨m, rfl⟩ := hx
  exact ⟨-m, by push_cast; ring⟩

theorem OnGrid.mul {g h : ℤ} {x y : ℝ} (hx : OnGrid g x) (hy : OnGrid h y) : OnGrid (g + h) (x * y) := by
  obtain ⟨m, rfl⟩ := hx; obtain ⟨n, rfl⟩ := hy
  exact ⟨m * n, by push_cast; rw [zpow_add₀ (by norm_num)]; ring⟩

theorem OnGrid.zero (g : ℤ) : OnGrid g 0 := ⟨0, by simp⟩

theorem IsFloat.onGrid {p : ℕ} {e : ℤ} {x : ℝ} (hx : IsFloat p e x) : OnGrid e x := by
  obtain ⟨m, k, -, hk, rfl⟩ := hx
  refine ⟨m * 2 ^ (k - e).toNat, ?_⟩
  push_cast
  rw [mul_assoc, ← zpow_natCast, ← zpow_add₀ (by norm_num)]
  congr 2
  omega

theorem OnGrid.float {p : ℕ} {e g : ℤ} {x : ℝ} (hx : OnGrid g x) (hg : e ≤ g) (h : |x| ≤ 2 ^ ((p : ℤ) + g)) : IsFloat p e x := by
  obtain ⟨m, rfl⟩ := hx
  refine ⟨m, g, ?_, hg, rfl⟩
  have hp : (0 : ℝ) < 2 ^ g := by positivity
  rw [abs_mul, abs_of_pos hp, zpow_add₀ (by norm_num), zpow_natCast] at h
  have := le_of_mul_le_mul_right h hp
  exact_mod_cast this

theorem Nearest.exact {p : ℕ} {e g : ℤ} (ρ : Nearest p e) {x : ℝ} (hx : OnGrid g x) (hg : e ≤ g) (h : |x| ≤ 2 ^ ((p : ℤ) + g)) : ρ.fl x = x :=
  ρ.ext_float x (hx.float hg h)

/-- Sums and differences do not underflow. -/
theorem Nearest.error_grid {p : ℕ} {e : ℤ} (ρ : Nearest p e) (x : ℝ) (hx : OnGrid e x) : |ρ.fl x - x| ≤ (1 / 2) ^ p * |x| := by
  by_cases h : |x| ≤ 2 ^ ((p : ℤ) + e)
  · rw [ρ.exact hx le_rfl h, sub_self, abs_zero]; positivity
  · push Not at h
    refine (ρ.error_max x).trans (max_le le_rfl ?_)
    rw [zpow_add₀ (by norm_num), zpow_natCast] at h
    have h1 : (2 : ℝ) ^ (e - 1) ≤ 2 ^ e := zpow_le_zpow_right₀ (by norm_num) (by omega)
    have h2 : (1 / 2 : ℝ) ^ p * 2 ^ p = 1 := by rw [← mul_pow]; norm_num
    have h3 : (0 : ℝ) < (1 / 2) ^ p := by positivity
    have h4 := mul_le_mul_of_nonneg_left h.le h3.le
    rw [← mul_assoc, h2, one_mul] at h4
    linarith

theorem DotOrder.indices_pos (o : DotOrder) : 0 < o.indices.length := by
  induction o with
  | product i => simp [DotOrder.indices]
  | sum l r hl hr => simp [DotOrder.indices]; omega
  | fused l i hl => simp [DotOrder.indices]

theorem abs_map_sum (q : ℕ → ℝ) (L : List ℕ) : |(L.map q).sum| ≤ (L.map fun i => |q i|).sum := by
  induction L with
  | nil => simp
  | cons i L ih => simp only [List.map_cons, List.sum_cons]; exact (abs_add_le _ _).trans (by linarith)

theorem abs_map_sum_nonneg (q : ℕ → ℝ) (L : List ℕ) : 0 ≤ (L.map fun i => |q i|).sum := (abs_nonneg _).trans (abs_map_sum q L)

/-- The error of a dot product in any order. -/
theorem DotOrder.error {p : ℕ} {e : ℤ} (ρ : Nearest p e) (q : ℕ → ℝ) (o : DotOrder) :
    |o.eval ρ.fl q - (o.indices.map q).sum| ≤ ((1 + (1 / 2) ^ p) ^ o.indices.length - 1) * (o.indices.map fun i => |q i|).sum +
      o.indices.length * (1 + (1 / 2) ^ p) ^ o.indices.length * 2 ^ (e - 1) := by
  have hδ : (0 : ℝ) < 2 ^ (e - 1) := by positivity
  have hε : (0 : ℝ) < (1 / 2) ^ p := by positivity
  set ε : ℝ := (1 / 2) ^ p with hεd
  set δ : ℝ := 2 ^ (e - 1) with hδd
  induction o with
  | product i =>
    simp only [DotOrder.eval, DotOrder.indices, List.map_cons, List.map_nil, List.sum_cons, List.sum_nil, List.length_cons, List.length_nil]
    have := ρ.error (q i)
    rw [← hεd, ← hδd] at this
    push_cast
    rw [add_zero, add_zero, pow_one]
    nlinarith
  | sum l r hl hr =>
    have lp := l.indices_pos
    have rp := r.indices_pos
    simp only [DotOrder.eval, DotOrder.indices, List.map_append, List.sum_append, List.length_append]
    have hg := ρ.error_grid (l.eval ρ.fl q + r.eval ρ.fl q)
      (by cases l <;> cases r <;> exact (ρ.float _).onGrid.add (ρ.float _).onGrid)
    rw [← hεd] at hg
    have a1 := abs_map_sum q l.indices
    have a2 := abs_map_sum q r.indices
    have n1 := abs_map_sum_nonneg q l.indices
    have n2 := abs_map_sum_nonneg q r.indices
    generalize l.eval ρ.fl q = A at *
    generalize r.eval ρ.fl q = B at *
    generalize ρ.fl (A + B) = C at *
    generalize (l.indices.map q).sum = SA at *
    generalize (r.indices.map q).sum = SB at *
    generalize (l.indices.map fun i => |q i|).sum = TA at *
    generalize (r.indices.map fun i => |q i|).sum = TB at *
    generalize l.indices.length = m at *
    generalize r.indices.length = k at *
    have h1 : (1 : ℝ) ≤ 1 + ε := by linarith
    have p1 : (1 + ε) ^ m * (1 + ε) ≤ (1 + ε) ^ (m + k) := by rw [← pow_succ]; exact pow_le_pow_right₀ h1 (by omega)
    have p2 : (1 + ε) ^ k * (1 + ε) ≤ (1 + ε) ^ (m + k) := by rw [← pow_succ]; exact pow_le_pow_right₀ h1 (by omega)
    have t1 : |C - (SA + SB)| ≤ |C - (A + B)| + (|A - SA| + |B - SB|) := by
      have e1 := abs_add_le (C - (A + B)) ((A - SA) + (B - SB))
      have e2 := abs_add_le (A - SA) (B - SB)
      have e3 : C - (A + B) + ((A - SA) + (B - SB)) = C - (SA + SB) := by ring
      rw [e3] at e1
      linarith
    have t2 : |A + B| ≤ (|A - SA| + |B - SB|) + (TA + TB) := by
      have e1 := abs_add_le A B
      have e2 := abs_sub_abs_le_abs_sub A SA
      have e3 := abs_sub_abs_le_abs_sub B SB
      linarith
    have t3 : ε * |A + B| ≤ ε * ((|A - SA| + |B - SB|) + (TA + TB)) := mul_le_mul_of_nonneg_left t2 hε.le
    have t4 : |C - (SA + SB)| ≤ (1 + ε) * |A - SA| + (1 + ε) * |B - SB| + ε * (TA + TB) := by linarith
    have t5 := mul_le_mul_of_nonneg_left hl (by linarith : (0 : ℝ) ≤ 1 + ε)
    have t6 := mul_le_mul_of_nonneg_left hr (by linarith : (0 : ℝ) ≤ 1 + ε)
    have u1 := mul_le_mul_of_nonneg_right p1 n1
    have u2 := mul_le_mul_of_nonneg_right p2 n2
    have u3 := mul_le_mul_of_nonneg_right p1 (by positivity : (0 : ℝ) ≤ m * δ)
    have u4 := mul_le_mul_of_nonneg_right p2 (by positivity : (0 : ℝ) ≤ k * δ)
    push_cast
    nlinarith
  | fused l i hl =>
    have lp := l.indices_pos
    simp only [DotOrder.eval, DotOrder.indices, List.map_append, List.sum_append, List.length_append, List.map_cons, List.map_nil, List.sum_cons, List.sum_nil,
      List.length_cons, List.length_nil, add_zero, zero_add]
    have hg := ρ.error (l.eval ρ.fl q + q i)
    rw [← hεd, ← hδd] at hg
    have a1 := abs_map_sum q l.indices
    have n1 := abs_map_sum_nonneg q l.indices
    generalize l.eval ρ.fl q = A at *
    generalize q i = B at *
    generalize ρ.fl (A + B) = C at *
    generalize (l.indices.map q).sum = SA at *
    generalize (l.indices.map fun i => |q i|).sum = TA at *
    generalize l.indices.length = m at *
    have h1 : (1 : ℝ) ≤ 1 + ε := by linarith
    have p1 : (1 + ε) ^ m * (1 + ε) = (1 + ε) ^ (m + 1) := (pow_succ _ _).symm
    have p2 : (1 : ℝ) ≤ (1 + ε) ^ m := one_le_pow₀ h1
    have t1 : |C - (SA + B)| ≤ |C - (A + B)| + |A - SA| := by
      have e1 := abs_add_le (C - (A + B)) (A - SA)
      have e3 : C - (A + B) + (A - SA) = C - (SA + B) := by ring
      rw [e3] at e1
      linarith
    have t2 : |A + B| ≤ |A - SA| + (TA + |B|) := by
      have e1 := abs_add_le A B
      have e2 := abs_sub_abs_le_abs_sub A SA
      linarith
    have t3 : ε * |A + B| ≤ ε * (|A - SA| + (TA + |B|)) := mul_le_mul_of_nonneg_left t2 hε.le
    have t4 : |C - (SA + B)| ≤ (1 + ε) * |A - SA| + ε * (TA + |B|) + δ := by linarith
    have t5 := mul_le_mul_of_nonneg_left hl (by linarith : (0 : ℝ) ≤ 1 + ε)
    have hB := abs_nonneg B
    push_cast
    rw [← p1]
    have u1 : ε * |B| ≤ ((1 + ε) ^ m * (1 + ε) - 1) * |B| := mul_le_mul_of_nonneg_right (by nlinarith) hB
    have u2 : δ ≤ (1 + ε) ^ m * (1 + ε) * δ := le_mul_of_one_le_left hδ.le (by nlinarith)
    nlinarith

/-- Dot products on a grid are exact as long as the absolute sum fits. -/
theorem DotOrder.exact {p : ℕ} {e g : ℤ} (ρ : Nearest p e) (hg : e ≤ g) (q : ℕ → ℝ) (o : DotOrder) (hq : ∀ i ∈ o.indices, OnGrid g (q i))
    (h : (o.indices.map fun i => |q i|).sum ≤ 2 ^ ((p : ℤ) + g)) : o.eval ρ.fl q = (o.indices.map q).sum ∧ OnGrid g (o.indices.map q).sum := by
  induction o with
  | product i =>
    simp only [DotOrder.eval, DotOrder.indices, List.map_cons, List.map_nil, List.sum_cons, List.sum_nil, List.mem_singleton, forall_eq, add_zero] at *
    exact ⟨ρ.exact hq hg h, hq⟩
  | sum l r hl hr =>
    simp only [DotOrder.eval, DotOrder.indices, List.map_append, List.sum_append, List.mem_append] at *
    have n1 := abs_map_sum_nonneg q l.indices
    have n2 := abs_map_sum_nonneg q r.indices
    obtain ⟨l1, l2⟩ := hl (fun i hi => hq i (.inl hi)) (by linarith)
    obtain ⟨r1, r2⟩ := hr (fun i hi => hq i (.inr hi)) (by linarith)
    refine ⟨?_, l2.add r2⟩
    rw [l1, r1]
    refine ρ.exact (l2.add r2) hg (le_trans ?_ h)
    exact (abs_add_le _ _).trans (add_le_add (abs_map_sum _ _) (abs_map_sum _ _))
  | fused l i hl =>
    simp only [DotOrder.eval, DotOrder.indices, List.map_append, List.sum_append, List.mem_append, List.map_cons, List.map_nil, List.sum_cons, List.sum_nil,
      List.mem_singleton, add_zero] at *
    have hi := abs_nonneg (q i)
    obtain ⟨l1, l2⟩ := hl (fun i hi => hq i (.inl hi)) (by linarith)
    have r2 := hq i (.inr rfl)
    refine ⟨?_, l2.add r2⟩
    rw [l1]
    refine ρ.exact (l2.add r2) hg (le_trans ?_ h)
    exact (abs_add_le _ _).trans (add_le_add (abs_map_sum _ _) le_rfl)

theorem DotOrder.mono {p : ℕ} {e : ℤ} (ρ : Nearest p e) (q q' : ℕ → ℝ) (o : DotOrder) (hq : ∀ i ∈ o.indices, q i ≤ q' i) :
    o.eval ρ.fl q ≤ o.eval ρ.fl q' := by
  induction o with
  | product i => exact ρ.mono (hq i (by simp [DotOrder.indices]))
  | sum l r hl hr =>
    exact ρ.mono (add_le_add (hl fun i hi => hq i (by simp [DotOrder.indices, hi])) (hr fun i hi => hq i (by simp [DotOrder.indices, hi])))
  | fused l i hl =>
    exact ρ.mono (add_le_add (hl fun i hi => hq i (by simp [DotOrder.indices, hi])) (hq i (by simp [DotOrder.indices])))

end Verif.Spec
