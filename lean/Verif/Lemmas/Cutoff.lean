import Mathlib.Analysis.Calculus.MeanValue
import Mathlib.Analysis.SpecialFunctions.Sqrt
import Mathlib.Analysis.SpecialFunctions.Exp
import Mathlib.Analysis.Complex.ExponentialBounds

/- The gain of a Butterworth design as a function of the scale factor of the search, and the convergence of the search (C88). -/

namespace Verif

/-- The gain of `c` instances of order `n` at the design frequency. -/
noncomputable def bw.gain (K : ℝ) (n c : ℕ) (s : ℝ) : ℝ := (1 / Real.sqrt (1 + (K / s) ^ (2 * n))) ^ c

/-- Its derivative. -/
noncomputable def bw.slope (K : ℝ) (n c : ℕ) (s : ℝ) : ℝ := c * n / s * bw.gain K n c s * (1 - (1 / Real.sqrt (1 + (K / s) ^ (2 * n))) ^ 2)

theorem bw.pos (K s : ℝ) (n : ℕ) : 0 < 1 + (K / s) ^ (2 * n) := by
  have : 0 ≤ (K / s) ^ (2 * n) := by rw [pow_mul]; positivity
  linarith

theorem bw.hasDerivAt (K : ℝ) (n c : ℕ) (hn : 0 < n) (s : ℝ) (hs : 0 < s) : HasDerivAt (bw.gain K n c) (bw.slope K n c s) s := by
  have hr := bw.pos K s n
  have d1 : HasDerivAt (fun x : ℝ => K / x) (-K / s ^ 2) s := by
    have := (hasDerivAt_inv hs.ne').const_mul K
    simp only [← div_eq_mul_inv] at this
    exact this.congr_deriv (by ring)
  have d2 := (d1.fun_pow (2 * n)).const_add 1
  have d3 := (d2.sqrt hr.ne').fun_inv (Real.sqrt_pos.mpr hr).ne'
  have d4 := d3.fun_pow c
  have e : bw.gain K n c = fun x => ((Real.sqrt (1 + (K / x) ^ (2 * n)))⁻¹) ^ c := by
    funext x; unfold bw.gain; rw [one_div]
  rw [e]
  refine d4.congr_deriv ?_
  unfold bw.slope bw.gain
  rw [one_div]
  obtain ⟨m, hm⟩ : ∃ m, 2 * n = m + 1 := ⟨2 * n - 1, by omega⟩
  have hsq : Real.sqrt (1 + (K / s) ^ (2 * n)) ^ 2 = 1 + (K / s) ^ (2 * n) := Real.sq_sqrt hr.le
  have hq := (Real.sqrt_pos.mpr hr).ne'
  have hpow : (K / s) ^ (2 * n) = (K / s) ^ (2 * n - 1) * (K / s) := by
    rw [hm, Nat.add_sub_cancel, pow_succ]
  set q := Real.sqrt (1 + (K / s) ^ (2 * n)) with hqd
  have key : ((2 * n : ℕ) : ℝ) * (K / s) ^ (2 * n - 1) * (-K / s ^ 2) = -(2 * n / s) * (q ^ 2 - 1) := by
    rw [hsq, hpow]; push_cast; field_simp; ring
  rw [key]
  cases c with
  | zero => simp
  | succ c =>
    simp only [Nat.add_sub_cancel, pow_succ]
    push_cast
    field_simp

theorem bw.unit (K s : ℝ) (n : ℕ) : 0 < 1 / Real.sqrt (1 + (K / s) ^ (2 * n)) ∧ 1 / Real.sqrt (1 + (K / s) ^ (2 * n)) ≤ 1 := by
  have h : 1 ≤ 1 + (K / s) ^ (2 * n) := by
    have : 0 ≤ (K / s) ^ (2 * n) := by rw [pow_mul]; positivity
    linarith
  have h1 : 1 ≤ Real.sqrt (1 + (K / s) ^ (2 * n)) := by rw [Real.one_le_sqrt]; exact h
  exact ⟨by positivity, by rw [div_le_one (by linarith)]; exact h1⟩

theorem bw.gain_pos (K : ℝ) (n c : ℕ) (s : ℝ) : 0 < bw.gain K n c s := pow_pos (bw.unit K s n).1 c

theorem bw.slope_nonneg (K : ℝ) (n c : ℕ) (s : ℝ) (hs : 0 < s) : 0 ≤ bw.slope K n c s := by
  obtain ⟨h1, h2⟩ := bw.unit K s n
  have h3 := bw.gain_pos K n c s
  unfold bw.slope
  have : 0 ≤ 1 - (1 / Real.sqrt (1 + (K / s) ^ (2 * n))) ^ 2 := by nlinarith
  positivity

theorem bw.slope_le (K : ℝ) (n c : ℕ) (s : ℝ) (hs : 1 ≤ s) : bw.slope K n c s ≤ n := by
  obtain ⟨h1, h2⟩ := bw.unit K s n
  unfold bw.slope bw.gain
  set q := 1 / Real.sqrt (1 + (K / s) ^ (2 * n))
  -- c q ^ c (1 - q²) ≤ 1
  have hy : (c : ℝ) * q ^ c * (1 - q ^ 2) ≤ 1 := by
    set y : ℝ := c * (1 - q ^ 2) with hyd
    have hq2 : q ^ 2 ≤ Real.exp (-(1 - q ^ 2)) := by
      have := Real.add_one_le_exp (-(1 - q ^ 2)); linarith
    have hqe : q ≤ Real.exp (-(1 - q ^ 2) / 2) := by
      have : q ^ 2 ≤ Real.exp (-(1 - q ^ 2) / 2) ^ 2 := by
        rw [← Real.exp_nat_mul]; convert hq2 using 2; push_cast; ring
      exact (pow_le_pow_iff_left₀ h1.le (Real.exp_pos _).le two_ne_zero).mp this
    have hqc : q ^ c ≤ Real.exp (-(y / 2)) := by
      calc q ^ c ≤ Real.exp (-(1 - q ^ 2) / 2) ^ c := pow_le_pow_left₀ h1.le hqe c
        _ = _ := by rw [← Real.exp_nat_mul]; congr 1; rw [hyd]; ring
    have hy0 : 0 ≤ y := mul_nonneg (Nat.cast_nonneg _) (by nlinarith)
    have hb : y * Real.exp (-(y / 2)) ≤ 1 := by
      have e1 := Real.add_one_le_exp (y / 2 - 1)
      have e2 : Real.exp (y / 2 - 1) = Real.exp (y / 2) * Real.exp (-1) := by rw [← Real.exp_add]; congr 1
      have e3 : Real.exp (-1) ≤ 1 / 2 := by
        rw [Real.exp_neg]
        have := Real.exp_one_gt_d9
        rw [← one_div]
        exact one_div_le_one_div_of_le (by norm_num) (by linarith)
      have e4 : y ≤ Real.exp (y / 2) := by
        have := (Real.exp_pos (y / 2))
        nlinarith
      rw [Real.exp_neg, ← div_eq_mul_inv, div_le_one (Real.exp_pos _)]
      exact e4
    calc (c : ℝ) * q ^ c * (1 - q ^ 2) = y * q ^ c := by rw [hyd]; ring
      _ ≤ y * Real.exp (-(y / 2)) := mul_le_mul_of_nonneg_left hqc hy0
      _ ≤ 1 := hb
  have hsn : (n : ℝ) / s ≤ n := div_le_self (Nat.cast_nonneg _) hs
  calc (c : ℝ) * n / s * q ^ c * (1 - q ^ 2) = (n : ℝ) / s * (c * q ^ c * (1 - q ^ 2)) := by ring
    _ ≤ (n : ℝ) / s * 1 := mul_le_mul_of_nonneg_left hy (by positivity)
    _ ≤ n := by rw [mul_one]; exact hsn

theorem bw.slope_ge (K : ℝ) (n c : ℕ) (s S p : ℝ) (hs : 0 < s) (hS : s ≤ S) (hp : 0 ≤ p) (h1 : p ≤ bw.gain K n c s) (h2 : bw.gain K n c s ≤ 1 / Real.sqrt 2) :
    n * p / (2 * S) ≤ bw.slope K n c s := by
  obtain ⟨q1, q2⟩ := bw.unit K s n
  unfold bw.slope
  unfold bw.gain at *
  set q := 1 / Real.sqrt (1 + (K / s) ^ (2 * n))
  have hb : 1 + (c : ℝ) * (-(1 - q ^ 2)) ≤ (1 + -(1 - q ^ 2)) ^ c := one_add_mul_le_pow (by nlinarith) c
  have hq : (1 + -(1 - q ^ 2)) ^ c ≤ 1 / 2 := by
    have e : (1 + -(1 - q ^ 2)) ^ c = (q ^ c) ^ 2 := by rw [← pow_mul, mul_comm c 2, pow_mul]; ring
    rw [e]
    have h3 := pow_le_pow_left₀ (pow_pos q1 c).le h2 2
    have h4 : (1 / Real.sqrt 2) ^ 2 = (1 : ℝ) / 2 := by rw [div_pow, Real.sq_sqrt (by norm_num), one_pow]
    rwa [h4] at h3
  have hc : 1 / 2 ≤ (c : ℝ) * (1 - q ^ 2) := by linarith
  have hSp : 0 < S := lt_of_lt_of_le hs hS
  calc n * p / (2 * S) = n / S * p * (1 / 2) := by field_simp
    _ ≤ n / s * q ^ c * (c * (1 - q ^ 2)) := by
      apply mul_le_mul _ hc (by norm_num) (by positivity)
      apply mul_le_mul _ h1 hp (by positivity)
      exact div_le_div_of_nonneg_left (Nat.cast_nonneg _) hs hS
    _ = _ := by ring

/-- A correction loop for an increasing function. -/
theorem search_converges (φ : ℝ → ℝ) (g ρ m L S low : ℝ) (s : ℕ → ℝ) (hρ : 0 < ρ) (hm : 0 ≤ m) (hmL : m ≤ L) (hL : ρ * L ≤ 1) (hlow : low ≤ 1) (hS : 1 ≤ S) (hφ : φ S = g)
    (hlo : ∀ x y, 1 ≤ x → x ≤ y → y ≤ S → m * (y - x) ≤ φ y - φ x) (hhi : ∀ x y, 1 ≤ x → x ≤ y → y ≤ S → φ y - φ x ≤ L * (y - x))
    (h0 : s 0 = 1) (hs : ∀ k, s (k + 1) = max (s k + ρ * (g - φ (s k))) low) (k : ℕ) :
    1 ≤ s k ∧ s k ≤ S ∧ 0 ≤ g - φ (s k) ∧ g - φ (s k) ≤ (1 - ρ * m) ^ k * (g - φ 1) := by
  induction k with
  | zero =>
    have := hlo 1 S le_rfl hS le_rfl
    rw [h0]
    refine ⟨le_rfl, hS, ?_, by simp⟩
    rw [← hφ]
    have : 0 ≤ m * (S - 1) := mul_nonneg hm (by linarith)
    linarith
  | succ k ih =>
    obtain ⟨i1, i2, i3, i4⟩ := ih
    have hstep : 0 ≤ ρ * (g - φ (s k)) := mul_nonneg hρ.le i3
    have e : s (k + 1) = s k + ρ * (g - φ (s k)) := by rw [hs k]; exact max_eq_left (by linarith)
    have hup : s (k + 1) ≤ S := by
      rw [e]
      have h1 := hhi (s k) S i1 i2 le_rfl
      rw [hφ] at h1
      have h2 : ρ * (g - φ (s k)) ≤ ρ * (L * (S - s k)) := mul_le_mul_of_nonneg_left h1 hρ.le
      have h3 : ρ * (L * (S - s k)) ≤ S - s k := by
        have := mul_le_mul_of_nonneg_right hL (by linarith : 0 ≤ S - s k)
        linarith
      linarith
    have hge : s k ≤ s (k + 1) := by rw [e]; linarith
    have h1 := hlo (s (k + 1)) S (by linarith) hup le_rfl
    have h2 := hlo (s k) (s (k + 1)) i1 hge hup
    have h3 : m * (s (k + 1) - s k) = ρ * m * (g - φ (s k)) := by rw [e]; ring
    rw [h3] at h2
    have hnn : 0 ≤ g - φ (s (k + 1)) := by
      have : 0 ≤ m * (S - s (k + 1)) := mul_nonneg hm (by linarith)
      rw [hφ] at h1
      linarith
    refine ⟨by linarith, hup, hnn, ?_⟩
    have hc : 0 ≤ 1 - ρ * m := by
      have := mul_le_mul_of_nonneg_left hmL hρ.le
      linarith
    calc g - φ (s (k + 1)) ≤ (1 - ρ * m) * (g - φ (s k)) := by linarith
      _ ≤ (1 - ρ * m) * ((1 - ρ * m) ^ k * (g - φ 1)) := mul_le_mul_of_nonneg_left i4 hc
      _ = _ := by ring

theorem bw.lower (K : ℝ) (n c : ℕ) (hn : 0 < n) (S m : ℝ) (hm : ∀ x, 1 ≤ x → x ≤ S → m ≤ bw.slope K n c x) (x y : ℝ) (hx : 1 ≤ x) (hxy : x ≤ y) (hy : y ≤ S) :
    m * (y - x) ≤ bw.gain K n c y - bw.gain K n c x := by
  have hd : ∀ z, 1 ≤ z → HasDerivAt (bw.gain K n c) (bw.slope K n c z) z := fun z hz => bw.hasDerivAt K n c hn z (by linarith)
  refine (convex_Icc (1 : ℝ) S).mul_sub_le_image_sub_of_le_deriv (fun z hz => (hd z hz.1).continuousAt.continuousWithinAt) ?_ ?_ x ⟨hx, by linarith⟩ y ⟨by linarith, hy⟩ hxy
  · intro z hz
    exact (hd z (interior_subset hz).1).differentiableAt.differentiableWithinAt
  · intro z hz
    have := interior_subset hz
    rw [(hd z this.1).deriv]
    exact hm z this.1 this.2

theorem bw.upper (K : ℝ) (n c : ℕ) (hn : 0 < n) (S m : ℝ) (hm : ∀ x, 1 ≤ x → x ≤ S → bw.slope K n c x ≤ m) (x y : ℝ) (hx : 1 ≤ x) (hxy : x ≤ y) (hy : y ≤ S) :
    bw.gain K n c y - bw.gain K n c x ≤ m * (y - x) := by
  have hd : ∀ z, 1 ≤ z → HasDerivAt (bw.gain K n c) (bw.slope K n c z) z := fun z hz => bw.hasDerivAt K n c hn z (by linarith)
  refine (convex_Icc (1 : ℝ) S).image_sub_le_mul_sub_of_deriv_le (fun z hz => (hd z hz.1).continuousAt.continuousWithinAt) ?_ ?_ x ⟨hx, by linarith⟩ y ⟨by linarith, hy⟩ hxy
  · intro z hz
    exact (hd z (interior_subset hz).1).differentiableAt.differentiableWithinAt
  · intro z hz
    have := interior_subset hz
    rw [(hd z this.1).deriv]
    exact hm z this.1 this.2

/-- Convergence of the scale factors of the search: the deviation is never negative and falls geometrically. -/
theorem bw.converges (K σ ρ low : ℝ) (n c : ℕ) (hn : 0 < n) (hc : 0 < c) (hK : 1 ≤ K) (hσ : 1 ≤ σ) (hσc : (1 + 1 / σ ^ (2 * n)) ^ c ≤ 2) (hρ : 0 < ρ) (hρn : ρ * n ≤ 1)
    (hlow : low ≤ 1) (s : ℕ → ℝ) (h0 : s 0 = 1) (hs : ∀ k, s (k + 1) = max (s k + ρ * (1 / Real.sqrt 2 - bw.gain K n c (s k))) low) (k : ℕ) :
    0 ≤ 1 / Real.sqrt 2 - bw.gain K n c (s k) ∧
      1 / Real.sqrt 2 - bw.gain K n c (s k) ≤ (1 - ρ * (n * bw.gain K n c 1 / (2 * (σ * K)))) ^ k * (1 / Real.sqrt 2 - bw.gain K n c 1) := by
  have h2 : 0 < Real.sqrt 2 := Real.sqrt_pos.mpr (by norm_num)
  have hd : ∀ z, 1 ≤ z → HasDerivAt (bw.gain K n c) (bw.slope K n c z) z := fun z hz => bw.hasDerivAt K n c hn z (by linarith)
  have hσK : 1 ≤ σ * K := one_le_mul_of_one_le_of_one_le hσ hK
  -- the gain at the first scale factor
  have a1 : bw.gain K n c 1 ≤ 1 / Real.sqrt 2 := by
    unfold bw.gain
    have hq : 1 / Real.sqrt (1 + (K / 1) ^ (2 * n)) ≤ 1 / Real.sqrt 2 := by
      apply one_div_le_one_div_of_le h2
      apply Real.sqrt_le_sqrt
      rw [div_one]
      have := one_le_pow₀ hK (n := 2 * n)
      linarith
    obtain ⟨u1, u2⟩ := bw.unit K 1 n
    calc _ ≤ (1 / Real.sqrt (1 + (K / 1) ^ (2 * n))) ^ 1 := pow_le_pow_of_le_one u1.le u2 hc
      _ ≤ _ := by rw [pow_one]; exact hq
  have a2 : 1 / Real.sqrt 2 ≤ bw.gain K n c (σ * K) := by
    unfold bw.gain
    have e : K / (σ * K) = 1 / σ := by field_simp
    rw [e, one_div_pow, div_pow, one_pow]
    have hp : 0 < Real.sqrt (1 + 1 / σ ^ (2 * n)) ^ c := by
      have : 0 < 1 / σ ^ (2 * n) := by positivity
      exact pow_pos (Real.sqrt_pos.mpr (by linarith)) c
    apply one_div_le_one_div_of_le hp
    apply Real.le_sqrt_of_sq_le
    rw [← pow_mul, mul_comm c 2, pow_mul, Real.sq_sqrt (by positivity)]
    exact hσc
  obtain ⟨S, ⟨hS1, hS2⟩, hS⟩ : 1 / Real.sqrt 2 ∈ bw.gain K n c '' Set.Icc 1 (σ * K) :=
    intermediate_value_Icc hσK (fun z hz => (hd z hz.1).continuousAt.continuousWithinAt) ⟨a1, a2⟩
  have hmono := bw.lower K n c hn S 0 (fun x hx _ => bw.slope_nonneg K n c x (by linarith))
  have hp : 0 < bw.gain K n c 1 := bw.gain_pos K n c 1
  have hp1 : bw.gain K n c 1 ≤ 1 := by
    obtain ⟨u1, u2⟩ := bw.unit K 1 n
    exact pow_le_one₀ u1.le u2
  have hconv := search_converges (bw.gain K n c) (1 / Real.sqrt 2) ρ (n * bw.gain K n c 1 / (2 * (σ * K))) n S low s hρ (by positivity) ?_ hρn hlow hS1 hS
    (bw.lower K n c hn S _ ?_) (bw.upper K n c hn S n (fun x hx _ => bw.slope_le K n c x hx)) h0 hs k
  · exact ⟨hconv.2.2.1, hconv.2.2.2⟩
  · rw [div_le_iff₀ (by positivity)]
    have hnn : (0 : ℝ) ≤ n := Nat.cast_nonneg n
    nlinarith [mul_le_mul_of_nonneg_left hp1 hnn, mul_le_mul_of_nonneg_left hσK hnn]
  · intro x hx hxS
    have m1 := hmono 1 x le_rfl hx hxS
    have m2 := hmono x S hx hxS le_rfl
    rw [zero_mul] at m1 m2
    exact bw.slope_ge K n c x (σ * K) _ (by linarith) (by linarith) hp.le (by linarith) (by rw [← hS]; linarith)

end Verif
