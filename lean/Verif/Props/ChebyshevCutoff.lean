import Verif.Props.Chebyshev
import Mathlib.Topology.Order.IntermediateValue

/- Property C108: the response of the Chebyshev designs of IirFilter at the design frequency (diamondback/filters/iir_filter.py:160-254): where the
correction of the frequency reaches -3 dB, and where it does not. -/

namespace Verif.Props

open Finset Spec

/-- The outcome of the search of any design at its own frequency. -/
theorem design_search (residue : List ℝ → List ℝ → List ℂ × List ℂ) (hres : ResidueSpec residue) (style : IStyle) (f : ℝ) (hf : 0 < f)
    (hf1 : f < 1) (order count : ℤ) (ho : 0 < order) (hcount : 0 < count) (complement : Bool) (gain f' : ℝ) (hf' : f' = if complement then 1 - f else f)
    (s : ℕ → ℝ) (G : ℝ → ℝ) (hs : Scales (fun x => 1 / Real.sqrt 2 - G x ^ count.toNat) (if order > 8 ∨ (order > 6 ∧ count > 1) then 0.015 else 0.03) (1 / 2 ^ 52) s)
    (hG : ∀ x a b, 0 < x → iir.evaluate residue style (x * f') order.toNat = .ok (a, b) → G x = ‖freqResp a b f'‖) :
    ∃ g n k, Iir.newDesign residue (some style) f order count complement gain none = .ok g ∧ 1 ≤ n ∧ n ≤ 500 ∧
      (n = 500 ∨ |1 / Real.sqrt 2 - G (s (n - 1)) ^ count.toNat| < 10e3 / 2 ^ 52) ∧
      FirstBest (fun x => 1 / Real.sqrt 2 - G x ^ count.toNat) s n k ∧ 0 < s k ∧ ‖freqResp g.a g.b f‖ = |gain| * G (s k) := by
  have hf0 : 0 < f' := by rw [hf']; split <;> linarith
  have hpos : ∀ x, 0 < x * f' → 0 < x := fun x h => by
    by_contra hn
    push Not at hn
    nlinarith
  obtain ⟨n, k, a, b, h1, h2, h3, -, h5, h6, h7⟩ := C15_iir_design_best residue hres style f hf hf1 order count ho hcount complement gain s _ hs
    (by
      intro x a b h
      rw [← hf'] at h ⊢
      rw [hG x a b (hpos x (evaluate_pos residue _ _ _ a b h)) h])
  rw [← hf'] at h6
  obtain ⟨a'', b'', q1, q2, q3, q4, -⟩ := iir.design_spec residue hres style f hf hf1 order count ho hcount complement gain
  rw [h7] at q1
  simp only [Except.ok.injEq, Prod.mk.injEq] at q1
  obtain ⟨q5, q6⟩ := q1
  have hane : a'' ≠ [] := by intro h; rw [h] at q3; simp at q3; omega
  obtain ⟨g', p1, p2, p3, p4, p5⟩ := Iir.new_spec (id : ℝ → ℝ) a'' b'' none (Or.inl hane) q2
  have hl : a''.length = b''.length := by omega
  have ha : g'.a = a'' := by rw [p3, hl]; simp [padTo, hl]
  have hb : g'.b = b'' := by rw [p4, hl]; simp [padTo]
  have hsk : 0 < s k := hpos _ (evaluate_pos residue _ _ _ a b h6)
  refine ⟨g', n, k, ?_, h1, h2, h3, h5, hsk, ?_⟩
  · unfold Iir.newDesign
    rw [h7]
    simp only
    rw [q5, q6]
    convert p1
  · rw [hG _ a b hsk h6, ha, hb, ← q5, ← q6, hf']
    cases complement with
    | false =>
      simp only [Bool.false_eq_true, if_false]
      unfold freqResp
      rw [dtft_scale, mul_div_assoc, norm_mul, Complex.norm_real, Real.norm_eq_abs]
    | true =>
      simp only [if_true]
      rw [← freqResp_neg a b (1 - f)]
      unfold freqResp
      have e : f = 1 - (1 - f) := by ring
      conv_lhs => rw [e]
      rw [dtft_scale, dtft_alternate, dtft_alternate, mul_div_assoc, norm_mul, Complex.norm_real, Real.norm_eq_abs]

/-- A search which approaches from above without passing the solution `σ`. -/
theorem descend (R : ℝ → ℝ) (s : ℕ → ℝ) (σ c ρ ε : ℝ) (hρ : 0 ≤ ρ) (hs : Scales (fun x => c - R x) ρ ε s) (hσε : ε ≤ σ) (hσ : σ ≤ 1)
    (hlow : ∀ x, σ ≤ x → x ≤ 1 → c ≤ R x) (hover : ∀ x, σ ≤ x → x ≤ 1 → ρ * (R x - c) ≤ x - σ) (k : ℕ) :
    σ ≤ s k ∧ s k ≤ 1 ∧ s (k + 1) = s k - ρ * (R (s k) - c) := by
  have step : ∀ k, σ ≤ s k → s k ≤ 1 → s (k + 1) = s k - ρ * (R (s k) - c) := by
    intro k h1 h2
    rw [hs.2 k, max_eq_left]
    · ring
    · have := hover _ h1 h2
      simp only
      linarith
  induction k with
  | zero => exact ⟨by rw [hs.1]; exact hσ, hs.1.le, step 0 (by rw [hs.1]; exact hσ) hs.1.le⟩
  | succ k ih =>
    obtain ⟨i1, i2, i3⟩ := ih
    have h1 : σ ≤ s (k + 1) := by have := hover _ i1 i2; linarith
    have h2 : s (k + 1) ≤ 1 := by
      have := hlow _ i1 i2
      have : 0 ≤ ρ * (R (s k) - c) := mul_nonneg hρ (by linarith)
      linarith
    exact ⟨h1, h2, step _ h1 h2⟩

/-- The convergence of such a search: first the deviation falls below `δ`, within `N` steps, then it shrinks by a constant factor. -/
theorem descend_rate (R : ℝ → ℝ) (s : ℕ → ℝ) (σ c ρ ε δ w : ℝ) (N : ℕ) (hρ : 0 ≤ ρ) (hs : Scales (fun x => c - R x) ρ ε s) (hσε : ε ≤ σ) (hσ0 : 0 < σ) (hσ : σ ≤ 1)
    (hlow : ∀ x, σ ≤ x → x ≤ 1 → c ≤ R x) (hover : ∀ x, σ ≤ x → x ≤ 1 → ρ * (R x - c) ≤ x - σ) (hw0 : 0 ≤ w) (hw1 : w ≤ 1)
    (hcontr : ∀ x, σ ≤ x → x ≤ 1 → R x ≤ c + δ → R (x - ρ * (R x - c)) - c ≤ (1 - w) * (R x - c)) (hN : 1 ≤ N * (ρ * δ)) (k : ℕ) :
    R (s (N + k)) - c ≤ δ * (1 - w) ^ k := by
  have hd := descend R s σ c ρ ε hρ hs hσε hσ hlow hover
  have hstep : ∀ j, R (s j) ≤ c + δ → R (s (j + 1)) - c ≤ (1 - w) * (R (s j) - c) := by
    intro j hj
    rw [(hd j).2.2]
    exact hcontr _ (hd j).1 (hd j).2.1 hj
  have hstay : ∀ j, R (s j) ≤ c + δ → R (s (j + 1)) ≤ c + δ := by
    intro j hj
    have := hstep j hj
    have h0 := hlow _ (hd j).1 (hd j).2.1
    nlinarith
  have hfirst : ∃ j ≤ N, R (s j) ≤ c + δ := by
    by_contra hcon
    push Not at hcon
    have : ∀ j ≤ N, s j ≤ 1 - j * (ρ * δ) := by
      intro j hj
      induction j with
      | zero => rw [hs.1]; simp
      | succ j ih =>
        have i := ih (by omega)
        have c1 := hcon j (by omega)
        rw [(hd j).2.2]
        have : ρ * δ ≤ ρ * (R (s j) - c) := mul_le_mul_of_nonneg_left (by linarith) hρ
        push_cast
        linarith
    have h1 := this N le_rfl
    have h2 := (hd N).1
    linarith
  have hall : R (s N) ≤ c + δ := by
    obtain ⟨j, hj, h⟩ := hfirst
    have : ∀ i, R (s (j + i)) ≤ c + δ := by
      intro i
      induction i with
      | zero => exact h
      | succ i ih => exact hstay _ ih
    have := this (N - j)
    rwa [Nat.add_sub_cancel' hj] at this
  have hboth : R (s (N + k)) ≤ c + δ ∧ R (s (N + k)) - c ≤ δ * (1 - w) ^ k := by
    induction k with
    | zero => exact ⟨hall, by rw [pow_zero]; simp only [Nat.add_zero]; linarith⟩
    | succ k ih =>
      refine ⟨hstay _ ih.1, ?_⟩
      have := hstep _ ih.1
      rw [← Nat.add_assoc, pow_succ]
      have h2 : (1 - w) * (R (s (N + k)) - c) ≤ (1 - w) * (δ * (1 - w) ^ k) := mul_le_mul_of_nonneg_left ih.2 (by linarith)
      linarith
  exact hboth.2

theorem ripple_bounds : (0.0292 : ℝ) < (10 : ℝ) ^ (0.0125 : ℝ) - 1 ∧ (10 : ℝ) ^ (0.0125 : ℝ) - 1 < 0.029201 := by
  have h : ((10 : ℝ) ^ (0.0125 : ℝ)) ^ 80 = 10 := by
    rw [← Real.rpow_natCast, ← Real.rpow_mul (by norm_num)]
    norm_num
  have h0 : 0 < (10 : ℝ) ^ (0.0125 : ℝ) := by positivity
  constructor
  · have : (1.0292 : ℝ) < (10 : ℝ) ^ (0.0125 : ℝ) := by
      rw [← pow_lt_pow_iff_left₀ (by norm_num) h0.le (show (80 : ℕ) ≠ 0 by norm_num), h]
      norm_num
    linarith
  · have : (10 : ℝ) ^ (0.0125 : ℝ) < (1.029201 : ℝ) := by
      rw [← pow_lt_pow_iff_left₀ h0.le (by norm_num) (show (80 : ℕ) ≠ 0 by norm_num), h]
      norm_num
    linarith

/-- The Chebyshev polynomials of the orders 1 to 5. -/
theorem cheb_table (x : ℝ) :
    (Polynomial.Chebyshev.T ℝ (1 : ℕ)).eval x = x ∧ (Polynomial.Chebyshev.T ℝ (2 : ℕ)).eval x = 2 * x ^ 2 - 1 ∧
    (Polynomial.Chebyshev.T ℝ (3 : ℕ)).eval x = 4 * x ^ 3 - 3 * x ∧ (Polynomial.Chebyshev.T ℝ (4 : ℕ)).eval x = 8 * x ^ 4 - 8 * x ^ 2 + 1 ∧
    (Polynomial.Chebyshev.T ℝ (5 : ℕ)).eval x = 16 * x ^ 5 - 20 * x ^ 3 + 5 * x := by
  have r : ∀ n : ℤ, (Polynomial.Chebyshev.T ℝ (n + 2)).eval x = 2 * x * (Polynomial.Chebyshev.T ℝ (n + 1)).eval x - (Polynomial.Chebyshev.T ℝ n).eval x := by
    intro n
    rw [Polynomial.Chebyshev.T_add_two]
    simp
  have h0 : (Polynomial.Chebyshev.T ℝ 0).eval x = 1 := by simp
  have h1 : (Polynomial.Chebyshev.T ℝ 1).eval x = x := by simp
  have h2 := r 0
  have h3 := r 1
  have h4 := r 2
  have h5 := r 3
  norm_num at h2 h3 h4 h5
  have e1 : ((1 : ℕ) : ℤ) = 1 := rfl
  have e2 : ((2 : ℕ) : ℤ) = 2 := rfl
  have e3 : ((3 : ℕ) : ℤ) = 3 := rfl
  have e4 : ((4 : ℕ) : ℤ) = 4 := rfl
  have e5 : ((5 : ℕ) : ℤ) = 5 := rfl
  rw [e1, e2, e3, e4, e5]
  refine ⟨h1, ?_, ?_, ?_, ?_⟩
  · rw [h2]; ring
  · rw [h3, h2]; ring
  · rw [h4, h3, h2]; ring
  · rw [h5, h4, h3, h2]; ring

theorem cheb_grows (n : ℕ) (hn : 0 < n) (hn5 : n ≤ 5) (x l : ℝ) (hx : 1 ≤ x) (hl : 1 ≤ l) :
    l * (Polynomial.Chebyshev.T ℝ n).eval x ≤ (Polynomial.Chebyshev.T ℝ n).eval (l * x) := by
  obtain ⟨a1, a2, a3, a4, a5⟩ := cheb_table x
  obtain ⟨b1, b2, b3, b4, b5⟩ := cheb_table (l * x)
  have hl0 : 0 ≤ l - 1 := by linarith
  have hx2 : 0 ≤ x ^ 2 - 1 := by nlinarith
  have hl2 : 0 ≤ l ^ 2 - 1 := by nlinarith
  interval_cases n
  · rw [a1, b1]
  · rw [a2, b2]
    have : 2 * (l * x) ^ 2 - 1 - l * (2 * x ^ 2 - 1) = (l - 1) * (2 * l * (x ^ 2 - 1) + 2 * (l - 1) + 3) := by ring
    have : 0 ≤ (l - 1) * (2 * l * (x ^ 2 - 1) + 2 * (l - 1) + 3) := by positivity
    linarith
  · rw [a3, b3]
    have : 4 * (l * x) ^ 3 - 3 * (l * x) - l * (4 * x ^ 3 - 3 * x) = 4 * l * x ^ 3 * (l ^ 2 - 1) := by ring
    have : 0 ≤ 4 * l * x ^ 3 * (l ^ 2 - 1) := by positivity
    linarith
  · rw [a4, b4]
    have e : 8 * (l * x) ^ 4 - 8 * (l * x) ^ 2 + 1 - l * (8 * x ^ 4 - 8 * x ^ 2 + 1) =
      (l - 1) * (8 * l * x ^ 2 * ((l ^ 2 + l) * x ^ 2 + (x ^ 2 - 1)) - 1) := by ring
    have h1 : 1 ≤ l * x ^ 2 := by nlinarith
    have h2 : 1 ≤ (l ^ 2 + l) * x ^ 2 + (x ^ 2 - 1) := by nlinarith
    have h8 : 0 ≤ 8 * l * x ^ 2 * ((l ^ 2 + l) * x ^ 2 + (x ^ 2 - 1)) - 1 := by nlinarith
    have := mul_nonneg hl0 h8
    linarith
  · rw [a5, b5]
    have e : 16 * (l * x) ^ 5 - 20 * (l * x) ^ 3 + 5 * (l * x) - l * (16 * x ^ 5 - 20 * x ^ 3 + 5 * x) =
      l * x ^ 3 * (l ^ 2 - 1) * (16 * (l ^ 2 + 1) * (x ^ 2 - 1) + 16 * (l ^ 2 - 1) + 12) := by ring
    have : 0 ≤ l * x ^ 3 * (l ^ 2 - 1) * (16 * (l ^ 2 + 1) * (x ^ 2 - 1) + 16 * (l ^ 2 - 1) + 12) := by positivity
    linarith

/-- The cut-off of the Chebyshev response, from a bracket `1.07 … h` and a bound of the slope of the polynomial. -/
theorem cheb_cut (n : ℕ) (h B e : ℝ) (hh : 1.07 ≤ h) (hh6 : h ≤ 6)
    (h1 : ((10 : ℝ) ^ (0.0125 : ℝ) - 1) * ((Polynomial.Chebyshev.T ℝ n).eval 1.07) ^ 2 ≤ 1 + 2 * (((10 : ℝ) ^ (0.0125 : ℝ) - 1) * ((Polynomial.Chebyshev.T ℝ n).eval 0) ^ 2))
    (h2 : 1 + 2 * (((10 : ℝ) ^ (0.0125 : ℝ) - 1) * ((Polynomial.Chebyshev.T ℝ n).eval 0) ^ 2) ≤ ((10 : ℝ) ^ (0.0125 : ℝ) - 1) * ((Polynomial.Chebyshev.T ℝ n).eval h) ^ 2)
    (hB0 : 0 ≤ B) (hB : ∀ x y, 1 ≤ x → x ≤ y → y ≤ h → (Polynomial.Chebyshev.T ℝ n).eval y - (Polynomial.Chebyshev.T ℝ n).eval x ≤ B * (y - x))
    (he0 : 0 ≤ e) (he : ((10 : ℝ) ^ (0.0125 : ℝ) - 1) * (1 + 2 * (((10 : ℝ) ^ (0.0125 : ℝ) - 1) * ((Polynomial.Chebyshev.T ℝ n).eval 0) ^ 2)) ≤ e ^ 2)
    (hnum : e * B * h ^ 2 ≤ 12.42) :
    ∃ c B, 1.07 ≤ c ∧ 0 ≤ B ∧ c ≤ 6 ∧
      ((10 : ℝ) ^ (0.0125 : ℝ) - 1) * ((Polynomial.Chebyshev.T ℝ n).eval c) ^ 2 = 1 + 2 * (((10 : ℝ) ^ (0.0125 : ℝ) - 1) * ((Polynomial.Chebyshev.T ℝ n).eval 0) ^ 2) ∧
      (∀ x, 1 ≤ x → x ≤ c → (Polynomial.Chebyshev.T ℝ n).eval c - (Polynomial.Chebyshev.T ℝ n).eval x ≤ B * (c - x)) ∧
      ((10 : ℝ) ^ (0.0125 : ℝ) - 1) * (Polynomial.Chebyshev.T ℝ n).eval c * B * c ^ 2 ≤ 12.42 := by
  obtain ⟨c, ⟨c1, c2⟩, c3⟩ := intermediate_value_Icc hh (f := fun x => ((10 : ℝ) ^ (0.0125 : ℝ) - 1) * ((Polynomial.Chebyshev.T ℝ n).eval x) ^ 2) (by fun_prop) ⟨h1, h2⟩
  simp only at c3
  refine ⟨c, B, c1, hB0, by linarith, c3, fun x hx hxc => hB x c hx hxc c2, ?_⟩
  have hr := ripple_pos
  have hle : ((10 : ℝ) ^ (0.0125 : ℝ) - 1) * (Polynomial.Chebyshev.T ℝ n).eval c ≤ e := by
    apply le_of_sq_le_sq _ he0
    rw [mul_pow, sq ((10 : ℝ) ^ (0.0125 : ℝ) - 1), mul_assoc, c3]
    exact he
  refine le_trans ?_ hnum
  have hc2 : c ^ 2 ≤ h ^ 2 := pow_le_pow_left₀ (by linarith) c2 2
  exact mul_le_mul (mul_le_mul_of_nonneg_right hle hB0) hc2 (by positivity) (by positivity)

theorem cheb_cut_table (n : ℕ) (hn : 0 < n) (hn5 : n ≤ 5) :
    ∃ c B, 1.07 ≤ c ∧ 0 ≤ B ∧ c ≤ 6 ∧
      ((10 : ℝ) ^ (0.0125 : ℝ) - 1) * ((Polynomial.Chebyshev.T ℝ n).eval c) ^ 2 = 1 + 2 * (((10 : ℝ) ^ (0.0125 : ℝ) - 1) * ((Polynomial.Chebyshev.T ℝ n).eval 0) ^ 2) ∧
      (∀ x, 1 ≤ x → x ≤ c → (Polynomial.Chebyshev.T ℝ n).eval c - (Polynomial.Chebyshev.T ℝ n).eval x ≤ B * (c - x)) ∧
      ((10 : ℝ) ^ (0.0125 : ℝ) - 1) * (Polynomial.Chebyshev.T ℝ n).eval c * B * c ^ 2 ≤ 12.42 := by
  obtain ⟨r1, r2⟩ := ripple_bounds
  have z := cheb_zero_sq n
  have t7 := cheb_table 1.07
  interval_cases n
  · apply cheb_cut 1 5.853 1 0.1709 (by norm_num) (by norm_num)
    · rw [t7.1, z]; norm_num; linarith
    · rw [z, (cheb_table _).1]; norm_num; linarith
    · norm_num
    · intro x y _ _ _
      rw [(cheb_table x).1, (cheb_table y).1]; linarith
    · norm_num
    · rw [z]; norm_num; linarith
    · norm_num
  · apply cheb_cut 2 1.875 (4 * 1.875) 0.1759 (by norm_num) (by norm_num)
    · rw [t7.2.1, z]; norm_num; linarith
    · rw [z, (cheb_table _).2.1]; norm_num; linarith
    · norm_num
    · intro x y h1 h2 h3
      rw [(cheb_table x).2.1, (cheb_table y).2.1]
      have : 0 ≤ (y - x) * (2 * (2 * 1.875 - x - y)) := mul_nonneg (by linarith) (by linarith)
      linarith
    · norm_num
    · rw [z]; norm_num; nlinarith
    · norm_num
  · apply cheb_cut 3 1.354 (12 * 1.354 ^ 2 - 3) 0.1709 (by norm_num) (by norm_num)
    · rw [t7.2.2.1, z]; norm_num; linarith
    · rw [z, (cheb_table _).2.2.1]; norm_num; linarith
    · norm_num
    · intro x y h1 h2 h3
      rw [(cheb_table x).2.2.1, (cheb_table y).2.2.1]
      have e1 : x ^ 2 ≤ 1.354 ^ 2 := pow_le_pow_left₀ (by linarith) (by linarith) 2
      have e2 : y ^ 2 ≤ 1.354 ^ 2 := pow_le_pow_left₀ (by linarith) (by linarith) 2
      have e3 : x * y ≤ 1.354 ^ 2 := by nlinarith
      have : 0 ≤ (y - x) * (4 * (3 * 1.354 ^ 2 - x ^ 2 - x * y - y ^ 2)) := mul_nonneg (by linarith) (by linarith)
      linarith
    · norm_num
    · rw [z]; norm_num; linarith
    · norm_num
  · apply cheb_cut 4 1.2 (32 * 1.2 ^ 3 - 16 * 1.2) 0.1759 (by norm_num) (by norm_num)
    · rw [t7.2.2.2.1, z]; norm_num; linarith
    · rw [z, (cheb_table _).2.2.2.1]; norm_num; linarith
    · norm_num
    · intro x y h1 h2 h3
      rw [(cheb_table x).2.2.2.1, (cheb_table y).2.2.2.1]
      have e1 : x ^ 2 ≤ 1.2 ^ 2 := pow_le_pow_left₀ (by linarith) (by linarith) 2
      have e2 : y ^ 2 ≤ 1.2 ^ 2 := pow_le_pow_left₀ (by linarith) (by linarith) 2
      have e3 : (x + y) * (x ^ 2 + y ^ 2 - 1) ≤ 2.4 * (2 * 1.2 ^ 2 - 1) := mul_le_mul (by linarith) (by linarith) (by nlinarith) (by norm_num)
      have : 0 ≤ (y - x) * (8 * (2.4 * (2 * 1.2 ^ 2 - 1) - (x + y) * (x ^ 2 + y ^ 2 - 1))) := mul_nonneg (by linarith) (by linarith)
      linarith
    · norm_num
    · rw [z]; norm_num; nlinarith
    · norm_num
  · apply cheb_cut 5 1.1229 (80 * 1.1229 ^ 4 - 60 * 1.1229 ^ 2 + 5) 0.1709 (by norm_num) (by norm_num)
    · rw [t7.2.2.2.2, z]; norm_num; linarith
    · rw [z, (cheb_table _).2.2.2.2]; norm_num; linarith
    · norm_num
    · intro x y h1 h2 h3
      rw [(cheb_table x).2.2.2.2, (cheb_table y).2.2.2.2]
      generalize (1.1229 : ℝ) = h at *
      have slope : ∀ a b c : ℝ, 1 ≤ a → 1 ≤ b → 1 ≤ c → 0 ≤ 16 * (a ^ 3 + a ^ 2 * b + a * b ^ 2 + b ^ 3 + c * (a ^ 2 + a * b + b ^ 2) + c ^ 2 * (a + b) + c ^ 3) - 20 * (a + b + c) := by
        intro a b c ha hb hc
        obtain ⟨p, rfl⟩ : ∃ p, a = 1 + p := ⟨a - 1, by ring⟩
        obtain ⟨q, rfl⟩ : ∃ q, b = 1 + q := ⟨b - 1, by ring⟩
        obtain ⟨r, rfl⟩ : ∃ r, c = 1 + r := ⟨c - 1, by ring⟩
        have hp : 0 ≤ p := by linarith
        have hq : 0 ≤ q := by linarith
        have hr : 0 ≤ r := by linarith
        ring_nf
        positivity
      have s1 := mul_nonneg (show 0 ≤ h - x by linarith) (slope h x y (by linarith) h1 (by linarith))
      have s2 := mul_nonneg (show 0 ≤ h - y by linarith) (slope h y h (by linarith) (by linarith) (by linarith))
      have : 0 ≤ (y - x) * ((80 * h ^ 4 - 60 * h ^ 2 + 5) - (16 * (x ^ 4 + x ^ 3 * y + x ^ 2 * y ^ 2 + x * y ^ 3 + y ^ 4) - 20 * (x ^ 2 + x * y + y ^ 2) + 5)) :=
        mul_nonneg (by linarith) (by linarith)
      linarith
    · norm_num
    · rw [z]; norm_num; linarith
    · norm_num

/-- The response at the design frequency, for the scale factor `x`. -/
noncomputable def chebGain (n : ℕ) (K x : ℝ) : ℝ := Real.sqrt (chebResponse n (K / x))

theorem chebGain_sq (n : ℕ) (K x : ℝ) : 0 ≤ chebGain n K x ∧
    chebGain n K x ^ 2 * (1 + ((10 : ℝ) ^ (0.0125 : ℝ) - 1) * ((Polynomial.Chebyshev.T ℝ n).eval (K / x)) ^ 2) = 1 + ((10 : ℝ) ^ (0.0125 : ℝ) - 1) * ((Polynomial.Chebyshev.T ℝ n).eval 0) ^ 2 := by
  have hr := ripple_pos
  refine ⟨Real.sqrt_nonneg _, ?_⟩
  have h0 : 0 < 1 + ((10 : ℝ) ^ (0.0125 : ℝ) - 1) * ((Polynomial.Chebyshev.T ℝ n).eval (K / x)) ^ 2 := by positivity
  rw [chebGain, Real.sq_sqrt (by unfold chebResponse; positivity), chebResponse, div_mul_cancel₀ _ h0.ne']

theorem cheb_abs_le (n : ℕ) (x : ℝ) (h0 : 0 ≤ x) (h1 : x ≤ 1) : ((Polynomial.Chebyshev.T ℝ n).eval x) ^ 2 ≤ 1 := by
  rw [← Real.cos_arccos (by linarith : -1 ≤ x) h1, Polynomial.Chebyshev.T_real_cos]
  exact Real.cos_sq_le_one _

theorem cheb_mono_sq (n : ℕ) (hn : 0 < n) (x y : ℝ) (h0 : 0 ≤ x) (hxy : x ≤ y) (hy : 1 ≤ y) :
    ((Polynomial.Chebyshev.T ℝ n).eval x) ^ 2 ≤ ((Polynomial.Chebyshev.T ℝ n).eval y) ^ 2 := by
  have hy1 := Polynomial.Chebyshev.one_le_eval_T_real n hy
  rcases le_or_gt x 1 with h | h
  · have := cheb_abs_le n x h0 h
    nlinarith
  · rcases hxy.eq_or_lt with rfl | hlt
    · exact le_rfl
    · have := cheb_strictMono n hn x y h.le hlt
      exact pow_le_pow_left₀ (by linarith [this.1]) this.2.le 2

theorem skirt_sum (ε T t : ℝ) (hT : 1 ≤ T) (h1 : 1 ≤ ε * T ^ 2) : T + t ≤ 1.2072 * (T * (1 + ε * t ^ 2)) := by
  have h2 : T * (T + t) ≤ T * (1.2072 * (T * (1 + ε * t ^ 2))) := by
    have e : T * (1.2072 * (T * (1 + ε * t ^ 2))) = 1.2072 * (T ^ 2 + ε * T ^ 2 * t ^ 2) := by ring
    have h3 : 1 * t ^ 2 ≤ ε * T ^ 2 * t ^ 2 := mul_le_mul_of_nonneg_right h1 (sq_nonneg t)
    have h4 : 0 ≤ 0.2071 * (T - 2.4142 * t) ^ 2 := by positivity
    have h5 : 0 ≤ T ^ 2 := sq_nonneg T
    have h6 : 0 ≤ t ^ 2 := sq_nonneg t
    rw [e]
    nlinarith
  exact le_of_mul_le_mul_left h2 (by linarith)

theorem skirt_steep (ε T t G w : ℝ) (hε : 0 ≤ ε) (hT : 1 ≤ T) (h1 : 1 ≤ ε * T ^ 2) (htT : t ≤ T) (hG : w ≤ G)
    (hGw : (G - w) * (G + w) * (2 * (1 + ε * t ^ 2)) = ε * (T ^ 2 - t ^ 2)) : (G - w) * (4 * w) ≤ 1.2072 * (ε * T) * (T - t) := by
  have hq : 0 < 1 + ε * t ^ 2 := by positivity
  have hsum := skirt_sum ε T t hT h1
  have hG0 : 0 ≤ G - w := by linarith
  apply le_of_mul_le_mul_right _ hq
  have e1 : (G - w) * (2 * (1 + ε * t ^ 2)) * (2 * w) ≤ (G - w) * (2 * (1 + ε * t ^ 2)) * (G + w) :=
    mul_le_mul_of_nonneg_left (by linarith) (by positivity)
  have e2 : ε * (T - t) * (T + t) ≤ ε * (T - t) * (1.2072 * (T * (1 + ε * t ^ 2))) :=
    mul_le_mul_of_nonneg_left hsum (mul_nonneg hε (by linarith))
  generalize 1 + ε * t ^ 2 = Q at *
  linarith

theorem skirt_step (D w c y K M : ℝ) (hD : 0 ≤ D) (hw : 0.7071 ≤ w) (hc : 1 ≤ c) (hy : 0 < y) (hyc : y ≤ c) (hK : 0.15915 ≤ K)
    (h : D * (4 * w) ≤ 1.2072 * M) (hM : M * c ^ 2 ≤ 12.42 * (c - y)) : 0.03 * D ≤ K * (1 / y - 1 / c) := by
  have h5 : D * (4 * w) * c ^ 2 ≤ 1.2072 * (M * c ^ 2) := by
    have := mul_le_mul_of_nonneg_right h (sq_nonneg c)
    linarith
  have h6 : D * c ^ 2 * (4 * 0.7071) ≤ D * c ^ 2 * (4 * w) := mul_le_mul_of_nonneg_left (by linarith) (by positivity)
  have h7 : 0.03 * D * c ^ 2 ≤ K * (c - y) := by
    have : 0.15915 * (c - y) ≤ K * (c - y) := mul_le_mul_of_nonneg_right hK (by linarith)
    linarith
  have h8 : K * (1 / y - 1 / c) = K * (c - y) / (y * c) := by field_simp
  rw [h8, le_div_iff₀ (by positivity)]
  have h9 : 0.03 * D * (y * c) ≤ 0.03 * D * c ^ 2 := by
    apply mul_le_mul_of_nonneg_left _ (by positivity)
    rw [sq]
    exact mul_le_mul_of_nonneg_right hyc (by linarith)
  linarith

/-- No step of the search passes the cut-off. -/
theorem chebGain_over (n : ℕ) (hn : 0 < n) (K c B x : ℝ) (hK : 0.15915 ≤ K) (hc : 1.07 ≤ c) (hB : 0 ≤ B)
    (hcut : ((10 : ℝ) ^ (0.0125 : ℝ) - 1) * ((Polynomial.Chebyshev.T ℝ n).eval c) ^ 2 = 1 + 2 * (((10 : ℝ) ^ (0.0125 : ℝ) - 1) * ((Polynomial.Chebyshev.T ℝ n).eval 0) ^ 2))
    (hslope : ∀ x, 1 ≤ x → x ≤ c → (Polynomial.Chebyshev.T ℝ n).eval c - (Polynomial.Chebyshev.T ℝ n).eval x ≤ B * (c - x))
    (hnum : ((10 : ℝ) ^ (0.0125 : ℝ) - 1) * (Polynomial.Chebyshev.T ℝ n).eval c * B * c ^ 2 ≤ 12.42) (hx : K / c ≤ x) :
    1 / Real.sqrt 2 ≤ chebGain n K x ∧ 0.03 * (chebGain n K x - 1 / Real.sqrt 2) ≤ x - K / c := by
  have hc0 : 0 < c := by linarith
  have hK0 : 0 < K := by linarith
  have hx0 : 0 < x := lt_of_lt_of_le (by positivity) hx
  have hyc : K / x ≤ c := by
    rw [div_le_iff₀ hx0]; rw [div_le_iff₀ hc0] at hx; linarith
  have hy0 : 0 < K / x := by positivity
  obtain ⟨r1, r2⟩ := ripple_bounds
  obtain ⟨g0, g1⟩ := chebGain_sq n K x
  have hz1 : ((Polynomial.Chebyshev.T ℝ n).eval 0) ^ 2 ≤ 1 := cheb_abs_le n 0 le_rfl zero_le_one
  have hz0 : 0 ≤ ((Polynomial.Chebyshev.T ℝ n).eval 0) ^ 2 := sq_nonneg _
  have hmono := cheb_mono_sq n hn (K / x) c hy0.le hyc (by linarith)
  have hT1 := Polynomial.Chebyshev.one_le_eval_T_real n (by linarith : (1 : ℝ) ≤ c)
  set w := 1 / Real.sqrt 2 with hw
  have hw2 : w ^ 2 = 1 / 2 := by rw [hw, div_pow, Real.sq_sqrt (by norm_num)]; norm_num
  have hw0 : 0 < w := by positivity
  have hwl : 0.7071 ≤ w := by nlinarith
  have hwu : w ≤ 0.70711 := by nlinarith
  have hxs : x - K / c = K * (1 / (K / x) - 1 / c) := by field_simp
  rw [hxs]
  have hsl := fun h => hslope (K / x) h hyc
  generalize K / x = y at *
  generalize chebGain n K x = G at *
  generalize (Polynomial.Chebyshev.T ℝ n).eval y = t at *
  generalize (Polynomial.Chebyshev.T ℝ n).eval c = T at *
  generalize ((Polynomial.Chebyshev.T ℝ n).eval 0) ^ 2 = z at *
  generalize (10 : ℝ) ^ (0.0125 : ℝ) - 1 = ε at *
  have hε : 0 < ε := by linarith
  have hq0 : 0 ≤ ε * t ^ 2 := by positivity
  have hqT : ε * t ^ 2 ≤ ε * T ^ 2 := mul_le_mul_of_nonneg_left hmono hε.le
  -- the squared gain beyond one half
  have hGw : (G - w) * (G + w) * (2 * (1 + ε * t ^ 2)) = ε * (T ^ 2 - t ^ 2) := by
    linear_combination 2 * g1 - hcut - 2 * (1 + ε * t ^ 2) * hw2
  have hlow : w ≤ G := by
    by_contra hn
    push Not at hn
    have : (G - w) * ((G + w) * (2 * (1 + ε * t ^ 2))) < 0 := mul_neg_of_neg_of_pos (by linarith) (by positivity)
    nlinarith
  refine ⟨hlow, ?_⟩
  rcases le_or_gt y 1 with hy | hy
  · -- the pass band
    have hG2 : G ^ 2 ≤ 1.029201 := by nlinarith [sq_nonneg G]
    have hG : G ≤ 1.0146 := by nlinarith
    have h1 : 1 - 1 / c ≤ 1 / y - 1 / c := by
      have : 1 ≤ 1 / y := by rw [le_div_iff₀ hy0]; linarith
      linarith
    have h2 : 0.065 ≤ 1 - 1 / c := by
      have : 1 / c ≤ 1 / 1.07 := one_div_le_one_div_of_le (by norm_num) hc
      norm_num at this ⊢
      linarith
    have h3 : 0.15915 * 0.065 ≤ K * (1 / y - 1 / c) := mul_le_mul hK (by linarith) (by norm_num) hK0.le
    linarith
  · -- the skirt
    have ht : 0 ≤ B * (c - y) := mul_nonneg hB (by linarith)
    have hsl := hsl hy.le
    have htT : |t| ≤ T := abs_le_of_sq_le_sq hmono (by linarith)
    have htT2 : t ≤ T := (le_abs_self t).trans htT
    have htT1 : -T ≤ t := by linarith [neg_abs_le t]
    have h1 : 1 ≤ ε * T ^ 2 := by
      rw [hcut]
      have := mul_nonneg hε.le hz0
      linarith
    have h2 := skirt_steep ε T t G w hε.le hT1 h1 htT2 hlow hGw
    have h3 : 0 ≤ ε * T := by positivity
    apply skirt_step (G - w) w c y K (ε * T * (T - t)) (by linarith) hwl (by linarith) hy0 hyc hK (by linarith)
    have h4 : ε * T * (T - t) * c ^ 2 ≤ ε * T * (B * (c - y)) * c ^ 2 :=
      mul_le_mul_of_nonneg_right (mul_le_mul_of_nonneg_left hsl h3) (by positivity)
    have h5 : (ε * T * B * c ^ 2) * (c - y) ≤ 12.42 * (c - y) := mul_le_mul_of_nonneg_right hnum (by linarith)
    linarith

theorem tangent (ε z q G G' μ t' : ℝ) (hq : 0 ≤ q) (hμ0 : 0 < μ) (hA : 0 ≤ 1 + ε * z) (hG : 0 ≤ G) (hq' : q ≤ μ ^ 2 * (ε * t' ^ 2))
    (g1 : G ^ 2 * (1 + q) = 1 + ε * z) (k1 : G' ^ 2 * (1 + ε * t' ^ 2) = 1 + ε * z) : G' ≤ G - G * ((1 - μ) * (q / (1 + q))) := by
  have e3 : G - G * ((1 - μ) * (q / (1 + q))) = G * ((1 + μ * q) / (1 + q)) := by field_simp; ring
  rw [e3]
  apply le_of_sq_le_sq _ (by positivity)
  have h1 : G' ^ 2 * (μ ^ 2 + q) ≤ μ ^ 2 * (1 + ε * z) := by
    have : G' ^ 2 * (μ ^ 2 + q) ≤ G' ^ 2 * (μ ^ 2 + μ ^ 2 * (ε * t' ^ 2)) := mul_le_mul_of_nonneg_left (by linarith) (sq_nonneg _)
    have e2 : G' ^ 2 * (μ ^ 2 + μ ^ 2 * (ε * t' ^ 2)) = μ ^ 2 * (1 + ε * z) := by rw [← k1]; ring
    linarith
  have h2 : μ ^ 2 * (1 + q) ^ 3 ≤ (1 + μ * q) ^ 2 * (μ ^ 2 + q) := by
    have e : (1 + μ * q) ^ 2 * (μ ^ 2 + q) - μ ^ 2 * (1 + q) ^ 3 = q * ((1 - μ) ^ 2 * (1 + 2 * μ) + q * μ * (1 - μ) ^ 2 * (μ + 2)) := by ring
    have : 0 ≤ q * ((1 - μ) ^ 2 * (1 + 2 * μ) + q * μ * (1 - μ) ^ 2 * (μ + 2)) := by positivity
    linarith
  rw [mul_pow, div_pow]
  have hp : 0 < μ ^ 2 + q := by positivity
  have h3 : G' ^ 2 ≤ μ ^ 2 * (1 + ε * z) / (μ ^ 2 + q) := by rw [le_div_iff₀ hp]; exact h1
  refine h3.trans ?_
  have hG2 : G ^ 2 = (1 + ε * z) / (1 + q) := by rw [eq_div_iff (by positivity)]; exact g1
  rw [hG2, div_mul_div_comm, div_le_div_iff₀ hp (by positivity)]
  have := mul_le_mul_of_nonneg_left h2 hA
  generalize 1 + ε * z = A at *
  calc μ ^ 2 * A * ((1 + q) * (1 + q) ^ 2) = A * (μ ^ 2 * (1 + q) ^ 3) := by ring
    _ ≤ _ := this
    _ = _ := by ring

/-- Near the cut-off every step of the search reduces the deviation. -/
theorem chebGain_contracts (n : ℕ) (hn : 0 < n) (hn5 : n ≤ 5) (K x d : ℝ) (hK : 0 < K) (hx : 0 < x) (hd : 0 ≤ d) (hdx : d < x) (hd3 : d = 0.03 * (chebGain n K x - 1 / Real.sqrt 2))
    (_hlow : 1 / Real.sqrt 2 ≤ chebGain n K x) (hup : chebGain n K x ≤ 1 / Real.sqrt 2 + 0.1) :
    chebGain n K (x - d) - 1 / Real.sqrt 2 ≤ (1 - 0.0073 / K) * (chebGain n K x - 1 / Real.sqrt 2) := by
  obtain ⟨r1, r2⟩ := ripple_bounds
  obtain ⟨g0, g1⟩ := chebGain_sq n K x
  obtain ⟨k0, k1⟩ := chebGain_sq n K (x - d)
  set w := 1 / Real.sqrt 2 with hw
  have hw2 : w ^ 2 = 1 / 2 := by rw [hw, div_pow, Real.sq_sqrt (by norm_num)]; norm_num
  have hw0 : 0 < w := by positivity
  have hwl : 0.7071 ≤ w := by nlinarith
  have hwu : w ≤ 0.70711 := by nlinarith
  have hG2 : chebGain n K x ^ 2 ≤ 0.6515 := by nlinarith
  have hz0 : 0 ≤ ((Polynomial.Chebyshev.T ℝ n).eval 0) ^ 2 := sq_nonneg _
  have hx1 : 1 < K / x := by
    by_contra hcon
    push Not at hcon
    have := cheb_abs_le n (K / x) (by positivity) hcon
    have hz0' : 0 ≤ ((10 : ℝ) ^ (0.0125 : ℝ) - 1) * ((Polynomial.Chebyshev.T ℝ n).eval 0) ^ 2 := mul_nonneg (by linarith) hz0
    have h1 : ((10 : ℝ) ^ (0.0125 : ℝ) - 1) * ((Polynomial.Chebyshev.T ℝ n).eval (K / x)) ^ 2 ≤ 0.03 * 1 := mul_le_mul (by linarith) this (sq_nonneg _) (by norm_num)
    have h2 : chebGain n K x ^ 2 * (1 + ((10 : ℝ) ^ (0.0125 : ℝ) - 1) * ((Polynomial.Chebyshev.T ℝ n).eval (K / x)) ^ 2) ≤ 0.6515 * (1 + 0.03 * 1) :=
      mul_le_mul hG2 (by linarith) (add_nonneg zero_le_one (mul_nonneg (by linarith) (sq_nonneg _))) (by norm_num)
    linarith
  have hxK : x < K := by rwa [lt_div_iff₀ hx, one_mul] at hx1
  have hgrow := cheb_grows n hn hn5 (K / x) (x / (x - d)) hx1.le (by rw [le_div_iff₀ (by linarith)]; linarith)
  have e : x / (x - d) * (K / x) = K / (x - d) := by
    have : x - d ≠ 0 := by linarith
    field_simp
  rw [e] at hgrow
  have ht1 := Polynomial.Chebyshev.one_le_eval_T_real n hx1.le
  obtain ⟨μ, hμ⟩ : ∃ μ, μ = (x - d) / x := ⟨_, rfl⟩
  have hμ0 : 0 < μ := by rw [hμ]; exact div_pos (by linarith) hx
  have hμ1 : μ ≤ 1 := by rw [hμ, div_le_one hx]; linarith
  have hl : x / (x - d) = 1 / μ := by rw [hμ, one_div_div]
  have hd' : d = (1 - μ) * x := by rw [hμ]; field_simp; ring
  rw [hl] at hgrow
  generalize chebGain n K (x - d) = G' at *
  generalize chebGain n K x = G at *
  generalize (Polynomial.Chebyshev.T ℝ n).eval (K / (x - d)) = t' at *
  generalize (Polynomial.Chebyshev.T ℝ n).eval (K / x) = t at *
  generalize ((Polynomial.Chebyshev.T ℝ n).eval 0) ^ 2 = z at *
  generalize (10 : ℝ) ^ (0.0125 : ℝ) - 1 = ε at *
  have hε : 0 < ε := by linarith
  set q := ε * t ^ 2 with hq
  have hq0 : 0 < q := by positivity
  have hA : 1 ≤ 1 + ε * z := by nlinarith
  -- the new gain is below the tangent
  have hq' : q ≤ μ ^ 2 * (ε * t' ^ 2) := by
    have h1 : t ≤ μ * t' := by
      rw [one_div_mul_eq_div, div_le_iff₀ hμ0] at hgrow
      linarith
    have h2 : t ^ 2 ≤ (μ * t') ^ 2 := pow_le_pow_left₀ (by linarith) h1 2
    have h3 := mul_le_mul_of_nonneg_left h2 hε.le
    rw [hq]
    linarith
  have hG' := tangent ε z q G G' μ t' hq0.le hμ0 (by linarith) g0 hq' g1 k1
  have hqq : 0.348 ≤ q / (1 + q) := by
    rw [le_div_iff₀ (by positivity)]
    have := mul_le_mul_of_nonneg_right hG2 (show 0 ≤ 1 + q by positivity)
    linarith
  have h1μ : 1 - μ = d / x := by rw [hd']; field_simp
  have h4 : d / K ≤ 1 - μ := by
    rw [h1μ]
    exact div_le_div_of_nonneg_left hd hx hxK.le
  have h5 : d / K * 0.348 ≤ (1 - μ) * (q / (1 + q)) := mul_le_mul h4 hqq (by norm_num) (by linarith)
  have h6 : 0.7071 * (d / K * 0.348) ≤ G * ((1 - μ) * (q / (1 + q))) := mul_le_mul (by linarith) h5 (by positivity) (by linarith)
  have h7 : 0.0073 / K * (G - w) ≤ 0.7071 * (d / K * 0.348) := by
    rw [hd3]
    have : 0 ≤ (G - w) / K := div_nonneg (by linarith) hK.le
    have e4 : 0.0073 / K * (G - w) = 0.0073 * ((G - w) / K) := by ring
    have e5 : 0.7071 * (0.03 * (G - w) / K * 0.348) = 0.7071 * 0.03 * 0.348 * ((G - w) / K) := by ring
    rw [e4, e5]
    exact mul_le_mul_of_nonneg_right (by norm_num) this
  linarith

theorem prewarp_low (f' : ℝ) (h0 : 0 < f') (h1 : f' < 1) : 0.15915 ≤ Real.tan (Real.pi * f' / 2) / (Real.pi ^ 2 * f') := by
  have hpi := Real.pi_pos
  have hpi2 := Real.pi_lt_d4
  have := (Real.lt_tan (x := Real.pi * f' / 2) (by positivity) (by nlinarith)).le
  rw [le_div_iff₀ (by positivity)]
  have h : 0.15915 * Real.pi ≤ 1 / 2 := by linarith
  have h2 : (0.15915 * Real.pi) * (Real.pi * f') ≤ 1 / 2 * (Real.pi * f') := mul_le_mul_of_nonneg_right h (by positivity)
  calc 0.15915 * (Real.pi ^ 2 * f') = (0.15915 * Real.pi) * (Real.pi * f') := by ring
    _ ≤ _ := h2
    _ ≤ _ := by linarith

/-- C108.  A Chebyshev design of an order up to 5 and one instance: the response at the design frequency is at least 2^{-1/2} of the gain, and exceeds it by
at most a tenth of a power which falls with the prewarped frequency K. -/
theorem C108_cutoff (residue : List ℝ → List ℝ → List ℂ × List ℂ) (hres : ResidueSpec residue) (f : ℝ) (hf : 0 < f)
    (hf1 : f < 1) (order : ℤ) (ho : 0 < order) (ho' : order ≤ 5) (complement : Bool) (gain f' K : ℝ)
    (hf' : f' = if complement then 1 - f else f) (hK : K = Real.tan (Real.pi * f' / 2) / (Real.pi ^ 2 * f')) (hK1 : K ≤ 1) :
    ∃ g γ, Iir.newDesign residue (some .chebyshev) f order 1 complement gain none = .ok g ∧ ‖freqResp g.a g.b f‖ = |gain| * γ ∧
      1 / Real.sqrt 2 ≤ γ ∧ γ - 1 / Real.sqrt 2 ≤ max (10e3 / 2 ^ 52) (0.1 * (1 - 0.0073 / K) ^ 165) := by
  have hf0 : 0 < f' := by rw [hf']; split <;> linarith
  have hf'1 : f' < 1 := by rw [hf']; split <;> linarith
  have hpi := Real.pi_pos
  have hn : 0 < order.toNat := by omega
  have hn5 : order.toNat ≤ 5 := by omega
  have hKl : 0.15915 ≤ K := by rw [hK]; exact prewarp_low f' hf0 hf'1
  have hK0 : 0 < K := by linarith
  obtain ⟨c, B, c1, c2, c3, c4, c5, c6⟩ := cheb_cut_table order.toNat hn hn5
  have hrate : ¬ (order > 8 ∨ (order > 6 ∧ (1 : ℤ) > 1)) := by omega
  obtain ⟨s, hs⟩ : ∃ s, Scales (fun x => 1 / Real.sqrt 2 - chebGain order.toNat K x ^ (1 : ℤ).toNat) (if order > 8 ∨ (order > 6 ∧ (1 : ℤ) > 1) then 0.015 else 0.03) (1 / 2 ^ 52) s :=
    ⟨_, scales_exist _ _⟩
  obtain ⟨g, n, k, h1, h2, h3, h4, h5, h6, h7⟩ := design_search residue hres .chebyshev f hf hf1 order 1 ho one_pos complement gain f' hf' _ (chebGain order.toNat K) hs (by
    intro x a b hx h
    have hxf : 0 < x * f' := by positivity
    rw [C89_evaluate residue (x * f') hxf order.toNat hn a b h f' (by linarith) hf'1, chebGain, hK]
    congr 2
    field_simp)
  rw [show (1 : ℤ).toNat = 1 from rfl] at hs h4 h5
  simp only [pow_one] at hs h4 h5
  rw [if_neg hrate] at hs
  have hσ0 : 0 < K / c := by positivity
  have hσ1 : K / c ≤ 1 := by rw [div_le_one (by linarith)]; linarith
  have hσe : (1 / 2 ^ 52 : ℝ) ≤ K / c := by
    have : (0.15915 / 6 : ℝ) ≤ K / c := div_le_div₀ hK0.le hKl (by linarith) c3
    refine le_trans ?_ this
    norm_num
  have hover := fun x hx => chebGain_over order.toNat hn K c B x hKl c1 c2 c4 c5 c6 hx
  have hd := descend (chebGain order.toNat K) s (K / c) (1 / Real.sqrt 2) 0.03 _ (by norm_num) hs hσe hσ1 (fun x hx _ => (hover x hx).1) (fun x hx _ => (hover x hx).2)
  have hrt := descend_rate (chebGain order.toNat K) s (K / c) (1 / Real.sqrt 2) 0.03 _ 0.1 (0.0073 / K) 334 (by norm_num) hs hσe hσ0 hσ1 (fun x hx _ => (hover x hx).1) (fun x hx _ => (hover x hx).2)
    (by positivity) (by rw [div_le_one hK0]; linarith)
    (fun x hx _ hup => chebGain_contracts order.toNat hn hn5 K x _ hK0 (by linarith) (mul_nonneg (by norm_num) (by linarith [(hover x hx).1])) (by linarith [(hover x hx).2]) rfl (hover x hx).1 hup)
    (by norm_num) 165
  generalize 0.1 * (1 - 0.0073 / K) ^ 165 = P at hrt ⊢
  have hlow := fun j => (hover (s j) (hd j).1).1
  refine ⟨g, _, h1, h7, hlow k, ?_⟩
  have hk := (h5.2 (n - 1) (by omega)).1
  simp only at hk
  rw [abs_of_nonpos (by linarith [hlow k]), abs_of_nonpos (by linarith [hlow (n - 1)])] at hk
  rcases h4 with h4 | h4
  · apply le_max_of_le_right
    rw [h4] at hk
    simp only [Nat.reduceAdd, Nat.reduceSub] at hk hrt
    linarith
  · apply le_max_of_le_left
    rw [abs_of_nonpos (by linarith [hlow (n - 1)])] at h4
    linarith

/-- Half the Nyquist frequency meets the condition on the frequency. -/
example : Real.tan (Real.pi * (1 / 2) / 2) / (Real.pi ^ 2 * (1 / 2)) ≤ 1 := by
  rw [show Real.pi * (1 / 2) / 2 = Real.pi / 4 by ring, Real.tan_pi_div_four, div_le_one (by positivity)]
  nlinarith [Real.pi_gt_three]

/-- C108.  For a distance of the design frequency up to one half of Nyquist and an order up to 5, the response at the design frequency is 2^{-1/2} (-3 dB)
within 0.00025. -/
theorem C108_three_db (residue : List ℝ → List ℝ → List ℂ × List ℂ) (hres : ResidueSpec residue) (f : ℝ) (complement : Bool) (order : ℤ)
    (hf : 0 < (if complement then 1 - f else f)) (hf1 : (if complement then 1 - f else f) ≤ 1 / 2) (ho : 0 < order) (ho' : order ≤ 5) :
    ∃ g, Iir.newDesign residue (some .chebyshev) f order 1 complement 1 none = .ok g ∧
      1 / Real.sqrt 2 ≤ ‖freqResp g.a g.b f‖ ∧ ‖freqResp g.a g.b f‖ ≤ 1 / Real.sqrt 2 + 0.00025 := by
  have hpi := Real.pi_pos
  have hpi2 := Real.pi_gt_d4
  have hf2 : 0 < f ∧ f < 1 := by cases complement <;> simp at hf hf1 ⊢ <;> constructor <;> linarith
  set f' := if complement then 1 - f else f with hf'
  have hK2 : Real.tan (Real.pi * f' / 2) / (Real.pi ^ 2 * f') ≤ 0.20266 := by
    have := tan_le_linear (2 * f') (by linarith) (by linarith)
    rw [show Real.pi / 4 * (2 * f') = Real.pi * f' / 2 by ring] at this
    rw [div_le_iff₀ (by positivity)]
    have h9 : 9.8690 ≤ Real.pi ^ 2 := by nlinarith
    have : 0.20266 * (9.8690 * f') ≤ 0.20266 * (Real.pi ^ 2 * f') := by
      apply mul_le_mul_of_nonneg_left _ (by norm_num)
      exact mul_le_mul_of_nonneg_right h9 hf.le
    linarith
  have hKl := prewarp_low f' hf (by linarith)
  obtain ⟨g, γ, h1, h2, h3, h4⟩ := C108_cutoff residue hres f hf2.1 hf2.2 order ho ho' complement 1 f' _ hf' rfl (by linarith)
  rw [abs_one, one_mul] at h2
  refine ⟨g, h1, by rw [h2]; exact h3, ?_⟩
  rw [h2]
  generalize Real.tan (Real.pi * f' / 2) / (Real.pi ^ 2 * f') = K at *
  have : max (10e3 / 2 ^ 52 : ℝ) (0.1 * (1 - 0.0073 / K) ^ 165) ≤ 0.00025 := by
    apply max_le (by norm_num)
    have h5 : 0.0073 / 0.20266 ≤ 0.0073 / K := div_le_div_of_nonneg_left (by norm_num) (by linarith) hK2
    have h6 : 0.0073 / K ≤ 1 := by rw [div_le_one (by linarith)]; linarith
    have h7 : (1 - 0.0073 / K) ^ 165 ≤ (1 - 0.0073 / 0.20266) ^ 165 := pow_le_pow_left₀ (by linarith) (by linarith) 165
    refine le_trans (mul_le_mul_of_nonneg_left h7 (by norm_num)) ?_
    norm_num
  exact sub_le_iff_le_add'.mp (h4.trans this)

/-- A high pass of order 5 at three quarters of Nyquist. -/
example (residue : List ℝ → List ℝ → List ℂ × List ℂ) (hres : ResidueSpec residue) :
    ∃ g, Iir.newDesign residue (some .chebyshev) 0.75 5 1 true 1 none = .ok g ∧ 1 / Real.sqrt 2 ≤ ‖freqResp g.a g.b 0.75‖ ∧ ‖freqResp g.a g.b 0.75‖ ≤ 1 / Real.sqrt 2 + 0.00025 :=
  C108_three_db residue hres 0.75 true 5 (by norm_num) (by norm_num) (by norm_num) (by norm_num)

theorem cheb_ge_pow (n : ℕ) (x : ℝ) (hx : 1 ≤ x) : x ^ n ≤ (Polynomial.Chebyshev.T ℝ n).eval x := by
  have key : ∀ n : ℕ, x ^ n ≤ (Polynomial.Chebyshev.T ℝ n).eval x ∧ x * (Polynomial.Chebyshev.T ℝ n).eval x ≤ (Polynomial.Chebyshev.T ℝ (n + 1 : ℕ)).eval x := by
    intro n
    induction n with
    | zero => simp
    | succ n ih =>
      have h1 : x ^ (n + 1) ≤ (Polynomial.Chebyshev.T ℝ (n + 1 : ℕ)).eval x := by
        rw [pow_succ']
        exact (mul_le_mul_of_nonneg_left ih.1 (by linarith)).trans ih.2
      refine ⟨h1, ?_⟩
      have r : (Polynomial.Chebyshev.T ℝ (n + 1 + 1 : ℕ)).eval x = 2 * x * (Polynomial.Chebyshev.T ℝ (n + 1 : ℕ)).eval x - (Polynomial.Chebyshev.T ℝ n).eval x := by
        have := Polynomial.Chebyshev.T_add_two ℝ n
        push_cast
        rw [add_assoc, one_add_one_eq_two, this]
        simp
      rw [r]
      have h2 := Polynomial.Chebyshev.one_le_eval_T_real n hx
      have h3 : (Polynomial.Chebyshev.T ℝ n).eval x ≤ x * (Polynomial.Chebyshev.T ℝ (n + 1 : ℕ)).eval x := by
        have h4 := Polynomial.Chebyshev.one_le_eval_T_real (n + 1 : ℕ) hx
        have h5 := ih.2
        generalize (Polynomial.Chebyshev.T ℝ n).eval x = a at *
        generalize (Polynomial.Chebyshev.T ℝ (n + 1 : ℕ)).eval x = b at *
        have h6 : 0 ≤ (x - 1) * a := mul_nonneg (by linarith) (by linarith)
        have h7 : 0 ≤ (x - 1) * b := mul_nonneg (by linarith) (by linarith)
        linarith
      linarith
  exact (key n).1

/-- C108.  The scale factors of the search stay below 12, so that the response at a design frequency near Nyquist, or with complement near zero frequency, is
far below 2^{-1/2}, whatever the order and the count. -/
theorem C108_nyquist (residue : List ℝ → List ℝ → List ℂ × List ℂ) (hres : ResidueSpec residue) (f : ℝ) (hf : 0 < f) (hf1 : f < 1)
    (order count : ℤ) (ho : 0 < order) (hcount : 0 < count) (complement : Bool) (gain : ℝ) (δ : ℝ) (hδ : δ = if complement then f else 1 - f) (hδ2 : δ ≤ 1 / 237) :
    ∃ g, Iir.newDesign residue (some .chebyshev) f order count complement gain none = .ok g ∧ ‖freqResp g.a g.b f‖ ≤ |gain| * (6 * (237 * δ) ^ order.toNat) := by
  have hpi := Real.pi_pos
  set f' := if complement then 1 - f else f with hf'
  have hδf : f' = 1 - δ := by rw [hf', hδ]; cases complement <;> simp
  have hδ0 : 0 < δ := by rw [hδ]; cases complement <;> simp <;> linarith
  have hf'0 : 0 < f' := by rw [hδf]; linarith
  have hf'1 : f' < 1 := by rw [hδf]; linarith
  have hn : 0 < order.toNat := by omega
  set K := Real.tan (Real.pi * f' / 2) / (Real.pi ^ 2 * f') with hK
  set ρ : ℝ := if order > 8 ∨ (order > 6 ∧ count > 1) then 0.015 else 0.03 with hρ
  obtain ⟨s, hs⟩ : ∃ s, Scales (fun x => 1 / Real.sqrt 2 - chebGain order.toNat K x ^ count.toNat) ρ (1 / 2 ^ 52) s := ⟨_, scales_exist _ _⟩
  obtain ⟨g, n, k, h1, h2, h3, h4, h5, h6, h7⟩ := design_search residue hres .chebyshev f hf hf1 order count ho hcount complement gain f' hf' _ (chebGain order.toNat K) hs (by
    intro x a b hx h
    have hxf : 0 < x * f' := by positivity
    rw [C89_evaluate residue (x * f') hxf order.toNat hn a b h f' (by linarith) hf'1, chebGain, hK]
    congr 2
    field_simp)
  refine ⟨g, h1, ?_⟩
  have hsq2 : Real.sqrt 2 ≥ 1.41421 := Real.le_sqrt_of_sq_le (by norm_num)
  have hg0 : 1 / Real.sqrt 2 ≤ 0.70711 := by
    rw [div_le_iff₀ (by positivity)]; linarith
  have hρ1 : 0 < ρ ∧ ρ ≤ 0.03 := by rw [hρ]; split <;> norm_num
  have hsk : ∀ j, s j ≤ 1 + j * 0.022 := by
    intro j
    induction j with
    | zero => rw [hs.1]; simp
    | succ j ih =>
      rw [hs.2 j]
      apply max_le
      · have hgp : 0 ≤ chebGain order.toNat K (s j) ^ count.toNat := pow_nonneg (Real.sqrt_nonneg _) _
        have : ρ * (1 / Real.sqrt 2 - chebGain order.toNat K (s j) ^ count.toNat) ≤ 0.03 * 0.70711 := by
          rcases le_or_gt (1 / Real.sqrt 2 - chebGain order.toNat K (s j) ^ count.toNat) 0 with h | h
          · have := mul_nonpos_of_nonneg_of_nonpos hρ1.1.le h
            linarith
          · exact mul_le_mul hρ1.2 (by linarith) h.le (by norm_num)
        push_cast
        linarith
      · push_cast
        have : (0 : ℝ) ≤ j := Nat.cast_nonneg j
        norm_num
        linarith
  have hsk12 : s k ≤ 12 := by
    have hk : k ≤ 499 := by have := h5.1; omega
    have : (k : ℝ) ≤ 499 := by exact_mod_cast hk
    have := hsk k
    linarith
  have htan : Real.tan (Real.pi * f' / 2) ≥ 1 / (2 * δ) := by
    rw [hδf, show Real.pi * (1 - δ) / 2 = Real.pi / 2 - Real.pi / 4 * (2 * δ) by ring, Real.tan_pi_div_two_sub, ← one_div]
    apply one_div_le_one_div_of_le
    · apply Real.tan_pos_of_pos_of_lt_pi_div_two (by positivity)
      nlinarith
    · exact tan_le_linear (2 * δ) (by linarith) (by linarith)
  have hy : 1 / (237 * δ) ≤ K / s k := by
    have hpi3 := Real.pi_lt_d4
    have h9 : Real.pi ^ 2 ≤ 9.8698 := by nlinarith
    rw [hK, div_div]
    have e1 : 1 / (2 * δ) / (9.8698 * 12) ≤ Real.tan (Real.pi * f' / 2) / (Real.pi ^ 2 * f' * s k) := by
      apply div_le_div₀ (le_trans (by positivity) htan) htan (by positivity)
      have : Real.pi ^ 2 * f' ≤ 9.8698 * 1 := mul_le_mul h9 hf'1.le hf'0.le (by norm_num)
      rw [mul_one] at this
      exact mul_le_mul this hsk12 h6.le (by norm_num)
    refine le_trans ?_ e1
    rw [div_div]
    apply one_div_le_one_div_of_le (by positivity)
    linarith
  rw [h7]
  apply mul_le_mul_of_nonneg_left _ (abs_nonneg _)
  have hy1 : 1 ≤ K / s k := by
    refine le_trans ?_ hy
    rw [le_div_iff₀ (by positivity)]
    linarith
  obtain ⟨g0, g1⟩ := chebGain_sq order.toNat K (s k)
  obtain ⟨r1, r2⟩ := ripple_bounds
  have hT : (1 / (237 * δ)) ^ order.toNat ≤ (Polynomial.Chebyshev.T ℝ order.toNat).eval (K / s k) :=
    (pow_le_pow_left₀ (by positivity) hy _).trans (cheb_ge_pow _ _ hy1)
  have hz1 : ((Polynomial.Chebyshev.T ℝ order.toNat).eval 0) ^ 2 ≤ 1 := cheb_abs_le order.toNat 0 le_rfl zero_le_one
  rw [one_div_pow] at hT
  have hP : 0 < (237 * δ) ^ order.toNat := by positivity
  generalize chebGain order.toNat K (s k) = G at *
  generalize (Polynomial.Chebyshev.T ℝ order.toNat).eval (K / s k) = t at *
  generalize (Polynomial.Chebyshev.T ℝ order.toNat).eval 0 = z at *
  generalize (237 * δ) ^ order.toNat = P at *
  generalize (10 : ℝ) ^ (0.0125 : ℝ) - 1 = ε at *
  rw [div_le_iff₀ hP] at hT
  have ht : 0 < t := by
    by_contra hn
    push Not at hn
    have := mul_nonpos_of_nonpos_of_nonneg hn hP.le
    linarith
  have hGt : G * t ≤ 6 := by
    apply le_of_sq_le_sq _ (by norm_num)
    have e1 : ε * (G * t) ^ 2 ≤ 1 + ε * z ^ 2 := by
      rw [← g1, mul_pow]
      have := sq_nonneg G
      linarith
    have e2 : ε * z ^ 2 ≤ ε * 1 := mul_le_mul_of_nonneg_left hz1 (by linarith)
    have e3 : ε * (G * t) ^ 2 ≤ ε * 6 ^ 2 := by linarith
    exact le_of_mul_le_mul_left e3 (by linarith)
  have h8 : G * 1 ≤ G * (t * P) := mul_le_mul_of_nonneg_left hT g0
  have h9 : G * t * P ≤ 6 * P := mul_le_mul_of_nonneg_right hGt hP.le
  linarith

/-- The hypotheses hold: a low pass filter with a cut-off near the Nyquist frequency. -/
example (residue : List ℝ → List ℝ → List ℂ × List ℂ) (hres : ResidueSpec residue) :=
  C108_nyquist residue hres 0.999 (by norm_num) (by norm_num) 4 2 (by norm_num) (by norm_num) false 5 0.001 (by norm_num) (by norm_num)

/-- C108.  A witness: a high pass of order 4 at one thousandth of Nyquist has a response below 0.02 at the design frequency, in place of 2^{-1/2}. -/
theorem C108_witness (residue : List ℝ → List ℝ → List ℂ × List ℂ) (hres : ResidueSpec residue) :
    ∃ g, Iir.newDesign residue (some .chebyshev) 0.001 4 1 true 1 none = .ok g ∧ ‖freqResp g.a g.b 0.001‖ < 0.02 := by
  obtain ⟨g, h1, h2⟩ := C108_nyquist residue hres 0.001 (by norm_num) (by norm_num) 4 1 (by norm_num) (by norm_num) true 1 0.001 (by simp) (by norm_num)
  refine ⟨g, h1, lt_of_le_of_lt h2 ?_⟩
  rw [show (4 : ℤ).toNat = 4 from rfl]
  norm_num

/-- The hypothesis of `C108_cutoff` on the prewarped frequency holds for every distance up to one half of Nyquist. -/
example (f' : ℝ) (h0 : 0 < f') (h1 : f' ≤ 1 / 2) : Real.tan (Real.pi * f' / 2) / (Real.pi ^ 2 * f') ≤ 1 := by
  have hpi := Real.pi_gt_three
  have := tan_le_linear (2 * f') (by linarith) (by linarith)
  rw [show Real.pi / 4 * (2 * f') = Real.pi * f' / 2 by ring] at this
  rw [div_le_one (by positivity)]
  have h9 : 9 ≤ Real.pi ^ 2 := by nlinarith
  have := mul_le_mul_of_nonneg_right h9 h0.le
  linarith

end Verif.Props
