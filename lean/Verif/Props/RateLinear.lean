import Verif.Props.PolyRate
import Mathlib.Tactic.Positivity

/- Property C92: PolynomialRateFilter is linear; weights of the orders two and three. -/

namespace Verif.Props

open Finset Spec

/-- `p x + q z`, sample by sample. -/
def mix (p q : ℝ) (x z : List ℝ) : List ℝ := List.zipWith (fun a b => p * a + q * b) x z

theorem at0_mix (p q : ℝ) (x z : List ℝ) (h : x.length = z.length) (n : ℕ) : at0 (mix p q x z) n = p * at0 x n + q * at0 z n := by
  induction x generalizing z n with
  | nil =>
    cases z with
    | nil => simp [mix, at0]
    | cons b t => simp at h
  | cons a s ih =>
    cases z with
    | nil => simp at h
    | cons b t =>
      cases n with
      | zero => simp [mix, at0]
      | succ n => exact ih t (by simpa using h) n

theorem length_mix (p q : ℝ) (x z : List ℝ) (h : x.length = z.length) : (mix p q x z).length = x.length := by
  simp [mix, h]

theorem polyAt_mix (p q : ℝ) (x z : List ℝ) (h : x.length = z.length) (t : ℝ) : polyAt (mix p q x z) t = p * polyAt x t + q * polyAt z t := by
  unfold polyAt
  rw [length_mix p q x z h, h, mul_sum, mul_sum, ← sum_add_distrib]
  refine sum_congr rfl fun i _ => ?_
  rw [at0_mix p q x z h]
  ring

theorem quadratic_zero (A B : ℝ) (h : ∀ s : ℝ, 0 ≤ 2 * s * A + s ^ 2 * B) : A = 0 := by
  by_contra hA
  have hB : 0 ≤ B := by
    have h1 := h 1
    have h2 := h (-1)
    linarith
  have h1 := h (-A / (B + 1))
  have hB1 : 0 < B + 1 := by linarith
  have : 2 * (-A / (B + 1)) * A + (-A / (B + 1)) ^ 2 * B = -(A ^ 2 * (B + 2)) / (B + 1) ^ 2 := by
    field_simp
    ring
  rw [this] at h1
  have hA2 : 0 < A ^ 2 := by positivity
  have : -(A ^ 2 * (B + 2)) / (B + 1) ^ 2 < 0 := div_neg_of_neg_of_pos (by nlinarith) (by positivity)
  linarith

/-- The weight of a coefficient in `fitNorm`. -/
def fitWeight (order j : ℕ) : ℝ := ∑ i ∈ range 4, ((i : ℝ) - 1) ^ (2 * (order - j))

theorem fitWeight_pos (order j : ℕ) : 0 < fitWeight order j := by
  simp only [fitWeight, sum_range_succ, range_zero, sum_empty]
  have : ∀ t : ℝ, 0 ≤ t ^ (2 * (order - j)) := fun t => by rw [pow_mul]; positivity
  have h2 : (0 : ℝ) < (((2 : ℕ) : ℝ) - 1) ^ (2 * (order - j)) := by norm_num
  have a := this (((0 : ℕ) : ℝ) - 1)
  have b := this (((1 : ℕ) : ℝ) - 1)
  have c := this (((3 : ℕ) : ℝ) - 1)
  linarith

theorem fitNorm_eq (order : ℕ) (c : List ℝ) (h : c.length = order + 1) : fitNorm c = ∑ j ∈ range (order + 1), fitWeight order j * at0 c j ^ 2 := by
  unfold fitNorm fitWeight
  rw [h]
  rfl

/-- The normal equations: the residual is orthogonal to all polynomials, the coefficients to all polynomials which vanish at the four points. -/
def Normal (order : ℕ) (d c : List ℝ) : Prop :=
  c.length = order + 1 ∧ (∀ e : List ℝ, e.length = order + 1 → ∑ i ∈ range 4, (at0 d i - polyAt c (i - 1)) * polyAt e (i - 1) = 0) ∧
    ∀ e : List ℝ, e.length = order + 1 → (∀ i < 4, polyAt e ((i : ℕ) - 1) = 0) → ∑ j ∈ range (order + 1), fitWeight order j * (at0 c j * at0 e j) = 0

theorem sqErr_mix (d c e : List ℝ) (h : c.length = e.length) (s : ℝ) :
    sqErr d (mix 1 s c e) = sqErr d c - 2 * s * (∑ i ∈ range 4, (at0 d i - polyAt c (i - 1)) * polyAt e (i - 1)) + s ^ 2 * ∑ i ∈ range 4, polyAt e (i - 1) ^ 2 := by
  unfold sqErr
  rw [mul_sum, mul_sum, ← sum_sub_distrib, ← sum_add_distrib]
  refine sum_congr rfl fun i _ => ?_
  rw [polyAt_mix 1 s c e h]
  ring

theorem fitNorm_mix (order : ℕ) (c e : List ℝ) (hc : c.length = order + 1) (he : e.length = order + 1) (s : ℝ) :
    fitNorm (mix 1 s c e) = fitNorm c + 2 * s * (∑ j ∈ range (order + 1), fitWeight order j * (at0 c j * at0 e j)) + s ^ 2 * fitNorm e := by
  rw [fitNorm_eq order _ (by rw [length_mix _ _ _ _ (by omega)]; exact hc), fitNorm_eq order c hc, fitNorm_eq order e he, mul_sum, mul_sum, ← sum_add_distrib, ← sum_add_distrib]
  refine sum_congr rfl fun i _ => ?_
  rw [at0_mix 1 s c e (by omega)]
  ring

theorem polyfit_normal (order : ℕ) (d c : List ℝ) (h : IsPolyfit order d c) : Normal order d c := by
  refine ⟨h.1, fun e he => ?_, fun e he hz => ?_⟩
  · have : -(∑ i ∈ range 4, (at0 d i - polyAt c (i - 1)) * polyAt e (i - 1)) = 0 := by
      apply quadratic_zero _ (∑ i ∈ range 4, polyAt e (i - 1) ^ 2)
      intro s
      have h1 := (h.2 (mix 1 s c e) (by rw [length_mix _ _ _ _ (by rw [h.1, he])]; exact h.1)).1
      rw [sqErr_mix d c e (by rw [h.1, he])] at h1
      linarith
    linarith
  · apply quadratic_zero _ (fitNorm e)
    intro s
    have h1 := (h.2 (mix 1 s c e) (by rw [length_mix _ _ _ _ (by rw [h.1, he])]; exact h.1)).2 (by
      rw [sqErr_mix d c e (by rw [h.1, he])]
      have e1 : ∑ i ∈ range 4, (at0 d i - polyAt c (i - 1)) * polyAt e (i - 1) = 0 := sum_eq_zero fun i hi => by rw [hz i (mem_range.mp hi), mul_zero]
      have e2 : ∑ i ∈ range 4, polyAt e ((i : ℝ) - 1) ^ 2 = 0 := sum_eq_zero fun i hi => by rw [hz i (mem_range.mp hi)]; norm_num
      rw [e1, e2]
      ring)
    rw [fitNorm_mix order c e h.1 he] at h1
    linarith

theorem normal_unique (order : ℕ) (d c c' : List ℝ) (h : Normal order d c) (h' : Normal order d c') : c = c' := by
  have hl : c.length = c'.length := by rw [h.1, h'.1]
  have hm : (mix 1 (-1) c c').length = order + 1 := by rw [length_mix _ _ _ _ hl]; exact h.1
  have hz : ∀ i < 4, polyAt (mix 1 (-1) c c') ((i : ℕ) - 1) = 0 := by
    have h1 := h.2.1 _ hm
    have h2 := h'.2.1 _ hm
    have h3 : ∑ i ∈ range 4, polyAt (mix 1 (-1) c c') ((i : ℝ) - 1) ^ 2 = 0 := by
      rw [← sub_eq_zero.mpr (h2.trans h1.symm), ← sum_sub_distrib]
      refine sum_congr rfl fun i _ => ?_
      rw [polyAt_mix 1 (-1) c c' hl]
      ring
    intro i hi
    have := (sum_eq_zero_iff_of_nonneg (fun i _ => sq_nonneg _)).mp h3 i (mem_range.mpr hi)
    exact pow_eq_zero_iff two_ne_zero |>.mp this
  have h1 := h.2.2 _ hm hz
  have h2 := h'.2.2 _ hm hz
  have h3 : ∑ j ∈ range (order + 1), fitWeight order j * at0 (mix 1 (-1) c c') j ^ 2 = 0 := by
    rw [← sub_eq_zero.mpr (h1.trans h2.symm), ← sum_sub_distrib]
    refine sum_congr rfl fun i _ => ?_
    rw [at0_mix 1 (-1) c c' hl]
    ring
  apply List.ext_getElem hl
  intro j hj hj'
  have := (sum_eq_zero_iff_of_nonneg (fun j _ => mul_nonneg (fitWeight_pos order j).le (sq_nonneg _))).mp h3 j (mem_range.mpr (by rw [← h.1]; exact hj))
  have h4 := pow_eq_zero_iff two_ne_zero |>.mp ((mul_eq_zero.mp this).resolve_left (fitWeight_pos order j).ne')
  rw [at0_mix 1 (-1) c c' hl, at0_of_lt _ _ hj, at0_of_lt _ _ hj'] at h4
  linarith

/-- The least squares fit is unique and linear in the data, for every order. -/
theorem polyfit_mix (order : ℕ) (p q : ℝ) (d d' c c' e : List ℝ) (hd : d.length = d'.length) (h : IsPolyfit order d c) (h' : IsPolyfit order d' c') (he : IsPolyfit order (mix p q d d') e) :
    e = mix p q c c' := by
  have n := polyfit_normal _ _ _ h
  have n' := polyfit_normal _ _ _ h'
  have hl : c.length = c'.length := by rw [n.1, n'.1]
  refine normal_unique order (mix p q d d') _ _ (polyfit_normal _ _ _ he) ⟨by rw [length_mix _ _ _ _ hl]; exact n.1, fun f hf => ?_, fun f hf hz => ?_⟩
  · have h1 := n.2.1 f hf
    have h2 := n'.2.1 f hf
    have : ∑ i ∈ range 4, (at0 (mix p q d d') i - polyAt (mix p q c c') (i - 1)) * polyAt f (i - 1) =
        p * (∑ i ∈ range 4, (at0 d i - polyAt c (i - 1)) * polyAt f (i - 1)) + q * (∑ i ∈ range 4, (at0 d' i - polyAt c' (i - 1)) * polyAt f (i - 1)) := by
      rw [mul_sum, mul_sum, ← sum_add_distrib]
      refine sum_congr rfl fun i _ => ?_
      rw [at0_mix p q d d' hd, polyAt_mix p q c c' hl]
      ring
    rw [this, h1, h2]
    ring
  · have h1 := n.2.2 f hf hz
    have h2 := n'.2.2 f hf hz
    have : ∑ j ∈ range (order + 1), fitWeight order j * (at0 (mix p q c c') j * at0 f j) =
        p * (∑ j ∈ range (order + 1), fitWeight order j * (at0 c j * at0 f j)) + q * (∑ j ∈ range (order + 1), fitWeight order j * (at0 c' j * at0 f j)) := by
      rw [mul_sum, mul_sum, ← sum_add_distrib]
      refine sum_congr rfl fun i _ => ?_
      rw [at0_mix p q c c' hl]
      ring
    rw [this, h1, h2]
    ring

theorem extend_mix (p q : ℝ) (x z : List ℝ) (h : x.length = z.length) (n : ℤ) : extend (mix p q x z) n = p * extend x n + q * extend z n := by
  unfold extend
  rw [length_mix p q x z h]
  simp only [at0_mix p q x z h]
  rw [← h]
  split_ifs <;> ring

theorem extend1_mix (p q : ℝ) (x z : List ℝ) (h : x.length = z.length) (n : ℕ) : extend1 (mix p q x z) n = p * extend1 x n + q * extend1 z n := by
  unfold extend1
  rw [length_mix p q x z h]
  simp only [at0_mix p q x z h]
  rw [← h]
  split_ifs <;> ring

/-- C92: the filter is linear, for every order and rate: the output for `p x + q z` is `p` times the output for `x` plus `q` times the output for `z`. -/
theorem C92_linear (polyfit : ℕ → List ℝ → List ℝ) (hfit : ∀ n d, d.length = 4 → IsPolyfit n d (polyfit n d)) (f : PolyRate) (hr : 0 < f.rate) (x z : List ℝ) (hx : 2 ≤ x.length)
    (h : x.length = z.length) (p q : ℝ) : ∃ u v, f.filter polyfit (some x) = .ok u ∧ f.filter polyfit (some z) = .ok v ∧ u.length = v.length ∧ f.filter polyfit (some (mix p q x z)) = .ok (mix p q u v) := by
  have hlen := length_mix p q x z h
  by_cases h1 : f.order = 1
  · obtain ⟨u, a1, a2, a3⟩ := linear_values polyfit f h1 hr x hx
    obtain ⟨v, b1, b2, b3⟩ := linear_values polyfit f h1 hr z (by omega)
    obtain ⟨w, c1, c2, c3⟩ := linear_values polyfit f h1 hr (mix p q x z) (by omega)
    have huv : u.length = v.length := by rw [h] at a2; omega
    have hwu : w.length = u.length := by rw [hlen] at c2; omega
    refine ⟨u, v, a1, b1, huv, ?_⟩
    rw [c1]
    congr 1
    apply List.ext_getElem (by rw [hwu, length_mix _ _ _ _ huv])
    intro k hk hk'
    have e1 := c3 k hk
    have e2 := a3 k (by omega)
    have e3 := b3 k (by omega)
    rw [List.getElem?_eq_getElem (by omega), Option.some.injEq] at e1 e2 e3
    simp only [mix, List.getElem_zipWith]
    rw [e2, e3]
    rw [e1, extend1_mix p q x z h, extend1_mix p q x z h]
    ring
  · obtain ⟨u, a1, a2, a3⟩ := fit_values polyfit f h1 hr x hx
    obtain ⟨v, b1, b2, b3⟩ := fit_values polyfit f h1 hr z (by omega)
    obtain ⟨w, c1, c2, c3⟩ := fit_values polyfit f h1 hr (mix p q x z) (by omega)
    have huv : u.length = v.length := by rw [h] at a2; omega
    have hwu : w.length = u.length := by rw [hlen] at c2; omega
    refine ⟨u, v, a1, b1, huv, ?_⟩
    rw [c1]
    congr 1
    apply List.ext_getElem (by rw [hwu, length_mix _ _ _ _ huv])
    intro k hk hk'
    have e1 := (c3 k hk).2
    have e2 := (a3 k (by omega)).2
    have e3 := (b3 k (by omega)).2
    rw [List.getElem?_eq_getElem (by omega), Option.some.injEq] at e1 e2 e3
    simp only at e1 e2 e3
    simp only [mix, List.getElem_zipWith]
    rw [e2, e3, e1, extend_mix p q x z h, extend_mix p q x z h, extend_mix p q x z h, extend_mix p q x z h]
    have g1 := hfit f.order.toNat [extend x ((⌊(k : ℝ) / f.rate⌋₊ : ℤ) - 1), extend x (⌊(k : ℝ) / f.rate⌋₊ : ℤ), extend x ((⌊(k : ℝ) / f.rate⌋₊ : ℤ) + 1), extend x ((⌊(k : ℝ) / f.rate⌋₊ : ℤ) + 2)] rfl
    have g2 := hfit f.order.toNat [extend z ((⌊(k : ℝ) / f.rate⌋₊ : ℤ) - 1), extend z (⌊(k : ℝ) / f.rate⌋₊ : ℤ), extend z ((⌊(k : ℝ) / f.rate⌋₊ : ℤ) + 1), extend z ((⌊(k : ℝ) / f.rate⌋₊ : ℤ) + 2)] rfl
    have g3 := polyfit_mix _ p q _ _ _ _ _ (by rfl) g1 g2 (hfit f.order.toNat _ (by simp [mix]))
    rw [← polyAt_mix p q _ _ (by rw [g1.1, g2.1]), ← g3]
    rfl

/-- The hypotheses of C92_linear are met: `3 x - z` for two signals of three samples, at rate 3/2. -/
example (polyfit : ℕ → List ℝ → List ℝ) (hfit : ∀ n d, d.length = 4 → IsPolyfit n d (polyfit n d)) :
    ∃ u v, ({ order := 5, rate := 3 / 2 } : PolyRate).filter polyfit (some [1, 4, 2]) = .ok u ∧ ({ order := 5, rate := 3 / 2 } : PolyRate).filter polyfit (some [0, 1, 5]) = .ok v ∧
      ({ order := 5, rate := 3 / 2 } : PolyRate).filter polyfit (some [3, 11, 1]) = .ok (mix 3 (-1) u v) := by
  obtain ⟨u, v, h1, h2, _, h3⟩ := C92_linear polyfit hfit { order := 5, rate := 3 / 2 } (by norm_num) [1, 4, 2] [0, 1, 5] (by simp) rfl 3 (-1)
  refine ⟨u, v, h1, h2, ?_⟩
  rw [← h3]
  congr 2
  norm_num [mix]

/-- The weights of cubic interpolation between the second and the third of four samples. -/
noncomputable def cubicWeight (t : ℝ) : ℕ → ℝ
  | 0 => -(t * (1 - t) * (2 - t) / 6)
  | 1 => (1 + t) * (1 - t) * (2 - t) / 2
  | 2 => (1 + t) * t * (2 - t) / 2
  | _ => -((1 + t) * t * (1 - t) / 6)

/-- The weights of the least squares parabola of four samples, between the second and the third: those of the parabola through the first three,
after each has been corrected by its part of the third difference. -/
noncomputable def parabolaWeight (t : ℝ) : ℕ → ℝ
  | 0 => (5 * t ^ 2 - 11 * t + 3) / 20
  | 1 => (-5 * t ^ 2 + 3 * t + 11) / 20
  | 2 => (-5 * t ^ 2 + 7 * t + 9) / 20
  | _ => (5 * t ^ 2 + t - 3) / 20

theorem cubic_value (d c : List ℝ) (hd : d.length = 4) (h : IsPolyfit 3 d c) (t : ℝ) : polyAt c t = ∑ j ∈ range 4, cubicWeight t j * at0 d j := by
  obtain ⟨hlen, h2, h3⟩ := polyfit_normal _ _ _ h
  match d, hd with
  | [d0, d1, d2, d3], _ =>
    match c, hlen with
    | [a, b, g, l], _ =>
      have e0 := h2 [1, 0, 0, 0] rfl
      have e1 := h2 [0, 1, 0, 0] rfl
      have e2 := h2 [0, 0, 1, 0] rfl
      have e3 := h2 [0, 0, 0, 1] rfl
      simp [polyAt, sum_range_succ, at0] at e0 e1 e2 e3 ⊢
      norm_num at e0 e1 e2 e3
      simp only [cubicWeight]
      have ha : a = (-d0 + 3 * d1 - 3 * d2 + d3) / 6 := by linarith
      have hb : b = (d0 - 2 * d1 + d2) / 2 := by linarith
      have hg : g = (-2 * d0 - 3 * d1 + 6 * d2 - d3) / 6 := by linarith
      have hl : l = d1 := by linarith
      rw [ha, hb, hg, hl]
      ring

theorem parabola_value (d c : List ℝ) (hd : d.length = 4) (h : IsPolyfit 2 d c) (t : ℝ) : polyAt c t = ∑ j ∈ range 4, parabolaWeight t j * at0 d j := by
  obtain ⟨hlen, h2, h3⟩ := polyfit_normal _ _ _ h
  match d, hd with
  | [d0, d1, d2, d3], _ =>
    match c, hlen with
    | [a, b, g], _ =>
      have e0 := h2 [1, 0, 0] rfl
      have e1 := h2 [0, 1, 0] rfl
      have e2 := h2 [0, 0, 1] rfl
      simp [polyAt, sum_range_succ, at0] at e0 e1 e2 ⊢
      norm_num at e0 e1 e2
      simp only [parabolaWeight]
      have ha : a = (d0 - d1 - d2 + d3) / 4 := by linarith
      have hb : b = (-11 * d0 + 3 * d1 + 7 * d2 + d3) / 20 := by linarith
      have hg : g = (3 * d0 + 11 * d1 + 9 * d2 - 3 * d3) / 20 := by linarith
      rw [ha, hb, hg]
      ring

/-- The weights of the orders two and three. -/
noncomputable def rateWeight (order : ℤ) (t : ℝ) : ℕ → ℝ := if order = 3 then cubicWeight t else parabolaWeight t

/-- C92: for the orders two and three each output sample is a sum of the four samples about its place, with weights which depend only on the place between the samples. -/
theorem C92_weights (polyfit : ℕ → List ℝ → List ℝ) (hfit : ∀ n d, d.length = 4 → IsPolyfit n d (polyfit n d)) (f : PolyRate) (ho : f.order = 2 ∨ f.order = 3) (hr : 0 < f.rate) (x : List ℝ) (hx : 2 ≤ x.length) :
    ∃ y, f.filter polyfit (some x) = .ok y ∧ IsRound (x.length * f.rate) y.length ∧ ∀ k < y.length, (k : ℝ) / f.rate < x.length ∧
      ∀ i : ℕ, (i : ℝ) ≤ k / f.rate → (k : ℝ) / f.rate < i + 1 → y[k]? = some (∑ j ∈ range 4, rateWeight f.order (k / f.rate - i) j * extend x ((i : ℤ) - 1 + j)) := by
  obtain ⟨y, g1, g2, g3⟩ := fit_values polyfit f (by omega) hr x hx
  refine ⟨y, g1, by rw [g2]; exact np.round_spec _, fun k hk => ?_⟩
  obtain ⟨hkt, hyk⟩ := g3 k hk
  refine ⟨hkt, fun i hi hi' => ?_⟩
  have hpos : 0 ≤ (k : ℝ) / f.rate := by positivity
  have hfl : ⌊(k : ℝ) / f.rate⌋₊ = i := (Nat.floor_eq_iff hpos).mpr ⟨hi, hi'⟩
  rw [hfl] at hyk
  rw [hyk]
  simp only
  congr 1
  have e : ∀ w : ℕ → ℝ, ∑ j ∈ range 4, w j * at0 [extend x ((i : ℤ) - 1), extend x (i : ℤ), extend x ((i : ℤ) + 1), extend x ((i : ℤ) + 2)] j = ∑ j ∈ range 4, w j * extend x ((i : ℤ) - 1 + j) := by
    intro w
    have e1 : (i : ℤ) - 1 + 1 = i := by ring
    have e2 : (i : ℤ) - 1 + 2 = i + 1 := by ring
    have e3 : (i : ℤ) - 1 + 3 = i + 2 := by ring
    simp [sum_range_succ, at0, e1, e2, e3]
  rcases ho with h2 | h3
  · have hf := hfit 2 [extend x ((i : ℤ) - 1), extend x (i : ℤ), extend x ((i : ℤ) + 1), extend x ((i : ℤ) + 2)] rfl
    rw [h2, rateWeight, if_neg (by norm_num), ← e]
    exact parabola_value _ _ rfl hf _
  · have hf := hfit 3 [extend x ((i : ℤ) - 1), extend x (i : ℤ), extend x ((i : ℤ) + 1), extend x ((i : ℤ) + 2)] rfl
    rw [h3, rateWeight, if_pos rfl, ← e]
    exact cubic_value _ _ rfl hf _

/-- A parabola at the rate 3/2. -/
example (polyfit : ℕ → List ℝ → List ℝ) (hfit : ∀ n d, d.length = 4 → IsPolyfit n d (polyfit n d)) := C92_weights polyfit hfit ⟨2, 3 / 2⟩ (.inl rfl) (by norm_num) [1, 4, 2] (by simp)

theorem extend_inside (x : List ℝ) (n : ℤ) (h0 : 0 ≤ n) (h1 : n < x.length) : extend x n = at0 x n.toNat := by
  unfold extend
  rw [if_neg (by omega), if_pos h1]

/-- C92: away from the first and the last interval, order two reproduces parabolas and order three cubics. -/
theorem C92_polynomials (polyfit : ℕ → List ℝ → List ℝ) (hfit : ∀ n d, d.length = 4 → IsPolyfit n d (polyfit n d)) (f : PolyRate) (ho : f.order = 2 ∨ f.order = 3) (hr : 0 < f.rate) (x : List ℝ) (hx : 2 ≤ x.length)
    (a b c d : ℝ) (hd : f.order = 2 → d = 0) (h : ∀ n < x.length, at0 x n = a + b * n + c * n ^ 2 + d * n ^ 3) :
    ∃ y, f.filter polyfit (some x) = .ok y ∧ IsRound (x.length * f.rate) y.length ∧
      ∀ k < y.length, 1 ≤ (k : ℝ) / f.rate → (k : ℝ) / f.rate < x.length - 2 → y[k]? = some (a + b * (k / f.rate) + c * (k / f.rate) ^ 2 + d * (k / f.rate) ^ 3) := by
  obtain ⟨y, g1, g2, g3⟩ := C92_weights polyfit hfit f ho hr x hx
  refine ⟨y, g1, g2, fun k hk h1 h2 => ?_⟩
  have hpos : 0 ≤ (k : ℝ) / f.rate := by positivity
  rw [(g3 k hk).2 ⌊(k : ℝ) / f.rate⌋₊ (Nat.floor_le hpos) (Nat.lt_floor_add_one _)]
  have hi1 : 1 ≤ ⌊(k : ℝ) / f.rate⌋₊ := Nat.le_floor (by exact_mod_cast h1)
  have hi2 : ⌊(k : ℝ) / f.rate⌋₊ + 2 < x.length := by
    have := Nat.floor_le hpos
    have : ((⌊(k : ℝ) / f.rate⌋₊ + 2 : ℕ) : ℝ) < x.length := by push_cast; linarith
    exact_mod_cast this
  generalize ⌊(k : ℝ) / f.rate⌋₊ = i at hi1 hi2
  generalize (k : ℝ) / f.rate = t
  have e : ∀ j < 4, extend x ((i : ℤ) - 1 + (j : ℕ)) = a + b * (i - 1 + j) + c * (i - 1 + j) ^ 2 + d * (i - 1 + j) ^ 3 := by
    intro j hj
    rw [extend_inside x _ (by omega) (by omega), h _ (by omega)]
    have : ((((i : ℤ) - 1 + (j : ℕ)).toNat : ℕ) : ℝ) = (i : ℝ) - 1 + j := by
      have h' : (((i : ℤ) - 1 + (j : ℕ)).toNat : ℤ) = (i : ℤ) - 1 + j := Int.toNat_of_nonneg (by omega)
      exact_mod_cast h'
    rw [this]
  congr 1
  rw [sum_congr rfl (fun j hj => by rw [e j (mem_range.mp hj)])]
  rcases ho with h2 | h3
  · rw [hd h2, rateWeight, if_neg (by omega)]
    simp [sum_range_succ, parabolaWeight]
    ring
  · rw [rateWeight, if_pos h3]
    simp [sum_range_succ, cubicWeight]
    ring

/-- The hypotheses of C92_polynomials are met: the cubes 0, 1, 8, 27, 64 at rate 2; the sample in the middle between 1 and 8 is 27/8. -/
example (polyfit : ℕ → List ℝ → List ℝ) (hfit : ∀ n d, d.length = 4 → IsPolyfit n d (polyfit n d)) :
    ∃ y, ({ order := 3, rate := 2 } : PolyRate).filter polyfit (some [0, 1, 8, 27, 64]) = .ok y ∧ y.length = 10 ∧ y[3]? = some (27 / 8) := by
  obtain ⟨y, h1, h2, h3⟩ := C92_polynomials polyfit hfit { order := 3, rate := 2 } (.inr rfl) (by norm_num) [0, 1, 8, 27, 64] (by simp) 0 0 0 1 (by simp) (by
    intro n hn
    simp only [List.length_cons, List.length_nil] at hn
    rcases (by omega : n = 0 ∨ n = 1 ∨ n = 2 ∨ n = 3 ∨ n = 4) with rfl | rfl | rfl | rfl | rfl <;> norm_num [at0])
  have h4 : IsRound ((([0, 1, 8, 27, 64] : List ℝ).length : ℝ) * 2) 10 := by
    simp only [List.length_cons, List.length_nil, IsRound]; norm_num
  have h5 : y.length = 10 := by exact_mod_cast IsRound.unique h2 h4
  refine ⟨y, h1, h5, ?_⟩
  rw [h3 3 (by omega) (by norm_num) (by norm_num)]
  norm_num

/-- C92: order three amplifies by at most 5/4 away from the first and the last interval. -/
theorem C92_bound (polyfit : ℕ → List ℝ → List ℝ) (hfit : ∀ n d, d.length = 4 → IsPolyfit n d (polyfit n d)) (f : PolyRate) (ho : f.order = 3) (hr : 0 < f.rate) (x : List ℝ) (hx : 2 ≤ x.length)
    (M : ℝ) (h : ∀ n < x.length, |at0 x n| ≤ M) : ∃ y, f.filter polyfit (some x) = .ok y ∧ IsRound (x.length * f.rate) y.length ∧
      ∀ k < y.length, 1 ≤ (k : ℝ) / f.rate → (k : ℝ) / f.rate < x.length - 2 → |at0 y k| ≤ 5 / 4 * M := by
  obtain ⟨y, g1, g2, g3⟩ := C92_weights polyfit hfit f (.inr ho) hr x hx
  refine ⟨y, g1, g2, fun k hk h1 h2 => ?_⟩
  have hpos : 0 ≤ (k : ℝ) / f.rate := by positivity
  have hy := (g3 k hk).2 ⌊(k : ℝ) / f.rate⌋₊ (Nat.floor_le hpos) (Nat.lt_floor_add_one _)
  have hi1 : 1 ≤ ⌊(k : ℝ) / f.rate⌋₊ := Nat.le_floor (by exact_mod_cast h1)
  have hi2 : ⌊(k : ℝ) / f.rate⌋₊ + 2 < x.length := by
    have := Nat.floor_le hpos
    have : ((⌊(k : ℝ) / f.rate⌋₊ + 2 : ℕ) : ℝ) < x.length := by push_cast; linarith
    exact_mod_cast this
  have ht0 : 0 ≤ (k : ℝ) / f.rate - ⌊(k : ℝ) / f.rate⌋₊ := sub_nonneg.mpr (Nat.floor_le hpos)
  have ht1 : (k : ℝ) / f.rate - ⌊(k : ℝ) / f.rate⌋₊ ≤ 1 := by
    have := (Nat.lt_floor_add_one ((k : ℝ) / f.rate)).le
    linarith
  have hyv : at0 y k = ∑ j ∈ range 4, rateWeight f.order ((k : ℝ) / f.rate - ⌊(k : ℝ) / f.rate⌋₊) j * extend x ((⌊(k : ℝ) / f.rate⌋₊ : ℤ) - 1 + j) := by
    rw [at0_of_lt y k hk]
    rw [List.getElem?_eq_getElem hk, Option.some.injEq] at hy
    exact hy
  rw [hyv, rateWeight, if_pos ho]
  generalize (k : ℝ) / f.rate - ⌊(k : ℝ) / f.rate⌋₊ = t at ht0 ht1
  generalize ⌊(k : ℝ) / f.rate⌋₊ = i at hi1 hi2
  have e : ∀ j < 4, |extend x ((i : ℤ) - 1 + (j : ℕ))| ≤ M := by
    intro j hj
    rw [extend_inside x _ (by omega) (by omega)]
    exact h _ (by omega)
  have hM : 0 ≤ M := (abs_nonneg _).trans (e 0 (by omega))
  calc |∑ j ∈ range 4, cubicWeight t j * extend x ((i : ℤ) - 1 + (j : ℕ))| ≤ ∑ j ∈ range 4, |cubicWeight t j * extend x ((i : ℤ) - 1 + (j : ℕ))| := abs_sum_le_sum_abs _ _
    _ ≤ ∑ j ∈ range 4, |cubicWeight t j| * M := by
      refine sum_le_sum fun j hj => ?_
      rw [abs_mul]
      exact mul_le_mul_of_nonneg_left (e j (mem_range.mp hj)) (abs_nonneg _)
    _ = (1 + t * (1 - t)) * M := by
      have s1 : 0 ≤ 1 - t := by linarith
      have s2 : 0 ≤ 2 - t := by linarith
      simp only [sum_range_succ, range_zero, sum_empty, zero_add, cubicWeight, abs_neg]
      rw [abs_of_nonneg (by positivity), abs_of_nonneg (by positivity), abs_of_nonneg (by positivity), abs_of_nonneg (by positivity)]
      ring
    _ ≤ 5 / 4 * M := by
      refine mul_le_mul_of_nonneg_right ?_ hM
      nlinarith [sq_nonneg (t - 1 / 2)]

/-- The hypotheses of C92_bound are met. -/
example (polyfit : ℕ → List ℝ → List ℝ) (hfit : ∀ n d, d.length = 4 → IsPolyfit n d (polyfit n d)) :
    ∃ y, ({ order := 3, rate := 2 } : PolyRate).filter polyfit (some [1, -1, -1, 1]) = .ok y ∧ |at0 y 2| ≤ 5 / 4 := by
  obtain ⟨y, h1, h2, h3⟩ := C92_bound polyfit hfit { order := 3, rate := 2 } rfl (by norm_num) [1, -1, -1, 1] (by simp) 1 (by
    intro n hn
    simp only [List.length_cons, List.length_nil] at hn
    rcases (by omega : n = 0 ∨ n = 1 ∨ n = 2 ∨ n = 3) with rfl | rfl | rfl | rfl <;> norm_num [at0])
  have h4 : IsRound ((([1, -1, -1, 1] : List ℝ).length : ℝ) * 2) 8 := by
    simp only [List.length_cons, List.length_nil, IsRound]; norm_num
  have h5 : y.length = 8 := by exact_mod_cast IsRound.unique h2 h4
  refine ⟨y, h1, ?_⟩
  have := h3 2 (by omega) (by norm_num) (by norm_num)
  linarith

/-- C92, witness: order two does not pass through the samples.  At rate 1 the signal 0, 1, 0, 0, 0 is changed to 11/20 at the place of its second sample. -/
theorem C92_parabola_witness (polyfit : ℕ → List ℝ → List ℝ) (hfit : ∀ n d, d.length = 4 → IsPolyfit n d (polyfit n d)) :
    ∃ y, ({ order := 2, rate := 1 } : PolyRate).filter polyfit (some [0, 1, 0, 0, 0]) = .ok y ∧ y.length = 5 ∧ y[1]? = some (11 / 20) := by
  obtain ⟨y, h1, h2, h3⟩ := C92_weights polyfit hfit { order := 2, rate := 1 } (.inl rfl) (by norm_num) [0, 1, 0, 0, 0] (by simp)
  have h4 : IsRound ((([0, 1, 0, 0, 0] : List ℝ).length : ℝ) * 1) 5 := by
    simp only [List.length_cons, List.length_nil, IsRound]; norm_num
  have h5 : y.length = 5 := by exact_mod_cast IsRound.unique h2 h4
  refine ⟨y, h1, h5, ?_⟩
  rw [(h3 1 (by omega)).2 1 (by norm_num) (by norm_num)]
  congr 1
  have e0 : extend [0, 1, 0, 0, 0] 0 = 0 := by rw [extend_inside _ _ (by norm_num) (by norm_num)]; rfl
  have e1 : extend [0, 1, 0, 0, 0] 1 = 1 := by rw [extend_inside _ _ (by norm_num) (by norm_num)]; rfl
  have e2 : extend [0, 1, 0, 0, 0] 2 = 0 := by rw [extend_inside _ _ (by norm_num) (by norm_num)]; rfl
  have e3 : extend [0, 1, 0, 0, 0] 3 = 0 := by rw [extend_inside _ _ (by norm_num) (by norm_num)]; rfl
  simp [sum_range_succ, rateWeight, parabolaWeight, e0, e1, e2, e3]

end Verif.Props
