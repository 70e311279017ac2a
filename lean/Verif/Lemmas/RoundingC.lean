import Verif.Props.Rounding
import Verif.Spec.RoundingC

/-
Rounding in IirFilter with complex coefficients: as Verif/Lemmas/Rounding.lean, Verif/Lemmas/RoundingIir.lean and Verif/Props/Rounding.lean, for values in ℂ and with
constants which depend on the coefficients through bounds only.
-/

namespace Verif

open Finset Spec

/-- A recursion with a stable characteristic and bounded perturbation is bounded. -/
theorem recursion_boundC (a : List ℂ) (h0 : at0 a 0 = 0) (G : ℝ) (N : ℕ) (hG : ∀ n ≤ N, ∑ k ∈ range n, ‖PowerSeries.coeff k (recip a)‖ ≤ G) (w d : ℕ → ℂ)
    (hw : ∀ n < N, w n = d n + ∑ i ∈ range (n + 1), at0 a i * w (n - i)) (D : ℝ) (hD : ∀ n < N, ‖d n‖ ≤ D) :
    ∀ n < N, ‖w n‖ ≤ G * D := by
  have key : ∀ n < N, w n = ∑ i ∈ range (n + 1), PowerSeries.coeff i (recip a) * d (n - i) := by
    have hrec : ∀ n, (∑ i ∈ range (n + 1), PowerSeries.coeff i (recip a) * d (n - i)) =
        d n + ∑ i ∈ range (n + 1), at0 a i * (∑ j ∈ range (n - i + 1), PowerSeries.coeff j (recip a) * d (n - i - j)) := by
      intro n
      have hc : ∀ m, PowerSeries.coeff m (recip a * PowerSeries.mk d) = ∑ i ∈ range (m + 1), PowerSeries.coeff i (recip a) * d (m - i) := by
        intro m
        rw [PowerSeries.coeff_mul, Finset.Nat.sum_antidiagonal_eq_sum_range_succ_mk]
        simp
      have hW : recip a * PowerSeries.mk d = PowerSeries.mk d + ser a * (recip a * PowerSeries.mk d) := by
        have := mul_recip a h0
        linear_combination (PowerSeries.mk d) * this
      rw [← hc]
      conv_lhs => rw [hW]
      rw [map_add, PowerSeries.coeff_mk, PowerSeries.coeff_mul, Finset.Nat.sum_antidiagonal_eq_sum_range_succ_mk]
      simp only [coeff_ser, hc]
    intro n
    induction n using Nat.strong_induction_on with
    | _ n ih =>
      intro hn
      rw [hw n hn, hrec n]
      congr 1
      apply sum_congr rfl
      intro i hi
      rcases i with _ | i
      · rw [h0, zero_mul, zero_mul]
      · rw [ih (n - (i + 1)) (by have := mem_range.mp hi; omega) (by omega)]
  intro n hn
  have hD0 : 0 ≤ D := (norm_nonneg _).trans (hD n hn)
  rw [key n hn]
  have hG' := hG (n + 1) (by omega)
  calc ‖∑ i ∈ range (n + 1), PowerSeries.coeff i (recip a) * d (n - i)‖
      ≤ ∑ i ∈ range (n + 1), ‖PowerSeries.coeff i (recip a)‖ * D := by
        refine (norm_sum_le _ _).trans (sum_le_sum fun i hi => ?_)
        rw [norm_mul]
        exact mul_le_mul_of_nonneg_left (hD _ (by omega)) (norm_nonneg _)
    _ = (∑ i ∈ range (n + 1), ‖PowerSeries.coeff i (recip a)‖) * D := by rw [sum_mul]
    _ ≤ G * D := by
        exact mul_le_mul_of_nonneg_right hG' hD0


/-- The contents of a delay line. -/
theorem delay_lineC (L N : ℕ) (p : ℕ → ℕ → ℂ) (w : ℕ → ℂ) (h1 : ∀ k < N, 1 < L → p (k + 1) 1 = w k)
    (h2 : ∀ k < N, ∀ i, i + 2 < L → p (k + 1) (i + 2) = p k (i + 1)) :
    ∀ k ≤ N, ∀ i, 1 ≤ i → i < L → p k i = if i ≤ k then w (k - i) else p 0 (i - k) := by
  intro k
  induction k with
  | zero => intro _ i h _; rw [if_neg (by omega)]; rfl
  | succ k ih =>
    intro hk i hi hL
    rcases i with _ | _ | i
    · omega
    · rw [if_pos (by omega), h1 k (by omega) hL]; rfl
    · rw [h2 k (by omega) i hL, ih (by omega) (i + 1) (by omega) (by omega)]
      by_cases h : i + 1 ≤ k
      · rw [if_pos h, if_pos (by omega)]; congr 1; omega
      · rw [if_neg h, if_neg (by omega)]; congr 1; omega


/-- Value of the update of the recursion, before rounding. -/
noncomputable def updateC (a : List ℂ) (p : ℕ → ℂ) : ℂ := p 0 + ∑ i ∈ range a.length, at0 a i * p i


theorem at0_map_valC {F : Type*} [Zero F] (val : F → ℂ) (h0 : val 0 = 0) (l : List F) (i : ℕ) : at0 (l.map val) i = val (at0 l i) := by
  by_cases hi : i < l.length
  · rw [at0_of_lt _ _ (by simpa using hi), at0_of_lt _ _ hi]; simp
  · rw [at0_of_le _ _ (by simpa using hi), at0_of_le _ _ (by omega), h0]


/-- Bounds for a stable recursion and a perturbed copy of it.  `p k i` and `q k i` are the entries of the exact and of the perturbed state after `k` samples. -/
theorem perturbed_recursionC (a : List ℂ) (h0 : at0 a 0 = 0) (G : ℝ) (hG1 : 1 ≤ G) (A : ℝ)
    (hA : ∑ i ∈ range a.length, ‖at0 a i‖ ≤ A) (N : ℕ) (hG : ∀ n ≤ N, ∑ k ∈ range n, ‖PowerSeries.coeff k (recip a)‖ ≤ G) (x : ℕ → ℂ) (p q : ℕ → ℕ → ℂ) (v : ℕ → ℂ) (M u η : ℝ)
    (hM : 0 ≤ M) (hu : 0 ≤ u) (hη : 0 ≤ η) (hsmall : 6 * u * A * G ≤ 1)
    (hx : ∀ k < N, ‖x k‖ ≤ M) (hs : ∀ i < a.length, ‖p 0 i‖ ≤ M) (hpq : ∀ i, q 0 i = p 0 i)
    (p0 : ∀ k < N, p (k + 1) 0 = x k) (p1 : ∀ k < N, 1 < a.length → p (k + 1) 1 = updateC a (p k))
    (p2 : ∀ k < N, ∀ i, i + 2 < a.length → p (k + 1) (i + 2) = p k (i + 1))
    (q0 : ∀ k < N, q (k + 1) 0 = x k) (q1 : ∀ k < N, 1 < a.length → q (k + 1) 1 = v k)
    (q2 : ∀ k < N, ∀ i, i + 2 < a.length → q (k + 1) (i + 2) = q k (i + 1))
    (hv : ∀ k < N, ‖v k - updateC a (q k)‖ ≤ u * (‖q k 0‖ + 3 * ∑ i ∈ range a.length, ‖at0 a i * q k i‖) + 3 * η) :
    ∀ k ≤ N, ∀ i < a.length, ‖p k i‖ ≤ G * (1 + A) * M ∧
      ‖q k i - p k i‖ ≤ 2 * G * (u * (1 + 3 * A) * (G * (1 + A) * M) + 3 * η) := by
  have hA0 : 0 ≤ A := (sum_nonneg fun i _ => norm_nonneg _).trans hA
  have hW : M ≤ G * (1 + A) * M := le_mul_of_one_le_left hM (by nlinarith)
  set W := G * (1 + A) * M with hWd
  set E := 2 * G * (u * (1 + 3 * A) * W + 3 * η) with hEd
  have hW0 : 0 ≤ W := hM.trans hW
  have hE0 : 0 ≤ E := by positivity
  set w : ℕ → ℂ := fun k => updateC a (p k) with hw
  have dp := delay_lineC a.length N p w p1 p2
  have dq := delay_lineC a.length N q v q1 q2
  have hp00 : ∀ k ≤ N, 0 < a.length → ‖p k 0‖ ≤ M := by
    intro k hk hl
    rcases k with _ | k
    · exact hs 0 hl
    · rw [p0 k (by omega)]; exact hx k (by omega)
  have hq00 : ∀ k ≤ N, q k 0 = p k 0 := by
    intro k hk
    rcases k with _ | k
    · exact hpq 0
    · rw [p0 k (by omega), q0 k (by omega)]
  rcases Nat.eq_zero_or_pos a.length with hl0 | hl
  · intro k _ i hi; omega
  -- the exact recursion
  have hwb : ∀ n < N, ‖w n‖ ≤ W := by
    have hb := recursion_boundC a h0 G N hG w (fun n => w n - ∑ i ∈ range (n + 1), at0 a i * w (n - i)) (fun n _ => by ring) ((1 + A) * M) ?_
    · intro n hn; have := hb n hn; rw [hWd, mul_assoc]; exact this
    · intro n hn
      have e : w n - ∑ i ∈ range (n + 1), at0 a i * w (n - i) = p n 0 + ∑ i ∈ range a.length, at0 a i * (if i ≤ n then 0 else p n i) := by
        have e1 : ∑ i ∈ range (n + 1), at0 a i * w (n - i) = ∑ i ∈ range a.length, at0 a i * (if i ≤ n then w (n - i) else 0) := by
          rw [sum_range_extend a (fun i => if i ≤ n then w (n - i) else 0) n a.length le_rfl (fun i hi _ => by simp; omega)]
          apply sum_congr rfl
          intro i hi
          rw [if_pos (by have := mem_range.mp hi; omega)]
        rw [e1, hw]
        simp only [updateC]
        rw [add_sub_assoc, ← sum_sub_distrib]
        congr 1
        apply sum_congr rfl
        intro i hi
        rcases i with _ | i
        · simp [h0]
        · have := dp n hn.le (i + 1) (by omega) (mem_range.mp hi)
          by_cases h : i + 1 ≤ n
          · rw [if_pos h] at this; rw [if_pos h, if_pos h, this]; simp only [hw, updateC]; ring
          · rw [if_neg h, if_neg h]; ring
      rw [e]
      refine (norm_add_le _ _).trans ?_
      have : ‖∑ i ∈ range a.length, at0 a i * (if i ≤ n then 0 else p n i)‖ ≤ A * M := by
        refine le_trans ?_ (mul_le_mul_of_nonneg_right hA hM)
        rw [sum_mul]
        refine (norm_sum_le _ _).trans (sum_le_sum fun i hi => ?_)
        rw [norm_mul]
        apply mul_le_mul_of_nonneg_left _ (norm_nonneg _)
        split_ifs with h
        · simpa using hM
        · have := dp n hn.le i (by omega) (mem_range.mp hi)
          rw [if_neg h] at this
          rw [this]
          exact hs _ (by have := mem_range.mp hi; omega)
      have := hp00 n hn.le hl
      linarith
  have hpb : ∀ k ≤ N, ∀ i < a.length, ‖p k i‖ ≤ W := by
    intro k hk i hi
    rcases i with _ | i
    · exact (hp00 k hk hl).trans hW
    · rw [dp k hk (i + 1) (by omega) hi]
      split_ifs with h
      · exact hwb _ (by omega)
      · exact (hs _ (by omega)).trans hW
  -- the error
  set e : ℕ → ℂ := fun k => v k - w k with he
  set δ : ℕ → ℂ := fun k => v k - updateC a (q k) with hδ
  have hrec : ∀ n < N, e n = δ n + ∑ i ∈ range (n + 1), at0 a i * e (n - i) := by
    intro n hn
    have e1 : ∑ i ∈ range (n + 1), at0 a i * e (n - i) = ∑ i ∈ range a.length, at0 a i * (if i ≤ n then e (n - i) else 0) := by
      rw [sum_range_extend a (fun i => if i ≤ n then e (n - i) else 0) n a.length le_rfl (fun i hi _ => by simp; omega)]
      apply sum_congr rfl
      intro i hi
      rw [if_pos (by have := mem_range.mp hi; omega)]
    have e2 : updateC a (q n) - w n = ∑ i ∈ range a.length, at0 a i * (if i ≤ n then e (n - i) else 0) := by
      simp only [hw, updateC]
      rw [hq00 n hn.le, add_sub_add_left_eq_sub, ← sum_sub_distrib]
      apply sum_congr rfl
      intro i hi
      rcases i with _ | i
      · simp [h0]
      · have a1 := dp n hn.le (i + 1) (by omega) (mem_range.mp hi)
        have a2 := dq n hn.le (i + 1) (by omega) (mem_range.mp hi)
        rw [a1, a2]
        by_cases h : i + 1 ≤ n
        · rw [if_pos h, if_pos h, if_pos h]; simp only [he]; ring
        · rw [if_neg h, if_neg h, if_neg h, hpq]; ring
    rw [e1, ← e2]; simp only [he, hδ]; ring
  have hdiff : ∀ m, m ≤ N → (∀ n < m, ‖e n‖ ≤ E) → ∀ i < a.length, ‖q m i - p m i‖ ≤ E := by
    intro m hm hem i hi
    rcases i with _ | i
    · rw [hq00 m hm]; simpa using hE0
    · rw [dp m hm (i + 1) (by omega) hi, dq m hm (i + 1) (by omega) hi]
      split_ifs with h
      · exact hem _ (by omega)
      · rw [hpq]; simpa using hE0
  have heb : ∀ m, m ≤ N → ∀ n < m, ‖e n‖ ≤ E := by
    intro m
    induction m with
    | zero => intro _ n hn; omega
    | succ m ih =>
      intro hm n hn
      have hprev := ih (by omega)
      have hδb : ∀ k < m + 1, ‖δ k‖ ≤ u * (W + 3 * (A * (W + E))) + 3 * η := by
        intro k hk
        refine (hv k (by omega)).trans ?_
        have hd := hdiff k (by omega) (fun n hn => hprev n (by omega))
        have h1 : ‖q k 0‖ ≤ W := by rw [hq00 k (by omega)]; exact hpb k (by omega) 0 hl
        have h2 : ∑ i ∈ range a.length, ‖at0 a i * q k i‖ ≤ A * (W + E) := by
          refine le_trans ?_ (mul_le_mul_of_nonneg_right hA (by linarith))
          rw [sum_mul]
          refine sum_le_sum fun i hi => ?_
          rw [norm_mul]
          apply mul_le_mul_of_nonneg_left _ (norm_nonneg _)
          have b1 := hd i (mem_range.mp hi)
          have b2 := hpb k (by omega) i (mem_range.mp hi)
          calc ‖q k i‖ = ‖p k i + (q k i - p k i)‖ := by congr 1; ring
            _ ≤ ‖p k i‖ + ‖q k i - p k i‖ := norm_add_le _ _
            _ ≤ W + E := by linarith
        have := mul_le_mul_of_nonneg_left (show ‖q k 0‖ + 3 * ∑ i ∈ range a.length, ‖at0 a i * q k i‖ ≤ W + 3 * (A * (W + E)) by linarith) hu
        linarith
      have hb := recursion_boundC a h0 G (m + 1) (fun n hn => hG n (by omega)) e δ (fun n hn => hrec n (by omega)) _ hδb n hn
      refine hb.trans ?_
      have : 6 * u * A * G * E ≤ 1 * E := mul_le_mul_of_nonneg_right hsmall hE0
      nlinarith [hEd]
  intro k hk i hi
  exact ⟨hpb k hk i hi, hdiff k hk (heb k hk) i hi⟩


/-- Two roundings in sequence. -/
theorem two_roundingsC (v x d S : ℂ) (T u η : ℝ) (hu : 0 ≤ u) (hu1 : u ≤ 1) (hη : 0 ≤ η) (hST : ‖S‖ ≤ T) (h1 : ‖v - (x + d)‖ ≤ u * (‖x‖ + ‖d‖) + η)
    (h2 : ‖d - S‖ ≤ u * T + η) : ‖v - (x + S)‖ ≤ u * (‖x‖ + 3 * T) + 3 * η := by
  have hT0 : 0 ≤ T := (norm_nonneg _).trans hST
  have hdabs : ‖d‖ ≤ T + (u * T + η) := by
    have := norm_sub_norm_le d S
    linarith
  have h3 := norm_add_le (v - (x + d)) (d - S)
  rw [show v - (x + d) + (d - S) = v - (x + S) by ring] at h3
  have h4 := mul_le_mul_of_nonneg_left hdabs hu
  have h5 : u * T ≤ T := mul_le_of_le_one_left hT0 hu1
  have h6 : u * η ≤ η := mul_le_of_le_one_left hη hu1
  have h7 : u * (u * T) ≤ u * T := mul_le_mul_of_nonneg_left h5 hu
  linarith


/-- The constant of the bound on the rounding error. -/
noncomputable def roundingK (A Q L : ℝ) : ℝ :=
  7 * Q * (1 + A + 2 * ((1 + 3 * A) * (1 + A) + 3)) + 7 * Q * (2 * ((1 + 3 * A) * (1 + A) + 3)) + 6 * L * (1 + A + 2 * ((1 + 3 * A) * (1 + A) + 3)) +
    6 * L * (2 * ((1 + 3 * A) * (1 + A) + 3)) + 1 + Q * (2 * ((1 + 3 * A) * (1 + A) + 3))

theorem roundingK_mono (A Q Q' L : ℝ) (hA : 0 ≤ A) (h : Q' ≤ Q) : roundingK A Q' L ≤ roundingK A Q L := by
  unfold roundingK
  have h1 : Q' * (1 + A + 2 * ((1 + 3 * A) * (1 + A) + 3)) ≤ Q * (1 + A + 2 * ((1 + 3 * A) * (1 + A) + 3)) := mul_le_mul_of_nonneg_right h (by positivity)
  have h2 : Q' * (2 * ((1 + 3 * A) * (1 + A) + 3)) ≤ Q * (2 * ((1 + 3 * A) * (1 + A) + 3)) := mul_le_mul_of_nonneg_right h (by positivity)
  linarith

/-- The rounding error of IirFilter grows at most with the square of `G`, the sum of the magnitudes of the impulse response of `1 / (1 - a)` over the length of the
signal. -/
theorem iir_roundingC (a b : List ℂ) (hab : a.length = b.length) (ha : a ≠ []) (h0 : at0 a 0 = 0) (A Q₀ : ℝ) (hA : ∑ i ∈ range a.length, ‖at0 a i‖ ≤ A)
    (hQ₀ : ∑ i ∈ range a.length, (‖at0 a i * at0 b 0‖ + ‖at0 b i‖) ≤ Q₀) (G : ℝ) (hG1 : 1 ≤ G) {F : Type*} [Add F] [Mul F] [Dot F] [Zero F] (val : F → ℂ) (u η : ℝ)
    (hF : RoundedC val a.length u η) (hu : 0 ≤ u) (hu0 : u * G ≤ 1 / (6 * A + 1)) (hη : 0 ≤ η) (hη1 : η ≤ 1) (f : Iir F) (hc : f.cast = id) (hfa : f.a.map val = a)
    (hfb : f.b.map val = b) (hfs : f.s.length = a.length) (x : List F) (M : ℝ) (hx : x ≠ [])
    (hG : ∀ n ≤ x.length, ∑ k ∈ range n, ‖PowerSeries.coeff k (recip a)‖ ≤ G) (hxM : ∀ v ∈ x, ‖val v‖ ≤ M) (hsM : ∀ v ∈ f.s, ‖val v‖ ≤ M) :
    ∃ y f' z g', f.filter x = (.ok y, f') ∧ (Iir.mk id a b (f.s.map val)).filter (x.map val) = (.ok z, g') ∧
      y.length = x.length ∧ z.length = x.length ∧ ∀ n < x.length, ‖val (at0 y n) - at0 z n‖ ≤ roundingK A Q₀ a.length * G ^ 2 * (u * M + η * (1 + M)) := by
  have hA0 : 0 ≤ A := (sum_nonneg fun i _ => norm_nonneg _).trans hA
  set B : ℕ → ℝ := fun i => ‖at0 a i * at0 b 0‖ + ‖at0 b i‖ with hB
  have hB0 : ∀ i, 0 ≤ B i := fun i => by positivity
  set Q := ∑ i ∈ range a.length, B i with hQ
  have hQ0 : 0 ≤ Q := sum_nonneg fun i _ => hB0 i
  set L : ℝ := (a.length : ℝ) with hL
  have hL0 : 0 ≤ L := Nat.cast_nonneg _
  set K1 := G * (1 + A) with hK1
  have hK10 : 0 ≤ K1 := by positivity
  set K2 := 2 * G * ((1 + 3 * A) * K1 + 3) with hK2
  have hK20 : 0 ≤ K2 := by positivity
  have hu1 : u ≤ 1 := (le_mul_of_one_le_right hu hG1).trans (hu0.trans (by rw [div_le_one (by positivity)]; linarith))
  have hsmall : 6 * u * A * G ≤ 1 := by
    have h := hu0
    rw [le_div_iff₀ (by positivity)] at h
    nlinarith [mul_nonneg hu (zero_le_one.trans hG1)]
  have hM : 0 ≤ M := by
    obtain ⟨v, hv⟩ := List.exists_mem_of_ne_nil x hx
    exact (norm_nonneg _).trans (hxM v hv)
  have hal : f.a.length = a.length := by rw [← hfa]; simp
  have hbl : f.b.length = a.length := by rw [hab, ← hfb]; simp
  have hpos : 0 < a.length := List.length_pos_of_ne_nil ha
  have hwf : f.WF := ⟨by rw [hal, hbl], by rw [hbl, hfs], by omega⟩
  set g : Iir ℂ := Iir.mk id a b (f.s.map val) with hg
  have hgwf : g.WF := ⟨hab, by simp [hg, hfs, hab], by simp [hg]; omega⟩
  have hxl : x.length ≠ 0 := by simpa using hx
  obtain ⟨y, f', r1, r2, r3⟩ := Iir.run_iter x f hwf
  obtain ⟨z, g', t1, t2, t3⟩ := Iir.run_iter (x.map val) g hgwf
  refine ⟨y, f', z, g', by simp [Iir.filter, hxl, r1], by simp [Iir.filter, hxl, t1], r2, by simpa using t2, ?_⟩
  have hz := hF.zero
  set p : ℕ → ℕ → ℂ := fun k i => at0 (g.iter (x.map val) k).s i with hp
  set q : ℕ → ℕ → ℂ := fun k i => val (at0 (f.iter x k).s i) with hq
  have hav : ∀ i, val (at0 f.a i) = at0 a i := fun i => by rw [← hfa, at0_map_valC val hz]
  have hbv : ∀ i, val (at0 f.b i) = at0 b i := fun i => by rw [← hfb, at0_map_valC val hz]
  have hmem : ∀ (l : List F), (∀ v ∈ l, ‖val v‖ ≤ M) → ∀ i, ‖val (at0 l i)‖ ≤ M := by
    intro l hl i
    by_cases hi : i < l.length
    · rw [at0_of_lt _ _ hi]; exact hl _ (List.getElem_mem hi)
    · rw [at0_of_le _ _ (by omega), hz, norm_zero]; exact hM
  have ent := fun k hk => Iir.iter_entries f hwf hc x k hk
  have ent' := fun k (hk : k < x.length) => Iir.iter_entries g hgwf rfl (x.map val) k (by simpa using hk)
  have hlen : ∀ k, (f.iter x k).s.length = a.length := by
    intro k
    obtain ⟨w1, w2, w3, w4⟩ := Iir.iter_wf f hwf x k
    rw [← w1.2.1, w3, hbl]
  have hcore := perturbed_recursionC a h0 G hG1 A hA x.length hG (fun k => val (at0 x k)) p q
    (fun k => val (at0 (f.iter x k).s 0 + dot f.a (f.iter x k).s)) M u η hM hu hη hsmall (fun k _ => hmem x hxM k)
    (fun i _ => by
      show ‖at0 (f.s.map val) i‖ ≤ M
      rw [at0_map_valC val hz]; exact hmem _ hsM i)
    (fun i => by
      show val (at0 f.s i) = at0 (f.s.map val) i
      rw [at0_map_valC val hz])
    (fun k hk => by
      show at0 (g.iter (x.map val) (k + 1)).s 0 = _
      rw [(ent' k hk).1, at0_map_valC val hz])
    (fun k hk hl => by
      show at0 (g.iter (x.map val) (k + 1)).s 1 = _
      rw [(ent' k hk).2.1 hl, dot_eq_sum]; rfl)
    (fun k hk i hi => (ent' k hk).2.2 i hi)
    (fun k hk => by
      show val (at0 (f.iter x (k + 1)).s 0) = _
      rw [(ent k hk).1])
    (fun k hk hl => by
      show val (at0 (f.iter x (k + 1)).s 1) = _
      rw [(ent k hk).2.1 (by rw [hal]; exact hl)])
    (fun k hk i hi => by
      show val (at0 (f.iter x (k + 1)).s (i + 2)) = _
      rw [(ent k hk).2.2 i (by rw [hal]; exact hi)])
    (fun k hk => by
      have hd := hF.dot f.a (f.iter x k).s hal (hlen k)
      have hadd := hF.add (at0 (f.iter x k).s 0) (dot f.a (f.iter x k).s)
      simp only [hav] at hd
      set d := val (dot f.a (f.iter x k).s)
      set S := ∑ i ∈ range a.length, at0 a i * val (at0 (f.iter x k).s i) with hS
      set T := ∑ i ∈ range a.length, ‖at0 a i * val (at0 (f.iter x k).s i)‖ with hT
      exact two_roundingsC _ _ _ S T u η hu hu1 hη (norm_sum_le _ _) hadd hd)
  set W := G * (1 + A) * M with hW
  set E := 2 * G * (u * (1 + 3 * A) * W + 3 * η) with hE
  have hW0 : 0 ≤ W := by positivity
  have hE0 : 0 ≤ E := by positivity
  intro n hn
  obtain ⟨w1, w2, w3, w4⟩ := Iir.iter_wf f hwf x (n + 1)
  have hy : at0 y n = dot f.comb (f.iter x (n + 1)).s := by
    unfold at0
    rw [List.getD_eq_getElem?_getD, r3 n hn, hc]; rfl
  have hzz : at0 z n = dot g.comb (g.iter (x.map val) (n + 1)).s := by
    unfold at0
    rw [List.getD_eq_getElem?_getD, t3 n (by simpa using hn)]; rfl
  -- combined coefficients
  have hcl : f.comb.length = a.length := by rw [Iir.comb_length f hwf, hbl]
  have hgc : ∀ i, at0 g.comb i = at0 a i * at0 b 0 + at0 b i := by
    intro i
    rcases hb : b with _ | ⟨b0, bt⟩
    · rw [hb] at hab; simp at hab; exact absurd hab ha
    · simp only [hg, Iir.comb, hb]
      rw [at0_zipWith_add _ _ (by rw [← hb, ← hab]; simp), at0_map_mul]; rfl
  have hcomb : ∀ i < a.length, ‖val (at0 f.comb i) - at0 g.comb i‖ ≤ 3 * u * B i + 3 * η := by
    intro i hi
    have hfc : at0 f.comb i = at0 f.a i * at0 f.b 0 + at0 f.b i := by
      rcases hb : f.b with _ | ⟨b0, bt⟩
      · rw [hb] at hbl; simp at hbl; omega
      · have hbt : (b0 :: bt).length = a.length := by rw [← hb, hbl]
        simp only [Iir.comb, hb]
        rw [at0_of_lt _ _ (by simp only [List.length_zipWith, List.length_map, hal, hbt]; omega), at0_of_lt f.a _ (by omega),
          at0_of_lt (b0 :: bt) i (by omega)]
        simp only [List.getElem_zipWith, List.getElem_map]
        rfl
    rw [hgc, hfc]
    have hm := hF.mul (at0 f.a i) (at0 f.b 0)
    have had := hF.add (at0 f.a i * at0 f.b 0) (at0 f.b i)
    rw [hav, hbv] at hm
    rw [hbv] at had
    set m := val (at0 f.a i * at0 f.b 0)
    set P := at0 a i * at0 b 0
    rw [add_comm m, norm_sub_rev, norm_sub_rev, add_comm ‖m‖] at had
    have h := two_roundingsC _ _ _ P ‖P‖ u η hu hu1 hη le_rfl had hm
    rw [add_comm P]
    have hb0 : 0 ≤ u * ‖at0 b i‖ := mul_nonneg hu (norm_nonneg _)
    simp only [hB]
    linarith
  -- the output
  have hdot := hF.dot f.comb (f.iter x (n + 1)).s hcl (hlen _)
  rw [hy, hzz, dot_eq_sum, Iir.comb_length g hgwf, show g.b.length = a.length from hab.symm]
  have hcs := fun i hi => hcore (n + 1) (by omega) i hi
  have hqb : ∀ i < a.length, ‖val (at0 (f.iter x (n + 1)).s i)‖ ≤ W + E := by
    intro i hi
    have h1 := (hcs i hi).1
    have h2 := (hcs i hi).2
    have h3 := norm_sub_norm_le (val (at0 (f.iter x (n + 1)).s i)) (at0 (g.iter (x.map val) (n + 1)).s i)
    simp only [hp, hq] at h1 h2
    linarith
  have hcb : ∀ i < a.length, ‖at0 g.comb i‖ ≤ B i := fun i _ => by rw [hgc]; exact norm_add_le _ _
  have hcb' : ∀ i < a.length, ‖val (at0 f.comb i)‖ ≤ 4 * B i + 3 * η := by
    intro i hi
    have h1 := hcomb i hi
    have h2 := hcb i hi
    have h3 := norm_sub_norm_le (val (at0 f.comb i)) (at0 g.comb i)
    have h4 : u * B i ≤ B i := mul_le_of_le_one_left (hB0 i) hu1
    linarith
  have hsumη : ∀ c d : ℝ, ∑ i ∈ range a.length, (c * B i + d) = c * Q + L * d := by
    intro c d
    rw [sum_add_distrib, ← mul_sum]; simp [hQ, hL]
  have s1 : ∑ i ∈ range a.length, ‖val (at0 f.comb i) * val (at0 (f.iter x (n + 1)).s i)‖ ≤ (4 * Q + L * (3 * η)) * (W + E) := by
    rw [← hsumη, sum_mul]
    refine sum_le_sum fun i hi => ?_
    rw [norm_mul]
    exact mul_le_mul (hcb' i (mem_range.mp hi)) (hqb i (mem_range.mp hi)) (norm_nonneg _) (by have := hB0 i; positivity)
  have s2 : ‖∑ i ∈ range a.length, val (at0 f.comb i) * val (at0 (f.iter x (n + 1)).s i) -
      ∑ i ∈ range a.length, at0 g.comb i * at0 (g.iter (x.map val) (n + 1)).s i‖ ≤ (3 * u * Q + L * (3 * η)) * (W + E) + Q * E := by
    rw [← hsumη, sum_mul, hQ, sum_mul, ← sum_add_distrib, ← sum_sub_distrib]
    refine (norm_sum_le _ _).trans (sum_le_sum fun i hi => ?_)
    have hi' := mem_range.mp hi
    rw [show val (at0 f.comb i) * val (at0 (f.iter x (n + 1)).s i) - at0 g.comb i * at0 (g.iter (x.map val) (n + 1)).s i =
      (val (at0 f.comb i) - at0 g.comb i) * val (at0 (f.iter x (n + 1)).s i) +
      at0 g.comb i * (val (at0 (f.iter x (n + 1)).s i) - at0 (g.iter (x.map val) (n + 1)).s i) by ring]
    refine (norm_add_le _ _).trans ?_
    rw [norm_mul, norm_mul]
    exact add_le_add (mul_le_mul (hcomb i hi') (hqb i hi') (norm_nonneg _) (by have := hB0 i; positivity))
      (mul_le_mul (hcb i hi') (hcs i hi').2 (norm_nonneg _) (hB0 i))
  have s3 := norm_add_le (val (dot f.comb (f.iter x (n + 1)).s) - ∑ i ∈ range a.length, val (at0 f.comb i) * val (at0 (f.iter x (n + 1)).s i))
    (∑ i ∈ range a.length, val (at0 f.comb i) * val (at0 (f.iter x (n + 1)).s i) -
      ∑ i ∈ range a.length, at0 g.comb i * at0 (g.iter (x.map val) (n + 1)).s i)
  rw [sub_add_sub_cancel] at s3
  have s4 := mul_le_mul_of_nonneg_left s1 hu
  have hc := output_constants K1 K2 Q L M u η E hK10 hK20 hQ0 hL0 hM hu hu1 hη hη1 hE0 (first_order G A M u η (by linarith) hA0 hM hu hη)
  rw [show K1 * M = W from rfl] at hc
  have hfin := (growth_constants G A Q L hG1 hA0 hQ0 hL0).trans (mul_le_mul_of_nonneg_right (roundingK_mono A Q₀ Q L hA0 hQ₀) (sq_nonneg G))
  have := mul_le_mul_of_nonneg_right hfin (show 0 ≤ u * M + η * (1 + M) by positivity)
  linarith


end Verif
