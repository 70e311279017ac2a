import Verif.Model.Wavelet
import Verif.Spec.Bank
import Verif.Props.Fir
import Mathlib.Algebra.Ring.Parity
import Mathlib.Tactic.Ring
import Mathlib.Tactic.Linarith
import Mathlib.Tactic.LinearCombination

namespace Verif

open Finset Spec

theorem wav.fir_spec (b l : List ℝ) (hb : b ≠ []) (hl : l ≠ []) :
    (wav.fir b l).length = l.length ∧ ∀ n < l.length, at0 (wav.fir b l) n = conv b l n := by
  obtain ⟨f, y, f', h1, h2, h3, h4⟩ := Props.C01_fir_convolution b l hb hl
  have e : wav.fir b l = y := by unfold wav.fir; rw [h1]; simp only [h2]
  rw [e]
  refine ⟨h3, fun n hn => ?_⟩
  unfold at0
  rw [List.getD_eq_getElem?_getD, h4 n hn]; rfl

/-- Convolution with integer times. -/
theorem conv_zext (b l : List ℝ) (n : ℕ) : conv b l n = ∑ i ∈ range b.length, at0 b i * zext l ((n : ℤ) - i) := by
  unfold conv
  have e1 : ∀ i ∈ range (n + 1), at0 b i * at0 l (n - i) = at0 b i * zext l ((n : ℤ) - i) := by
    intro i hi
    have hi := mem_range.mp hi
    rw [zext, if_pos (by omega)]
    congr 2
    omega
  rw [sum_congr rfl e1]
  rcases le_total (n + 1) b.length with h | h
  · apply sum_subset (range_mono h)
    intro i _ hi
    have hi : n + 1 ≤ i := by simpa using hi
    rw [zext, if_neg (by omega), mul_zero]
  · symm
    apply sum_subset (range_mono h)
    intro i _ hi
    rw [at0_of_le _ _ (by simpa using hi), zero_mul]

theorem wav.odds_length (u : List ℝ) : (wav.odds u).length = u.length / 2 := by simp [wav.odds]

theorem wav.at0_odds (u : List ℝ) (p : ℕ) (hp : p < u.length / 2) : at0 (wav.odds u) p = at0 u (2 * p + 1) := by
  rw [at0_of_lt _ _ (by rw [wav.odds_length]; exact hp)]
  simp [wav.odds, at0]

theorem wav.up_length (n : ℕ) (a : List ℝ) : (wav.up n a).length = n := by simp [wav.up]

theorem wav.at0_up (n : ℕ) (a : List ℝ) (k : ℕ) (hk : k < n) : at0 (wav.up n a) k = if k % 2 = 0 then at0 a (k / 2) else 0 := by
  rw [at0_of_lt _ _ (by rw [wav.up_length]; exact hk)]
  simp [wav.up, at0]

theorem wav.analyse_length (b : List ℝ × List ℝ) (hb1 : b.1 ≠ []) (hb2 : b.2 ≠ []) (cast : ℝ → ℝ) (l : List ℝ) (M : ℕ) (hM : 0 < M) (hl : l.length = 2 * M) :
    (wav.analyse cast b l).length = l.length := by
  have hne : l ≠ [] := by intro h; rw [h] at hl; simp at hl; omega
  simp [wav.analyse, wav.odds_length, (wav.fir_spec b.1 l hb1 hne).1, (wav.fir_spec b.2 l hb2 hne).1, hl]
  omega

theorem wav.synthesise_length (b : List ℝ × List ℝ) (hb1 : b.1 ≠ []) (hb2 : b.2 ≠ []) (cast : ℝ → ℝ) (l : List ℝ) (hl : l ≠ []) :
    (wav.synthesise cast b l).length = l.length := by
  have h0 := List.length_pos_of_ne_nil hl
  have hne : ∀ a, wav.up l.length a ≠ [] := by
    intro a h
    have := congrArg List.length h
    rw [wav.up_length, List.length_nil] at this
    omega
  simp [wav.synthesise, (wav.fir_spec b.1 _ hb1 (hne _)).1, (wav.fir_spec b.2 _ hb2 (hne _)).1, wav.up_length]

/-- The halves of an analysed line. -/
theorem wav.analyse_low (b : List ℝ × List ℝ) (hb1 : b.1 ≠ []) (l : List ℝ) (M : ℕ) (hM : 0 < M) (hl : l.length = 2 * M) :
    ((wav.analyse id b l).take M).length = M ∧ ∀ p < M, at0 ((wav.analyse id b l).take M) p = conv b.1 l (2 * p + 1) := by
  have hne : l ≠ [] := by intro h; rw [h] at hl; simp at hl; omega
  obtain ⟨h1, h2⟩ := wav.fir_spec b.1 l hb1 hne
  have hlen : (wav.odds (wav.fir b.1 l)).length = M := by rw [wav.odds_length, h1, hl]; omega
  have e : (wav.analyse id b l).take M = wav.odds (wav.fir b.1 l) := by
    unfold wav.analyse
    rw [List.map_id, List.take_left' hlen]
  rw [e]
  refine ⟨hlen, fun p hp => ?_⟩
  rw [wav.at0_odds _ _ (by rw [h1, hl]; omega), h2 _ (by omega)]

theorem wav.analyse_high (b : List ℝ × List ℝ) (hb1 : b.1 ≠ []) (hb2 : b.2 ≠ []) (l : List ℝ) (M : ℕ) (hM : 0 < M) (hl : l.length = 2 * M) :
    ((wav.analyse id b l).drop M).length = M ∧ ∀ p < M, at0 ((wav.analyse id b l).drop M) p = conv b.2 l (2 * p + 1) := by
  have hne : l ≠ [] := by intro h; rw [h] at hl; simp at hl; omega
  obtain ⟨g1, -⟩ := wav.fir_spec b.1 l hb1 hne
  obtain ⟨h1, h2⟩ := wav.fir_spec b.2 l hb2 hne
  have glen : (wav.odds (wav.fir b.1 l)).length = M := by rw [wav.odds_length, g1, hl]; omega
  have hlen : (wav.odds (wav.fir b.2 l)).length = M := by rw [wav.odds_length, h1, hl]; omega
  have e : (wav.analyse id b l).drop M = wav.odds (wav.fir b.2 l) := by
    unfold wav.analyse
    rw [List.map_id, List.drop_left' glen]
  rw [e]
  refine ⟨hlen, fun p hp => ?_⟩
  rw [wav.at0_odds _ _ (by rw [h1, hl]; omega), h2 _ (by omega)]

/-- One channel: analysis with `b`, synthesis with `v`. -/
theorem wav.channel (b v a l : List ℝ) (M : ℕ) (ha : ∀ p < M, at0 a p = conv b l (2 * p + 1)) (m : ℕ) (hm : m < 2 * M) :
    conv v (wav.up (2 * M) a) m =
      ∑ j ∈ range v.length, ∑ i ∈ range b.length, if ((m : ℤ) - j) % 2 = 0 then at0 v j * at0 b i * zext l ((m : ℤ) + 1 - j - i) else 0 := by
  rw [conv_zext]
  apply sum_congr rfl
  intro j _
  by_cases hpar : ((m : ℤ) - j) % 2 = 0
  · simp only [hpar, if_true]
    simp only [mul_assoc, ← mul_sum]
    congr 1
    by_cases hj : j ≤ m
    · rw [zext, if_pos (by omega), wav.at0_up _ _ _ (by omega), if_pos (by omega), ha _ (by omega), conv_zext]
      apply sum_congr rfl
      intro i _
      congr 2
      omega
    · rw [zext, if_neg (by omega)]
      symm
      apply sum_eq_zero
      intro i _
      rw [zext, if_neg (by omega), mul_zero]
  · simp only [hpar, if_false, sum_const_zero]
    rw [zext]
    split
    · rw [wav.at0_up _ _ _ (by omega), if_neg (by omega), mul_zero]
    · rw [mul_zero]

/-- The two channels of an alternating flip bank: aliasing cancels, whatever the coefficients. -/
theorem wav.bank_sum (n : ℕ) (hn : n % 2 = 1) (β : ℕ → ℝ) (X : ℤ → ℝ) (m : ℤ) :
    (∑ j ∈ range (n + 1), ∑ i ∈ range (n + 1), if (m - j) % 2 = 0 then β (n - j) * β i * X (m + 1 - j - i) else 0) +
      (∑ j ∈ range (n + 1), ∑ i ∈ range (n + 1),
        if (m - j) % 2 = 0 then ((-1) ^ j * β j) * (-((-1) ^ i * β (n - i))) * X (m + 1 - j - i) else 0) =
    ∑ j ∈ range (n + 1), ∑ i ∈ range (n + 1), if j % 2 = i % 2 then β j * β i * X (m + 1 - n + j - i) else 0 := by
  rw [← sum_range_reflect (n := n + 1)]
  conv_lhs => arg 2; arg 2; ext j; rw [← sum_range_reflect (n := n + 1)]
  conv_lhs => arg 2; rw [sum_comm]
  rw [← sum_add_distrib]
  apply sum_congr rfl
  intro j hj
  have hj := mem_range.mp hj
  rw [← sum_add_distrib]
  apply sum_congr rfl
  intro i hi
  have hi := mem_range.mp hi
  have e1 : n - (n + 1 - 1 - j) = j := by omega
  have e2 : ((n + 1 - 1 - j : ℕ) : ℤ) = n - j := by omega
  rw [e1, e2]
  have e3 : m + 1 - ((n : ℤ) - j) - i = m + 1 - n + j - i := by ring
  have e4 : m + 1 - (i : ℤ) - ((n : ℤ) - j) = m + 1 - n + j - i := by ring
  rw [e3, e4]
  generalize X (m + 1 - n + j - i) = Z
  have p1 : ((-1 : ℝ)) ^ (n + 1 - 1 - j) = if j % 2 = 0 then -1 else 1 := by
    split
    · rw [Odd.neg_one_pow]; exact Nat.odd_iff.mpr (by omega)
    · rw [Even.neg_one_pow]; exact Nat.even_iff.mpr (by omega)
  have p2 : ((-1 : ℝ)) ^ i = if i % 2 = 0 then 1 else -1 := by
    split
    · rw [Even.neg_one_pow]; exact Nat.even_iff.mpr (by omega)
    · rw [Odd.neg_one_pow]; exact Nat.odd_iff.mpr (by omega)
  rw [p1, p2]
  rcases Nat.mod_two_eq_zero_or_one i with hi2 | hi2 <;> rcases Nat.mod_two_eq_zero_or_one j with hj2 | hj2 <;>
    rcases Int.emod_two_eq_zero_or_one m with hm2 | hm2 <;>
    simp only [hi2, hj2] <;>
    (first
      | rw [if_pos (by omega : (m - ((n : ℤ) - j)) % 2 = 0)]
      | rw [if_neg (by omega : ¬ (m - ((n : ℤ) - j)) % 2 = 0)]) <;>
    (first
      | rw [if_pos (by omega : (m - (i : ℤ)) % 2 = 0)]
      | rw [if_neg (by omega : ¬ (m - (i : ℤ)) % 2 = 0)]) <;>
    simp only [reduceIte, one_ne_zero, zero_ne_one] <;> ring

/-- Pairs of equal parity, grouped by their distance. -/
theorem wav.group (n : ℕ) (β : ℕ → ℝ) (hβ : ∀ i, n < i → β i = 0) (X : ℤ → ℝ) (c : ℤ) :
    ∑ j ∈ range (n + 1), ∑ i ∈ range (n + 1), (if j % 2 = i % 2 then β j * β i * X (c + j - i) else 0) =
      (∑ k ∈ range (n + 1), β k * β k) * X c +
        ∑ l ∈ Icc 1 n, (∑ k ∈ range (n + 1), β k * β (k + 2 * l)) * (X (c + 2 * l) + X (c - 2 * l)) := by
  -- one side, for a fixed index
  have side : ∀ (k : ℕ) (G : ℕ → ℝ), (∀ j, n < j → G j = 0) →
      ∑ j ∈ range (n + 1), (if k < j ∧ j % 2 = k % 2 then G j else 0) = ∑ l ∈ Icc 1 n, G (k + 2 * l) := by
    intro k G hG
    rw [← sum_filter]
    have : ∑ l ∈ Icc 1 n, G (k + 2 * l) = ∑ l ∈ (Icc 1 n).filter (fun l => k + 2 * l ≤ n), G (k + 2 * l) := by
      symm
      apply sum_filter_of_ne
      intro l _ h
      by_contra h'
      exact h (hG _ (by omega))
    rw [this]
    refine sum_nbij' (fun j => (j - k) / 2) (fun l => k + 2 * l) ?_ ?_ ?_ ?_ ?_
    · intro j hj; simp only [mem_filter, mem_range, mem_Icc] at *; omega
    · intro l hl; simp only [mem_filter, mem_range, mem_Icc] at *; omega
    · intro j hj; simp only [mem_filter, mem_range] at *; omega
    · intro l hl; simp only [mem_filter, mem_Icc] at *; omega
    · intro j hj
      simp only [mem_filter, mem_range] at hj
      congr 1; omega
  have split3 : ∀ j i : ℕ, (if j % 2 = i % 2 then β j * β i * X (c + j - i) else 0) =
      (if i = j then β j * β i * X (c + j - i) else 0) + (if i < j ∧ j % 2 = i % 2 then β j * β i * X (c + j - i) else 0) +
        (if j < i ∧ i % 2 = j % 2 then β j * β i * X (c + j - i) else 0) := by
    intro j i
    rcases lt_trichotomy i j with h | h | h
    · rw [if_neg (by omega : ¬ i = j), if_neg (by omega : ¬ (j < i ∧ i % 2 = j % 2)), zero_add, add_zero]
      by_cases hp : j % 2 = i % 2
      · rw [if_pos hp, if_pos ⟨h, hp⟩]
      · rw [if_neg hp, if_neg (by tauto)]
    · subst h
      simp
    · rw [if_neg (by omega : ¬ i = j), if_neg (by omega : ¬ (i < j ∧ j % 2 = i % 2)), zero_add, zero_add]
      by_cases hp : j % 2 = i % 2
      · rw [if_pos hp, if_pos ⟨h, hp.symm⟩]
      · rw [if_neg hp, if_neg (by tauto)]
  simp only [split3, sum_add_distrib]
  have t1 : ∑ j ∈ range (n + 1), ∑ i ∈ range (n + 1), (if i = j then β j * β i * X (c + j - i) else 0) =
      (∑ k ∈ range (n + 1), β k * β k) * X c := by
    rw [sum_mul]
    apply sum_congr rfl
    intro j hj
    rw [sum_ite_eq' (range (n + 1)) j, if_pos hj]
    congr 2; ring
  have t2 : ∑ j ∈ range (n + 1), ∑ i ∈ range (n + 1), (if i < j ∧ j % 2 = i % 2 then β j * β i * X (c + j - i) else 0) =
      ∑ l ∈ Icc 1 n, (∑ k ∈ range (n + 1), β k * β (k + 2 * l)) * X (c + 2 * l) := by
    rw [sum_comm]
    rw [sum_congr rfl fun i _ => side i (fun j => β j * β i * X (c + j - i)) (fun j hj => by simp only [hβ j hj]; ring)]
    rw [sum_comm]
    apply sum_congr rfl
    intro l _
    rw [sum_mul]
    apply sum_congr rfl
    intro k _
    have : c + ((k + 2 * l : ℕ) : ℤ) - k = c + 2 * l := by push_cast; ring
    rw [this]; ring
  have t3 : ∑ j ∈ range (n + 1), ∑ i ∈ range (n + 1), (if j < i ∧ i % 2 = j % 2 then β j * β i * X (c + j - i) else 0) =
      ∑ l ∈ Icc 1 n, (∑ k ∈ range (n + 1), β k * β (k + 2 * l)) * X (c - 2 * l) := by
    rw [sum_congr rfl fun j _ => side j (fun i => β j * β i * X (c + j - i)) (fun i hi => by simp only [hβ i hi]; ring)]
    rw [sum_comm]
    apply sum_congr rfl
    intro l _
    rw [sum_mul]
    apply sum_congr rfl
    intro k _
    have : c + (k : ℤ) - ((k + 2 * l : ℕ) : ℤ) = c - 2 * l := by push_cast; ring
    rw [this]
  rw [t1, t2, t3, add_assoc, ← sum_add_distrib]
  congr 1
  apply sum_congr rfl
  intro l _
  ring

/-- Analysis followed by synthesis, for one line and an alternating flip bank. -/
theorem wav.line (b h v g : List ℝ) (n : ℕ) (hn : n % 2 = 1) (hb : b.length = n + 1) (hh : h.length = n + 1) (hv : v.length = n + 1) (hg : g.length = n + 1)
    (σ : ℝ) (hσ : σ * σ = 1) (eh : ∀ i ≤ n, at0 h i = σ * -((-1) ^ i * at0 b (n - i))) (ev : ∀ j ≤ n, at0 v j = at0 b (n - j))
    (eg : ∀ j ≤ n, at0 g j = σ * ((-1) ^ j * at0 b j)) (l : List ℝ) (M : ℕ) (hM : 0 < M) (hl : l.length = 2 * M) :
    (wav.synthesise id (v, g) (wav.analyse id (b, h) l)).length = l.length ∧ ∀ m < l.length,
      at0 (wav.synthesise id (v, g) (wav.analyse id (b, h) l)) m =
        2 * shiftCorr b 0 * zext l ((m : ℤ) + 1 - n) +
          ∑ k ∈ Icc 1 n, 2 * shiftCorr b k * (zext l ((m : ℤ) + 1 - n + 2 * k) + zext l ((m : ℤ) + 1 - n - 2 * k)) := by
  have hbn : b ≠ [] := by intro h; rw [h] at hb; simp at hb
  have hhn : h ≠ [] := by intro h'; rw [h'] at hh; simp at hh
  have hvn : v ≠ [] := by intro h'; rw [h'] at hv; simp at hv
  have hgn : g ≠ [] := by intro h'; rw [h'] at hg; simp at hg
  have hal := wav.analyse_length (b, h) hbn hhn id l M hM hl
  have hane : wav.analyse id (b, h) l ≠ [] := by intro h'; rw [h'] at hal; simp at hal; omega
  refine ⟨by rw [wav.synthesise_length (v, g) hvn hgn id _ hane, hal], fun m hm => ?_⟩
  obtain ⟨-, l2⟩ := wav.analyse_low (b, h) hbn l M hM hl
  obtain ⟨-, h2⟩ := wav.analyse_high (b, h) hbn hhn l M hM hl
  have hhalf : (wav.analyse id (b, h) l).length / 2 = M := by omega
  have hup : ∀ a, wav.up (wav.analyse id (b, h) l).length a ≠ [] := by
    intro a h'
    have := congrArg List.length h'
    rw [wav.up_length, List.length_nil] at this
    omega
  have e : at0 (wav.synthesise id (v, g) (wav.analyse id (b, h) l)) m =
      2 * conv v (wav.up (2 * M) ((wav.analyse id (b, h) l).take M)) m + 2 * conv g (wav.up (2 * M) ((wav.analyse id (b, h) l).drop M)) m := by
    obtain ⟨q1, q2⟩ := wav.fir_spec v _ hvn (hup ((wav.analyse id (b, h) l).take M))
    obtain ⟨r1, r2⟩ := wav.fir_spec g _ hgn (hup ((wav.analyse id (b, h) l).drop M))
    rw [wav.up_length] at q1 q2 r1 r2
    have q3 := q2 m (by omega)
    have r3 := r2 m (by omega)
    rw [at0_of_lt _ _ (by omega)] at q3 r3
    unfold wav.synthesise
    simp only [hhalf]
    rw [at0_of_lt _ _ (by simp [q1, r1]; omega)]
    simp only [List.map_id, List.getElem_zipWith, List.getElem_map, q3, r3]
    rw [hal, hl]
  rw [e, wav.channel b v _ l M l2 m (by omega), wav.channel h g _ l M h2 m (by omega), hv, hb, hh, hg]
  have hs := wav.bank_sum n hn (fun i => at0 b i) (zext l) m
  rw [wav.group n (fun i => at0 b i) (fun i hi => at0_of_le _ _ (by omega)) (zext l) ((m : ℤ) + 1 - n)] at hs
  have s1 : ∑ j ∈ range (n + 1), ∑ i ∈ range (n + 1), (if ((m : ℤ) - j) % 2 = 0 then at0 v j * at0 b i * zext l ((m : ℤ) + 1 - j - i) else 0) =
      ∑ j ∈ range (n + 1), ∑ i ∈ range (n + 1), if ((m : ℤ) - j) % 2 = 0 then at0 b (n - j) * at0 b i * zext l ((m : ℤ) + 1 - j - i) else 0 := by
    apply sum_congr rfl
    intro j hj
    rw [ev j (by have := mem_range.mp hj; omega)]
  have s2 : ∑ j ∈ range (n + 1), ∑ i ∈ range (n + 1), (if ((m : ℤ) - j) % 2 = 0 then at0 g j * at0 h i * zext l ((m : ℤ) + 1 - j - i) else 0) =
      ∑ j ∈ range (n + 1), ∑ i ∈ range (n + 1),
        if ((m : ℤ) - j) % 2 = 0 then ((-1) ^ j * at0 b j) * (-((-1) ^ i * at0 b (n - i))) * zext l ((m : ℤ) + 1 - j - i) else 0 := by
    apply sum_congr rfl
    intro j hj
    apply sum_congr rfl
    intro i hi
    rw [eg j (by have := mem_range.mp hj; omega), eh i (by have := mem_range.mp hi; omega)]
    split
    swap
    · rfl
    linear_combination ((-1) ^ j * at0 b j) * (-((-1) ^ i * at0 b (n - i))) * zext l ((m : ℤ) + 1 - j - i) * hσ
  rw [s1, s2, ← mul_add, hs]
  unfold shiftCorr
  rw [hb, mul_add, mul_sum]
  simp only [mul_zero, add_zero]
  rw [mul_assoc]
  congr 1
  apply sum_congr rfl
  intro k _
  ring

/-- The filters of a table entry of odd order. -/
theorem wav.filters_spec (c : List ℝ) (n : ℕ) (hc : c.length = n + 1) (hn : n % 2 = 1) (h1 : n = 1 → ∀ i j, i ≤ 1 → j ≤ 1 → at0 c i = at0 c j) :
    ∃ σ : ℝ, σ * σ = 1 ∧ (wav.filters c).analysis.1 = c.map (· / c.sum) ∧ (wav.filters c).analysis.2.length = n + 1 ∧
      (wav.filters c).synthesis.1 = (c.map (· / c.sum)).reverse ∧ (wav.filters c).synthesis.2.length = n + 1 ∧
      (∀ i ≤ n, at0 (wav.filters c).analysis.2 i = σ * -((-1) ^ i * at0 (c.map (· / c.sum)) (n - i))) ∧
      (∀ j ≤ n, at0 (wav.filters c).synthesis.1 j = at0 (c.map (· / c.sum)) (n - j)) ∧
      (∀ j ≤ n, at0 (wav.filters c).synthesis.2 j = σ * ((-1) ^ j * at0 (c.map (· / c.sum)) j)) := by
  set b := c.map (· / c.sum) with hb
  have hbl : b.length = n + 1 := by rw [hb, List.length_map, hc]
  have hnegl : ∀ s (l : List ℝ), (wav.negate s l).length = l.length := by intro s l; simp [wav.negate]
  have hneg : ∀ s (l : List ℝ) i, s ≤ 1 → i < l.length → at0 (wav.negate s l) i = (if i % 2 = s then -1 else 1) * at0 l i := by
    intro s l i hs hi
    rw [at0_of_lt _ _ (by rw [hnegl]; exact hi), at0_of_lt _ _ hi]
    simp only [wav.negate, List.getElem_map, List.getElem_zipIdx, zero_add]
    by_cases h : i % 2 = s
    · rw [if_pos (by omega), if_pos h]; ring
    · rw [if_neg (by omega), if_neg h]; ring
  have hrev : ∀ (l : List ℝ) i, l.length = n + 1 → i ≤ n → at0 l.reverse i = at0 l (n - i) := by
    intro l i h1 h2
    rw [at0_of_lt _ _ (by simp; omega), at0_of_lt _ _ (by omega), List.getElem_reverse]
    congr 1
    omega
  have hpow : ∀ i, ((-1 : ℝ)) ^ i = if i % 2 = 1 then -1 else 1 := by
    intro i
    split
    · rw [Odd.neg_one_pow]; exact Nat.odd_iff.mpr (by omega)
    · rw [Even.neg_one_pow]; exact Nat.even_iff.mpr (by omega)
  unfold wav.filters
  simp only [hc, Nat.add_sub_cancel, hn, if_true, ← hb]
  by_cases hn1 : n = 1
  · subst hn1
    have heq : ∀ i j, i ≤ 1 → j ≤ 1 → at0 b i = at0 b j := by
      intro i j hi hj
      have e : ∀ i ≤ 1, at0 b i = at0 c i / c.sum := by
        intro i hi
        rw [at0_of_lt _ _ (by omega), at0_of_lt _ _ (by omega)]
        simp [hb]
      rw [e i hi, e j hj, h1 rfl i j hi hj]
    refine ⟨-1, by norm_num, ?_⟩
    simp only [ne_eq, not_true, if_false]
    refine ⟨trivial, by rw [hnegl, hbl], trivial, by rw [hnegl, List.length_reverse, hbl], ?_, ?_, ?_⟩
    · intro i hi
      rw [hneg 1 b _ (le_refl 1) (by omega), hpow, heq (1 - i) i (by omega) hi]
      by_cases h : i % 2 = 1
      · rw [if_pos h]; ring
      · rw [if_neg h]; ring
    · intro j hj; exact hrev b j hbl hj
    · intro j hj
      rw [hneg 0 _ _ (by omega) (by rw [List.length_reverse]; omega), hrev b _ hbl (by omega), hpow, heq (1 - j) j (by omega) hj]
      by_cases h : j % 2 = 0
      · rw [if_pos h, if_neg (by omega)]; ring
      · rw [if_neg h, if_pos (by omega)]; ring
  · refine ⟨1, by norm_num, ?_⟩
    simp only [ne_eq, hn1, not_false_eq_true, if_true]
    refine ⟨trivial, by rw [List.length_reverse, hnegl, hbl], trivial, by rw [List.length_reverse, hnegl, List.length_reverse, hbl], ?_, ?_, ?_⟩
    · intro i hi
      rw [hrev _ i (by rw [hnegl, hbl]) hi, hneg 1 b _ (le_refl 1) (by omega), hpow]
      by_cases h : (n - i) % 2 = 1
      · rw [if_pos h, if_neg (by omega)]; ring
      · rw [if_neg h, if_pos (by omega)]; ring
    · intro j hj; exact hrev b j hbl hj
    · intro j hj
      rw [hrev _ j (by rw [hnegl, List.length_reverse, hbl]) hj, hneg 0 _ _ (by omega) (by rw [List.length_reverse]; omega),
        hrev b _ hbl (by omega), hpow, show n - (n - j) = j by omega]
      by_cases h : (n - j) % 2 = 0
      · rw [if_pos h, if_pos (by omega)]; ring
      · rw [if_neg h, if_neg (by omega)]; ring

end Verif
