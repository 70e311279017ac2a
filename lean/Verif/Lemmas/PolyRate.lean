import Verif.Model.PolyRate
import Verif.Spec.Rate
import Verif.Lemmas.Fir
import Verif.Lemmas.NpPoly
import Mathlib.Tactic.Linarith
import Mathlib.Tactic.Ring
import Mathlib.Tactic.FieldSimp

namespace Verif

open Finset Spec

theorem np.round_spec (x : ℝ) : IsRound x (np.round x) := by
  have h1 := Int.floor_le x
  have h2 := Int.lt_floor_add_one x
  unfold np.round IsRound
  split_ifs with a b c
  · rw [abs_of_nonneg (by linarith)]
    exact ⟨by linarith, fun h => by linarith⟩
  · push_cast
    rw [abs_of_neg (by linarith)]
    exact ⟨by linarith, fun h => by linarith⟩
  · rw [abs_of_nonneg (by linarith)]
    exact ⟨by linarith, fun _ => Int.even_iff.mpr c⟩
  · push_cast
    rw [abs_of_neg (by linarith)]
    refine ⟨by linarith, fun _ => ?_⟩
    rw [Int.even_add_one, Int.even_iff]; exact c

theorem IsRound.unique {x : ℝ} {m n : ℤ} (h : IsRound x m) (h' : IsRound x n) : m = n := by
  have a := abs_le.mp h.1
  have b := abs_le.mp h'.1
  by_contra hne
  have hmn : m = n + 1 ∨ n = m + 1 := by
    have h1 : (m : ℝ) - n ≤ 1 := by linarith
    have h2 : (n : ℝ) - m ≤ 1 := by linarith
    have h1' : m - n ≤ 1 := by exact_mod_cast h1
    have h2' : n - m ≤ 1 := by exact_mod_cast h2
    omega
  rcases hmn with q | q
  · have e1 : x - m = -(1 / 2) := by
      have : (m : ℝ) = n + 1 := by rw [q]; push_cast; ring
      linarith
    have e2 : x - n = 1 / 2 := by
      have : (m : ℝ) = n + 1 := by rw [q]; push_cast; ring
      linarith
    have p1 := h.2 (by rw [e1]; norm_num [abs_of_neg])
    have p2 := h'.2 (by rw [e2]; norm_num [abs_of_pos])
    rw [q, Int.even_add_one] at p1
    exact p1 p2
  · have e1 : x - m = 1 / 2 := by
      have : (n : ℝ) = m + 1 := by rw [q]; push_cast; ring
      linarith
    have e2 : x - n = -(1 / 2) := by
      have : (n : ℝ) = m + 1 := by rw [q]; push_cast; ring
      linarith
    have p1 := h.2 (by rw [e1]; norm_num [abs_of_pos])
    have p2 := h'.2 (by rw [e2]; norm_num [abs_of_neg])
    rw [q, Int.even_add_one] at p2
    exact p2 p1

theorem np.round_nonneg (x : ℝ) (hx : 0 ≤ x) : 0 ≤ np.round x := by
  have h := abs_le.mp (np.round_spec x).1
  by_contra hn
  push Not at hn
  have : (np.round x : ℝ) ≤ -1 := by exact_mod_cast (by omega : np.round x ≤ -1)
  linarith

/-- Interpolation between abscissae `s, s+1, ...`. -/
theorem np.interp_range (l : List ℝ) (s : ℕ) (j : ℕ) (hj : j + 1 < l.length) (x : ℝ) (h1 : (s : ℝ) + j ≤ x) (h2 : x < (s : ℝ) + j + 1) :
    np.interp (((List.range' s l.length).map fun n : ℕ => (n : ℝ)).zip l) x = at0 l j + (at0 l (j + 1) - at0 l j) * (x - (s + j)) := by
  induction j generalizing l s with
  | zero =>
    match l, hj with
    | y :: z :: t, _ =>
      simp only [List.length_cons, List.range'_succ, List.map_cons, List.zip_cons_cons, np.interp]
      push_cast at h1 h2 ⊢
      rw [if_pos (by linarith)]
      simp only [at0_cons_zero, at0_cons_succ]
      split
      · have : x = s := by linarith
        rw [this]; ring
      · rw [show (s : ℝ) + 1 - s = 1 by ring, div_one]; ring
  | succ j ih =>
    match l, hj with
    | y :: z :: t, hj =>
      have := ih (z :: t) (s + 1) (by simpa using hj) (by push_cast at h1 ⊢; linarith) (by push_cast at h2 ⊢; linarith)
      simp only [List.length_cons, List.range'_succ, List.map_cons, List.zip_cons_cons] at this ⊢
      rw [np.interp]
      rw [if_neg (by push_cast at h1 ⊢; linarith [Nat.cast_nonneg (α := ℝ) j]), this]
      simp only [at0_cons_succ]
      push_cast
      ring

theorem np.linspace_range (n : ℕ) : np.linspace 0 ((n : ℝ) - 1) n = (List.range n).map fun k : ℕ => (k : ℝ) := by
  unfold np.linspace
  apply List.map_congr_left
  intro k hk
  have hk := List.mem_range.mp hk
  by_cases h : n = 1
  · subst h
    have : k = 0 := by omega
    subst this; simp
  · have : (n : ℝ) - 1 ≠ 0 := by
      have : (n : ℝ) ≠ 1 := by exact_mod_cast h
      exact sub_ne_zero.mpr this
    field_simp
    ring

/-- The inner loop writes one sample per time before the end of the interval. -/
theorem prate.inner_spec (b : List ℝ) (v : ℝ) : ∀ (n : ℕ) (index : ℝ),
    ∃ c, c ≤ n ∧ (prate.inner b v n index).1 = (List.range c).map (fun i : ℕ => np.polyval b (index + i * v)) ∧
      (prate.inner b v n index).2.1 = index + c * v ∧ (prate.inner b v n index).2.2 = n - c ∧
      (∀ i < c, index + (i : ℝ) * v < 1) ∧ (c < n → 1 ≤ index + (c : ℝ) * v) := by
  intro n
  induction n with
  | zero => intro index; exact ⟨0, le_rfl, rfl, by simp [prate.inner], rfl, by simp, by simp⟩
  | succ n ih =>
    intro index
    by_cases h : index < 1
    · obtain ⟨c, h1, h2, h3, h4, h5, h6⟩ := ih (index + v)
      refine ⟨c + 1, by omega, ?_, ?_, ?_, ?_, ?_⟩
      · simp only [prate.inner, h, if_true, h2]
        rw [List.range_succ_eq_map, List.map_cons, List.map_map]
        congr 1
        · simp
        · apply List.map_congr_left
          intro i _
          simp only [Function.comp]
          congr 1
          push_cast; ring
      · simp only [prate.inner, h, if_true, h3]; push_cast; ring
      · simp only [prate.inner, h, if_true, h4]; omega
      · intro i hi
        cases i with
        | zero => simpa using h
        | succ i => have := h5 i (by omega); push_cast at this ⊢; linarith
      · intro hc
        have := h6 (by omega)
        push_cast at this ⊢; linarith
    · refine ⟨0, by omega, by simp [prate.inner, h], by simp [prate.inner, h], by simp [prate.inner, h], by simp, ?_⟩
      intro _
      push Not at h
      simpa using h

/-- The loops as a whole: from a state in which `k` samples are written, the next due at time `k * v`, and interval `i` begins, they write the
samples `k, k+1, ..` due before the end, at most `n` of them; each is the value of the fit of its own interval. -/
theorem prate.outer_spec (fit : List ℝ → List ℝ) (v : ℝ) (hv : 0 < v) (xs : List ℝ) : ∀ (m i k n : ℕ) (index : ℝ),
    (0 < n → index = k * v - i) → (0 < n → (i : ℝ) ≤ k * v) →
    ∃ c, c ≤ n ∧ prate.outer fit v m (xs.drop i) index n =
        (List.range c).map (fun j : ℕ => np.polyval (fit ((xs.drop ⌊((k + j : ℕ) : ℝ) * v⌋₊).take 4)) (((k + j : ℕ) : ℝ) * v - ⌊((k + j : ℕ) : ℝ) * v⌋₊)) ∧
      (∀ j < c, ((k + j : ℕ) : ℝ) * v < i + m) ∧ (c < n → (i + m : ℝ) ≤ ((k + c : ℕ) : ℝ) * v) := by
  intro m
  induction m with
  | zero =>
    intro i k n index h1 h2
    refine ⟨0, by omega, by simp [prate.outer], by simp, ?_⟩
    intro h
    have := h2 h
    simpa using this
  | succ m ih =>
    intro i k n index h1 h2
    have hdrop : (xs.drop i).tail = xs.drop (i + 1) := by rw [List.tail_drop]
    by_cases hn : n = 0
    · subst hn
      have hz : ∀ b idx, prate.inner b v 0 idx = ([], idx, 0) := fun b idx => rfl
      obtain ⟨c, g1, g2, g3, g4⟩ := ih (i + 1) k 0 (index - 1) (by omega) (by omega)
      refine ⟨0, le_rfl, ?_, by simp, by omega⟩
      have hc : c = 0 := by omega
      subst hc
      simp only [prate.outer, hz, ite_self, hdrop]
      rw [g2]; simp
    · have hn : 0 < n := by omega
      have hidx := h1 hn
      have hik := h2 hn
      by_cases hlt : index < 1
      · obtain ⟨c, p1, p2, p3, p4, p5, p6⟩ := prate.inner_spec (fit ((xs.drop i).take 4)) v n index
        obtain ⟨c', g1, g2, g3, g4⟩ := ih (i + 1) (k + c) (n - c) (index + c * v - 1)
          (by intro _; rw [hidx]; push_cast; ring)
          (by intro hpos; have := p6 (by omega); rw [hidx] at this; push_cast at this ⊢; linarith)
        refine ⟨c + c', by omega, ?_, ?_, ?_⟩
        · simp only [prate.outer, hlt, if_true, hdrop]
          rcases hin : prate.inner (fit ((xs.drop i).take 4)) v n index with ⟨ys, idx', n'⟩
          rw [hin] at p2 p3 p4
          simp only at p2 p3 p4 ⊢
          rw [p2, p3, p4, g2, List.range_add, List.map_append, List.map_map]
          congr 1
          · apply List.map_congr_left
            intro j hj
            have hj := List.mem_range.mp hj
            have hfl : ⌊((k + j : ℕ) : ℝ) * v⌋₊ = i := by
              rw [Nat.floor_eq_iff (by positivity)]
              have := p5 j hj
              rw [hidx] at this
              push_cast at this ⊢
              refine ⟨?_, by linarith⟩
              nlinarith [Nat.cast_nonneg (α := ℝ) j]
            rw [hfl]
            congr 1
            rw [hidx]; push_cast; ring
          · apply List.map_congr_left
            intro j _
            simp only [Function.comp, Nat.add_assoc]
        · intro j hj
          by_cases hjc : j < c
          · have := p5 j hjc
            rw [hidx] at this
            push_cast at this ⊢
            nlinarith [Nat.cast_nonneg (α := ℝ) m]
          · have := g3 (j - c) (by omega)
            rw [show k + c + (j - c) = k + j by omega] at this
            push_cast at this ⊢
            linarith
        · intro hc
          have := g4 (by omega)
          rw [show k + c + c' = k + (c + c') by omega] at this
          push_cast at this ⊢
          linarith
      · obtain ⟨c', g1, g2, g3, g4⟩ := ih (i + 1) k n (index - 1)
          (by intro _; rw [hidx]; push_cast; ring)
          (by intro _; rw [hidx] at hlt; push_cast; push Not at hlt; linarith)
        refine ⟨c', g1, ?_, ?_, ?_⟩
        · simp only [prate.outer, hlt, if_false, hdrop]
          rw [g2]; simp
        · intro j hj; have := g3 j hj; push_cast at this ⊢; linarith
        · intro hc; have := g4 hc; push_cast at this ⊢; linarith

end Verif
