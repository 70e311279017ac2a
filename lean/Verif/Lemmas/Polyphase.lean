import Verif.Model.Polyphase
import Verif.Lemmas.PolyRate
import Verif.Lemmas.Fir
import Mathlib.Tactic.FieldSimp

namespace Verif

open Finset Spec

/-- What the state array holds after the samples `l`. -/
def pp.Hist (s0 l s : List ℝ) : Prop := s.length = s0.length ∧ s.tail = (l.reverse ++ s0.tail).take (s0.length - 1)

theorem pp.hist_set {s0 l s : List ℝ} (h : pp.Hist s0 l s) (x : ℝ) : pp.Hist s0 l (s.set 0 x) := by
  cases s with
  | nil => exact h
  | cons a s => exact ⟨by simpa using h.1, by simpa using h.2⟩

theorem pp.hist_shift {s0 l s : List ℝ} (h : pp.Hist s0 l s) (hs : s0 ≠ []) (x : ℝ) : pp.Hist s0 (l ++ [x]) (shiftRight (s.set 0 x)) := by
  obtain ⟨h1, h2⟩ := h
  cases s with
  | nil => exact absurd (List.eq_nil_of_length_eq_zero h1.symm) hs
  | cons a s =>
    refine ⟨by simpa [shiftRight] using h1, ?_⟩
    simp only [List.set_cons_zero, shiftRight, List.tail_cons] at h2 ⊢
    rw [List.dropLast_eq_take, List.reverse_append, List.reverse_singleton, List.singleton_append, List.cons_append, List.length_cons,
      Nat.add_sub_cancel]
    have hl : s.length = s0.length - 1 := by simp at h1; omega
    rcases Nat.eq_zero_or_pos s.length with h0 | h0
    · rw [h0, ← hl, h0]; simp
    · obtain ⟨m, hm⟩ : ∃ m, s.length = m + 1 := ⟨s.length - 1, by omega⟩
      rw [← hl, hm, List.take_succ_cons, List.take_succ_cons]
      congr 1
      rw [h2, List.take_take, ← hl, hm]
      congr 1
      omega

theorem pp.dot_hist (row x s0 s : List ℝ) (i : ℕ) (hi : i < x.length) (hs : s0 ≠ []) (hrow : row.length = s0.length)
    (h : pp.Hist s0 (x.take i) s) : dot row (s.set 0 (x.getD i 0)) = weigh row x s0 i := by
  obtain ⟨h1, h2⟩ := h
  have hpos := List.length_pos_of_ne_nil hs
  rw [dot_eq_sum, weigh]
  · apply sum_congr rfl
    intro j hj
    have hj := mem_range.mp hj
    congr 1
    cases s with
    | nil => simp at h1; omega
    | cons a s =>
      simp only [List.set_cons_zero, List.tail_cons] at h2 ⊢
      unfold pastSample
      rcases j with - | j
      · simp [at0]
      · rw [at0_cons_succ, h2]
        rw [at0_of_lt _ _ (by simp; omega), List.getElem_take]
        by_cases hji : j + 1 ≤ i
        · rw [if_pos hji, List.getElem_append_left (by simp; omega), List.getElem_reverse, List.getElem_take, at0_of_lt _ _ (by omega)]
          congr 1
          simp; omega
        · rw [if_neg hji, List.getElem_append_right (by simp; omega), at0_of_lt _ _ (by omega), List.getElem_tail]
          congr 1
          simp; omega

/-- The inner loop consumes the samples that the index has passed. -/
theorem pp.inner_spec (rr : ℝ) (s0 : List ℝ) (hs : s0 ≠ []) : ∀ (xs l s : List ℝ) (index : ℝ), 0 ≤ index → pp.Hist s0 l s →
    ∃ c, c ≤ xs.length ∧ (pp.inner rr xs index s).1 = xs.drop c ∧ (pp.inner rr xs index s).2.1 = index - rr * c ∧
      0 ≤ index - rr * c ∧ (c < xs.length → index - rr * c < rr) ∧ pp.Hist s0 (l ++ xs.take c) (pp.inner rr xs index s).2.2 ∧
      (rr ≤ index → xs ≠ [] → 0 < c) := by
  intro xs
  induction xs with
  | nil => intro l s index hi hh; exact ⟨0, le_rfl, rfl, by simp [pp.inner], by simpa using hi, by simp, by simpa [pp.inner] using hh, by simp⟩
  | cons x xs ih =>
    intro l s index hi hh
    by_cases h : index ≥ rr
    · obtain ⟨c, h1, h2, h3, h4, h5, h6, h7⟩ := ih (l ++ [x]) (shiftRight (s.set 0 x)) (index - rr) (by linarith) (pp.hist_shift hh hs x)
      refine ⟨c + 1, by simpa using h1, ?_, ?_, ?_, ?_, ?_, ?_⟩
      · simp only [pp.inner, h, if_true, h2, List.drop_succ_cons]
      · simp only [pp.inner, h, if_true, h3]; push_cast; ring
      · push_cast; linarith
      · intro hc; have := h5 (by simpa using hc); push_cast; linarith
      · simp only [pp.inner, h, if_true, List.take_succ_cons]
        rwa [List.append_assoc, List.singleton_append] at h6
      · intro _ _; omega
    · refine ⟨0, by simp, ?_, ?_, ?_, ?_, ?_, ?_⟩
      · simp [pp.inner, h]
      · simp [pp.inner, h]
      · simpa using hi
      · intro _; push Not at h; simpa using h
      · simpa [pp.inner, h] using hh
      · intro h' _; exact absurd h' h

/-- The row of the bank used for an output at the phase `u`. -/
noncomputable def pp.rowAt (B : List (List ℝ)) (u : ℝ) : List ℝ := B.getD (min (np.round u) (B.length - 1)).toNat []

theorem pp.row_ok (B : List (List ℝ)) (hB : B ≠ []) (u : ℝ) (hu : 0 ≤ u) :
    np.row B (min (np.round u) (B.length - 1)) = .ok (pp.rowAt B u) ∧ pp.rowAt B u ∈ B := by
  have hpos := List.length_pos_of_ne_nil hB
  have hr := np.round_nonneg u hu
  have hk : 0 ≤ min (np.round u) ((B.length : ℤ) - 1) := le_min hr (by omega)
  have hk2 : (min (np.round u) ((B.length : ℤ) - 1)).toNat < B.length := by
    have := min_le_right (np.round u) ((B.length : ℤ) - 1)
    omega
  unfold np.row pp.rowAt
  rw [if_neg (by omega), List.getElem?_eq_getElem hk2, List.getD_eq_getElem?_getD, List.getElem?_eq_getElem hk2]
  simp only [Option.getD_some]
  rw [if_neg (by omega)]
  exact ⟨rfl, List.getElem_mem _⟩

/-- Position and phase of the output `k`. -/
noncomputable def pp.pos (rr rate φ : ℝ) (k : ℕ) : ℕ := ⌊(φ + k * (rr / rate)) / rr⌋₊

/-- The invariant of the outer loop: `i` samples consumed, `j` produced. -/
structure pp.Inv (B : List (List ℝ)) (rate φ : ℝ) (x s0 : List ℝ) (n0 : ℕ) (i j : ℕ) (t : pp.St) : Prop where
  hi : i ≤ x.length
  hj : j ≤ n0
  hxs : t.xs = x.drop i
  hidx : t.index = φ + j * (B.length / rate) - B.length * i
  hnonneg : 0 ≤ t.index
  hs : pp.Hist s0 (x.take i) t.s
  hn : t.n = n0 - j
  hy : t.y = (List.range j).map fun k =>
    weigh (pp.rowAt B (φ + k * (B.length / rate) - B.length * (pp.pos B.length rate φ k : ℝ))) x s0 (pp.pos B.length rate φ k)
  hlt : ∀ k < j, φ + (k : ℝ) * (B.length / rate) < B.length * x.length

theorem pp.body_spec (B : List (List ℝ)) (rate φ : ℝ) (x s0 : List ℝ) (n0 i j : ℕ) (t : pp.St) (hB : B ≠ []) (hrow : ∀ r ∈ B, r.length = s0.length)
    (hs0 : s0 ≠ []) (hr : 0 < rate) (h : pp.Inv B rate φ x s0 n0 i j t) (hg : pp.guard t = true) :
    ∃ t' i' j', pp.body B rate t = (.ok (), t') ∧ pp.Inv B rate φ x s0 n0 i' j' t' ∧ (x.length - i') + (n0 - j') < (x.length - i) + (n0 - j) ∧
      (i' = x.length ∨ t'.index < B.length) := by
  have hpos : (0 : ℝ) < B.length := by exact_mod_cast List.length_pos_of_ne_nil hB
  simp only [pp.guard, Bool.and_eq_true, Bool.not_eq_true', List.isEmpty_eq_false_iff, decide_eq_true_eq] at hg
  obtain ⟨hg1, hg2⟩ := hg
  have hil : i < x.length := by
    rcases Nat.lt_or_ge i x.length with h' | h'
    · exact h'
    · rw [h.hxs, List.drop_eq_nil_of_le h'] at hg1; exact absurd rfl hg1
  have hjn : j < n0 := by have := h.hn; omega
  by_cases hlt : t.index < B.length
  · -- an output
    obtain ⟨hrow1, hrow2⟩ := pp.row_ok B hB t.index h.hnonneg
    have hx0 : t.xs.headD 0 = x.getD i 0 := by
      rw [h.hxs, List.drop_eq_getElem_cons hil, List.headD_cons, List.getD_eq_getElem?_getD, List.getElem?_eq_getElem hil]; rfl
    have hΔ : 0 < (B.length : ℝ) / rate := div_pos hpos hr
    obtain ⟨c, h1, h2, h3, h4, h5, h6, h7⟩ := pp.inner_spec B.length s0 hs0 t.xs (x.take i) (t.s.set 0 (t.xs.headD 0))
      (t.index + B.length / rate) (by linarith [h.hnonneg]) (pp.hist_set h.hs _)
    have hposj : pp.pos B.length rate φ j = i := by
      unfold pp.pos
      rw [Nat.floor_eq_iff]
      · have a1 := h.hidx
        have a2 := h.hnonneg
        rw [le_div_iff₀ hpos, div_lt_iff₀ hpos]
        constructor <;> nlinarith
      · have a1 := h.hidx
        have a2 := h.hnonneg
        apply div_nonneg _ hpos.le
        have : 0 ≤ (B.length : ℝ) * i := by positivity
        linarith
    have hd := pp.dot_hist (pp.rowAt B t.index) x s0 t.s i hil hs0 (hrow _ hrow2) h.hs
    refine ⟨{ index := (pp.inner B.length t.xs (t.index + B.length / rate) (t.s.set 0 (t.xs.headD 0))).2.1
              s := (pp.inner B.length t.xs (t.index + B.length / rate) (t.s.set 0 (t.xs.headD 0))).2.2
              xs := (pp.inner B.length t.xs (t.index + B.length / rate) (t.s.set 0 (t.xs.headD 0))).1
              y := t.y ++ [dot (pp.rowAt B t.index) (t.s.set 0 (t.xs.headD 0))], n := t.n - 1 }, i + c, j + 1, ?_, ?_, ?_, ?_⟩
    · unfold pp.body
      simp only [hlt, if_true, hr.ne', if_false, hrow1]
    · have hxl : t.xs.length = x.length - i := by rw [h.hxs, List.length_drop]
      refine ⟨by omega, by omega, ?_, ?_, ?_, ?_, ?_, ?_, ?_⟩
      · simp only [h2]; rw [h.hxs, List.drop_drop]
      · simp only [h3]; rw [h.hidx]; push_cast; ring
      · simp only [h3]; exact h4
      · simp only
        rw [List.take_add, ← h.hxs]
        exact h6
      · simp only [h.hn]; omega
      · simp only
        rw [List.range_succ, List.map_append, List.map_singleton, h.hy, hx0, hd, hposj, ← h.hidx]
      · intro k hk
        rcases Nat.lt_succ_iff_lt_or_eq.mp hk with hk | rfl
        · exact h.hlt k hk
        · have a1 := h.hidx
          have a2 : (i : ℝ) + 1 ≤ x.length := by exact_mod_cast hil
          nlinarith
    · omega
    · have hxl : t.xs.length = x.length - i := by rw [h.hxs, List.length_drop]
      rcases Nat.lt_or_ge c t.xs.length with hc | hc
      · right; simp only [h3]; exact h5 hc
      · left; omega
  · obtain ⟨c, h1, h2, h3, h4, h5, h6, h7⟩ := pp.inner_spec B.length s0 hs0 t.xs (x.take i) t.s t.index h.hnonneg h.hs
    have hc := h7 (not_lt.mp hlt) hg1
    have hxl : t.xs.length = x.length - i := by rw [h.hxs, List.length_drop]
    refine ⟨{ t with index := (pp.inner B.length t.xs t.index t.s).2.1, s := (pp.inner B.length t.xs t.index t.s).2.2,
                     xs := (pp.inner B.length t.xs t.index t.s).1 }, i + c, j, ?_, ?_, ?_, ?_⟩
    · unfold pp.body
      simp only [hlt, if_false]
    · refine ⟨by omega, h.hj, ?_, ?_, ?_, ?_, h.hn, h.hy, h.hlt⟩
      · simp only [h2]; rw [h.hxs, List.drop_drop]
      · simp only [h3]; rw [h.hidx]; push_cast; ring
      · simp only [h3]; exact h4
      · simp only
        rw [List.take_add, ← h.hxs]
        exact h6
    · omega
    · rcases Nat.lt_or_ge c t.xs.length with hc' | hc'
      · right; simp only [h3]; exact h5 hc'
      · left; omega

theorem pp.loop_spec (B : List (List ℝ)) (rate φ : ℝ) (x s0 : List ℝ) (n0 : ℕ) (hB : B ≠ []) (hrow : ∀ r ∈ B, r.length = s0.length)
    (hs0 : s0 ≠ []) (hr : 0 < rate) : ∀ (fuel i j : ℕ) (t : pp.St), pp.Inv B rate φ x s0 n0 i j t → (x.length - i) + (n0 - j) ≤ fuel →
    ∃ t' i' j', pp.loop B rate fuel t = (.ok (), t') ∧ pp.Inv B rate φ x s0 n0 i' j' t' ∧ pp.guard t' = false ∧
      (t' = t ∨ i' = x.length ∨ t'.index < B.length) := by
  intro fuel
  induction fuel with
  | zero =>
    intro i j t h hf
    refine ⟨t, i, j, rfl, h, ?_, Or.inl rfl⟩
    have : t.n = 0 := by have := h.hn; omega
    simp [pp.guard, this]
  | succ fuel ih =>
    intro i j t h hf
    by_cases hg : pp.guard t = true
    · obtain ⟨t1, i1, j1, g1, g2, g3, g4⟩ := pp.body_spec B rate φ x s0 n0 i j t hB hrow hs0 hr h hg
      obtain ⟨t2, i2, j2, k1, k2, k3, k4⟩ := ih i1 j1 t1 g2 (by omega)
      refine ⟨t2, i2, j2, ?_, k2, k3, ?_⟩
      · simp only [pp.loop, hg, if_true, g1, k1]
      · right
        rcases k4 with k4 | k4
        · subst k4
          rcases g4 with g4 | g4
          · left
            have e1 := g2.hxs
            have e2 := k2.hxs
            rw [e1, g4, List.drop_length] at e2
            have := List.drop_eq_nil_iff.mp e2.symm
            have := k2.hi
            omega
          · exact Or.inr g4
        · exact k4
    · refine ⟨t, i, j, ?_, h, by simpa using hg, Or.inl rfl⟩
      simp only [pp.loop, hg]
      rfl

end Verif
