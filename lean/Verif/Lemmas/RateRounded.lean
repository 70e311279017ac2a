import Verif.Model.RateRounded
import Verif.Lemmas.Polyphase

/-!
Invariants of the loops of the rate filters with rounded times.
-/

namespace Verif

open Spec

/-- The time of output `k` within `(i + 2 k) δ` of `φ + k w`, for intervals of the length `R`. -/
def Timed (R w φ δ : ℝ) (i k : ℕ) (index : ℝ) : Prop := |R * i + index - (φ + k * w)| ≤ (i + 2 * k) * δ

theorem Timed.emit {fl : ℝ → ℝ} {R w φ δ v : ℝ} {i k : ℕ} {index : ℝ} (h : Timed R w φ δ i k index) (hv : |v - w| ≤ δ) (hf : |fl (index + v) - (index + v)| ≤ δ) :
    Timed R w φ δ i (k + 1) (fl (index + v)) := by
  unfold Timed at *
  rw [abs_le] at *
  push_cast
  constructor <;> linarith [h.1, h.2, hv.1, hv.2, hf.1, hf.2]

theorem Timed.advance {fl : ℝ → ℝ} {R w φ δ : ℝ} {i k : ℕ} {index : ℝ} (h : Timed R w φ δ i k index) (hf : |fl (index - R) - (index - R)| ≤ δ) :
    Timed R w φ δ (i + 1) k (fl (index - R)) := by
  unfold Timed at *
  rw [abs_le] at *
  push_cast
  constructor <;> linarith [h.1, h.2, hf.1, hf.2]

theorem prate.innerF_spec (fl : ℝ → ℝ) (b : List ℝ) (w v δ : ℝ) (hv : |v - w| ≤ δ) (hδ : 4 * δ ≤ w) (hδ1 : δ ≤ 1)
    (hfl : ∀ z, |z| ≤ w + 3 → |fl z - z| ≤ δ) (i : ℕ) : ∀ (n k : ℕ) (index : ℝ), Timed 1 w 0 δ i k index → -δ ≤ index → index ≤ w + 3 →
    ∃ c, c ≤ n ∧ (prate.innerF fl b v n index).1.length = c ∧ (prate.innerF fl b v n index).2.2 = n - c ∧
      Timed 1 w 0 δ i (k + c) (prate.innerF fl b v n index).2.1 ∧ -δ ≤ (prate.innerF fl b v n index).2.1 ∧ (prate.innerF fl b v n index).2.1 ≤ w + 3 ∧
      (c < n → 1 ≤ (prate.innerF fl b v n index).2.1) ∧
      ∀ j < c, ∃ τ, Timed 1 w 0 δ i (k + j) τ ∧ -δ ≤ τ ∧ τ < 1 ∧ (prate.innerF fl b v n index).1[j]? = some (np.polyval b τ) := by
  have hv' := abs_le.mp hv
  intro n
  induction n with
  | zero => intro k index h1 h2 h3; exact ⟨0, le_rfl, rfl, rfl, h1, h2, h3, by simp, by simp⟩
  | succ n ih =>
    intro k index h1 h2 h3
    by_cases h : index < 1
    · have hz := hfl (index + v) (by rw [abs_le]; constructor <;> linarith)
      have hz' := abs_le.mp hz
      obtain ⟨c, g1, g2, g3, g4, g5, g6, g7, g8⟩ := ih (k + 1) (fl (index + v)) (h1.emit hv hz) (by linarith) (by linarith)
      refine ⟨c + 1, by omega, ?_, ?_, ?_, ?_, ?_, ?_, ?_⟩
      · simp only [prate.innerF, h, if_true, List.length_cons, g2]
      · simp only [prate.innerF, h, if_true, g3]; omega
      · simp only [prate.innerF, h, if_true]; rw [show k + (c + 1) = k + 1 + c by omega]; exact g4
      · simp only [prate.innerF, h, if_true]; exact g5
      · simp only [prate.innerF, h, if_true]; exact g6
      · intro hc
        simp only [prate.innerF, h, if_true]; exact g7 (by omega)
      · intro j hj
        cases j with
        | zero => exact ⟨index, h1, h2, h, by simp [prate.innerF, h]⟩
        | succ j =>
          obtain ⟨τ, t1, t2, t3, t4⟩ := g8 j (by omega)
          refine ⟨τ, by rw [show k + (j + 1) = k + 1 + j by omega]; exact t1, t2, t3, ?_⟩
          simp only [prate.innerF, h, if_true, List.getElem?_cons_succ, t4]
    · refine ⟨0, by omega, by simp [prate.innerF, h], by simp [prate.innerF, h], by simpa [prate.innerF, h] using h1, by simpa [prate.innerF, h] using h2,
        by simpa [prate.innerF, h] using h3, ?_, by simp⟩
      intro _
      push Not at h
      simpa [prate.innerF, not_lt.mpr h] using h

theorem prate.outerF_zero (fl : ℝ → ℝ) (fit : List ℝ → List ℝ) (v : ℝ) : ∀ (m : ℕ) (xs : List ℝ) (index : ℝ), prate.outerF fl fit v m xs index 0 = [] := by
  intro m
  induction m with
  | zero => intro xs index; rfl
  | succ m ih =>
    intro xs index
    have hz : ∀ b idx, prate.innerF fl b v 0 idx = ([], idx, 0) := fun b idx => rfl
    simp [prate.outerF, hz, ih]

theorem prate.outerF_spec (fl : ℝ → ℝ) (fit : List ℝ → List ℝ) (w v δ : ℝ) (hv : |v - w| ≤ δ) (hδ : 4 * δ ≤ w) (hδ1 : δ ≤ 1)
    (hfl : ∀ z, |z| ≤ w + 3 → |fl z - z| ≤ δ) (xs : List ℝ) : ∀ (m i k n : ℕ) (index : ℝ), Timed 1 w 0 δ i k index → -δ ≤ index → index ≤ w + 3 →
    (prate.outerF fl fit v m (xs.drop i) index n).length ≤ n ∧
      (∀ j < (prate.outerF fl fit v m (xs.drop i) index n).length, ∃ i' τ, i' < i + m ∧ Timed 1 w 0 δ i' (k + j) τ ∧ -δ ≤ τ ∧ τ < 1 ∧
        (prate.outerF fl fit v m (xs.drop i) index n)[j]? = some (np.polyval (fit ((xs.drop i').take 4)) τ)) ∧
      ((prate.outerF fl fit v m (xs.drop i) index n).length < n →
        ∃ τ, Timed 1 w 0 δ (i + m) (k + (prate.outerF fl fit v m (xs.drop i) index n).length) τ ∧ -δ ≤ τ) := by
  intro m
  induction m with
  | zero =>
    intro i k n index h1 h2 h3
    exact ⟨by simp [prate.outerF], by simp [prate.outerF], fun _ => ⟨index, by simpa [prate.outerF] using h1, h2⟩⟩
  | succ m ih =>
    intro i k n index h1 h2 h3
    have hδ0 : 0 ≤ δ := le_trans (abs_nonneg _) hv
    have hdrop : (xs.drop i).tail = xs.drop (i + 1) := by rw [List.tail_drop]
    by_cases hlt : index < 1
    · obtain ⟨c, p1, p2, p3, p4, p5, p6, p7, p8⟩ := prate.innerF_spec fl (fit ((xs.drop i).take 4)) w v δ hv hδ hδ1 hfl i n k index h1 h2 h3
      rcases hin : prate.innerF fl (fit ((xs.drop i).take 4)) v n index with ⟨ys, idx', n'⟩
      rw [hin] at p2 p3 p4 p5 p6 p7 p8
      simp only at p2 p3 p4 p5 p6 p7 p8
      have e : prate.outerF fl fit v (m + 1) (xs.drop i) index n = ys ++ prate.outerF fl fit v m (xs.drop (i + 1)) (fl (idx' - 1)) (n - c) := by
        simp only [prate.outerF, hlt, if_true, hdrop, hin, p3]
      rw [e]
      rcases Nat.lt_or_ge c n with hc | hc
      · have h1' := p7 hc
        have hz := hfl (idx' - 1) (by rw [abs_le]; constructor <;> linarith)
        have hz' := abs_le.mp hz
        obtain ⟨g1, g2, g3⟩ := ih (i + 1) (k + c) (n - c) (fl (idx' - 1)) (p4.advance hz) (by linarith) (by linarith)
        refine ⟨by rw [List.length_append, p2]; omega, ?_, ?_⟩
        · intro j hj
          by_cases hjc : j < c
          · obtain ⟨τ, t1, t2, t3, t4⟩ := p8 j hjc
            exact ⟨i, τ, by omega, t1, t2, t3, by rw [List.getElem?_append_left (by omega)]; exact t4⟩
          · obtain ⟨i', τ, t1, t2, t3, t4, t5⟩ := g2 (j - c) (by rw [List.length_append, p2] at hj; omega)
            refine ⟨i', τ, by omega, by rw [show k + j = k + c + (j - c) by omega]; exact t2, t3, t4, ?_⟩
            rw [List.getElem?_append_right (by omega), p2]; exact t5
        · intro hl
          rw [List.length_append, p2] at hl ⊢
          obtain ⟨τ, t1, t2⟩ := g3 (by omega)
          refine ⟨τ, ?_, t2⟩
          rw [show i + (m + 1) = i + 1 + m by omega, ← Nat.add_assoc k c]; exact t1
      · have hcn : n - c = 0 := by omega
        rw [hcn, prate.outerF_zero, List.append_nil]
        refine ⟨by omega, ?_, by omega⟩
        intro j hj
        obtain ⟨τ, t1, t2, t3, t4⟩ := p8 j (by omega)
        exact ⟨i, τ, by omega, t1, t2, t3, t4⟩
    · have e : prate.outerF fl fit v (m + 1) (xs.drop i) index n = prate.outerF fl fit v m (xs.drop (i + 1)) (fl (index - 1)) n := by
        simp only [prate.outerF, hlt, if_false, hdrop, List.nil_append]
      rw [e]
      push Not at hlt
      have hz := hfl (index - 1) (by rw [abs_le]; constructor <;> linarith)
      have hz' := abs_le.mp hz
      obtain ⟨g1, g2, g3⟩ := ih (i + 1) k n (fl (index - 1)) (h1.advance hz) (by linarith) (by linarith)
      refine ⟨g1, fun j hj => ?_, fun hl => ?_⟩
      · obtain ⟨i', τ, t1, t2⟩ := g2 j hj
        exact ⟨i', τ, by omega, t2⟩
      · rw [show i + (m + 1) = i + 1 + m by omega]; exact g3 hl

/-- The inner loop of the polyphase filter. -/
theorem pp.innerF_spec (fl : ℝ → ℝ) (R w φ δ M : ℝ) (hR : 0 < R) (hM : ∀ z, 0 ≤ z → z ≤ M → |fl z - z| ≤ δ) (hδR : δ ≤ R) (s0 : List ℝ) (hs : s0 ≠ []) (k : ℕ) :
    ∀ (xs l s : List ℝ) (i : ℕ) (index : ℝ), Timed R w φ δ i k index → -δ ≤ index → index ≤ M → pp.Hist s0 l s →
    ∃ c, c ≤ xs.length ∧ (pp.innerF fl R xs index s).1 = xs.drop c ∧ Timed R w φ δ (i + c) k (pp.innerF fl R xs index s).2.1 ∧
      -δ ≤ (pp.innerF fl R xs index s).2.1 ∧ (pp.innerF fl R xs index s).2.1 ≤ M ∧ (c < xs.length → (pp.innerF fl R xs index s).2.1 < R) ∧
      pp.Hist s0 (l ++ xs.take c) (pp.innerF fl R xs index s).2.2 ∧ (R ≤ index → xs ≠ [] → 0 < c) := by
  intro xs
  induction xs with
  | nil => intro l s i index h1 h2 h3 hh; exact ⟨0, le_rfl, rfl, h1, h2, h3, by simp, by simpa [pp.innerF] using hh, by simp⟩
  | cons x xs ih =>
    intro l s i index h1 h2 h3 hh
    by_cases h : index ≥ R
    · have hz := hM (index - R) (by linarith) (by linarith)
      have hz' := abs_le.mp hz
      obtain ⟨c, g1, g2, g3, g4, g5, g6, g7, -⟩ := ih (l ++ [x]) (shiftRight (s.set 0 x)) (i + 1) (fl (index - R)) (h1.advance hz) (by linarith) (by linarith)
        (pp.hist_shift hh hs x)
      refine ⟨c + 1, by simpa using g1, ?_, ?_, ?_, ?_, ?_, ?_, ?_⟩
      · simp only [pp.innerF, h, if_true, g2, List.drop_succ_cons]
      · simp only [pp.innerF, h, if_true]; rw [show i + (c + 1) = i + 1 + c by omega]; exact g3
      · simp only [pp.innerF, h, if_true]; exact g4
      · simp only [pp.innerF, h, if_true]; exact g5
      · intro hc; simp only [pp.innerF, h, if_true]; exact g6 (by simpa using hc)
      · simp only [pp.innerF, h, if_true, List.take_succ_cons]
        rwa [List.append_assoc, List.singleton_append] at g7
      · intro _ _; omega
    · refine ⟨0, by simp, ?_, ?_, ?_, ?_, ?_, ?_, ?_⟩
      · simp [pp.innerF, h]
      · simpa [pp.innerF, h] using h1
      · simpa [pp.innerF, h] using h2
      · simpa [pp.innerF, h] using h3
      · intro _; push Not at h; simpa [pp.innerF, not_le.mpr h] using h
      · simpa [pp.innerF, h] using hh
      · intro h' _; exact absurd h' h

theorem np.round_nonneg' (x : ℝ) (hx : -(1 / 4) ≤ x) : 0 ≤ np.round x := by
  have h := abs_le.mp (np.round_spec x).1
  have : (-1 : ℝ) < np.round x := by linarith
  have : (-1 : ℤ) < np.round x := by exact_mod_cast this
  omega

theorem pp.row_ok' (B : List (List ℝ)) (hB : B ≠ []) (u : ℝ) (hu : -(1 / 4) ≤ u) :
    np.row B (min (np.round u) (B.length - 1)) = .ok (pp.rowAt B u) ∧ pp.rowAt B u ∈ B := by
  have hpos := List.length_pos_of_ne_nil hB
  have hr := np.round_nonneg' u hu
  have hk : 0 ≤ min (np.round u) ((B.length : ℤ) - 1) := le_min hr (by omega)
  have hk2 : (min (np.round u) ((B.length : ℤ) - 1)).toNat < B.length := by
    have := min_le_right (np.round u) ((B.length : ℤ) - 1)
    omega
  unfold np.row pp.rowAt
  rw [if_neg (by omega), List.getElem?_eq_getElem hk2, List.getD_eq_getElem?_getD, List.getElem?_eq_getElem hk2]
  simp only [Option.getD_some]
  rw [if_neg (by omega)]
  exact ⟨rfl, List.getElem_mem _⟩

/-- The invariant of the outer loop with rounded times: `i` samples consumed, `j` produced. -/
structure pp.InvF (B : List (List ℝ)) (w φ δ M : ℝ) (x s0 : List ℝ) (n0 : ℕ) (i j : ℕ) (t : pp.St) : Prop where
  hi : i ≤ x.length
  hj : j ≤ n0
  hxs : t.xs = x.drop i
  hidx : Timed B.length w φ δ i j t.index
  hlow : -δ ≤ t.index
  hhigh : t.index ≤ M
  hs : pp.Hist s0 (x.take i) t.s
  hn : t.n = n0 - j
  hlen : t.y.length = j
  hy : ∀ k < j, ∃ i' τ, i' < x.length ∧ Timed B.length w φ δ i' k τ ∧ -δ ≤ τ ∧ τ < B.length ∧ t.y[k]? = some (weigh (pp.rowAt B τ) x s0 i')

theorem pp.bodyF_spec (fl : ℝ → ℝ) (B : List (List ℝ)) (rate φ δ : ℝ) (x s0 : List ℝ) (n0 i j : ℕ) (t : pp.St) (hB : B ≠ []) (hrow : ∀ r ∈ B, r.length = s0.length)
    (hs0 : s0 ≠ []) (hr : 0 < rate) (hδ0 : 0 ≤ δ) (hδ : 4 * δ ≤ B.length / rate) (hδ1 : 4 * δ ≤ 1)
    (hfl : ∀ z, 0 ≤ z + δ → z ≤ B.length + B.length / rate + 1 → |fl z - z| ≤ δ)
    (h : pp.InvF B (B.length / rate) φ δ (B.length + B.length / rate + 1) x s0 n0 i j t) (hg : pp.guard t = true) :
    ∃ t' i' j', pp.bodyF fl B rate t = (.ok (), t') ∧ pp.InvF B (B.length / rate) φ δ (B.length + B.length / rate + 1) x s0 n0 i' j' t' ∧
      (x.length - i') + (n0 - j') < (x.length - i) + (n0 - j) := by
  have hpos1 : (1 : ℝ) ≤ B.length := by exact_mod_cast List.length_pos_of_ne_nil hB
  have hpos : (0 : ℝ) < B.length := by linarith
  have hΔ : 0 < (B.length : ℝ) / rate := div_pos hpos hr
  have hw := hfl (B.length / rate)
  generalize hwd : (B.length : ℝ) / rate = w at *
  have hw := hw (by linarith) (by linarith)
  have hw' := abs_le.mp hw
  simp only [pp.guard, Bool.and_eq_true, Bool.not_eq_true', List.isEmpty_eq_false_iff, decide_eq_true_eq] at hg
  obtain ⟨hg1, hg2⟩ := hg
  have hM : ∀ z, 0 ≤ z → z ≤ B.length + w + 1 → |fl z - z| ≤ δ := fun z h1 h2 => hfl z (by linarith) h2
  have hil : i < x.length := by
    rcases Nat.lt_or_ge i x.length with h' | h'
    · exact h'
    · rw [h.hxs, List.drop_eq_nil_of_le h'] at hg1; exact absurd rfl hg1
  have hjn : j < n0 := by have := h.hn; omega
  have hxl : t.xs.length = x.length - i := by rw [h.hxs, List.length_drop]
  by_cases hlt : t.index < B.length
  · obtain ⟨hrow1, hrow2⟩ := pp.row_ok' B hB t.index (by linarith [h.hlow])
    have hx0 : t.xs.headD 0 = x.getD i 0 := by
      rw [h.hxs, List.drop_eq_getElem_cons hil, List.headD_cons, List.getD_eq_getElem?_getD, List.getElem?_eq_getElem hil]; rfl
    have hz := hfl (t.index + fl w) (by linarith [h.hlow]) (by linarith [h.hlow])
    have hz' := abs_le.mp hz
    obtain ⟨c, h1, h2, h3, h4, h5, h6, h7, h8⟩ := pp.innerF_spec fl B.length w φ δ _ hpos hM (by linarith) s0 hs0 (j + 1) t.xs (x.take i) (t.s.set 0 (t.xs.headD 0)) i
      (fl (t.index + fl w)) (h.hidx.emit hw hz) (by linarith [h.hlow]) (by linarith [h.hlow]) (pp.hist_set h.hs _)
    have hd := pp.dot_hist (pp.rowAt B t.index) x s0 t.s i hil hs0 (hrow _ hrow2) h.hs
    refine ⟨{ index := (pp.innerF fl B.length t.xs (fl (t.index + fl w)) (t.s.set 0 (t.xs.headD 0))).2.1
              s := (pp.innerF fl B.length t.xs (fl (t.index + fl w)) (t.s.set 0 (t.xs.headD 0))).2.2
              xs := (pp.innerF fl B.length t.xs (fl (t.index + fl w)) (t.s.set 0 (t.xs.headD 0))).1
              y := t.y ++ [dot (pp.rowAt B t.index) (t.s.set 0 (t.xs.headD 0))], n := t.n - 1 }, i + c, j + 1, ?_, ?_, ?_⟩
    · unfold pp.bodyF
      simp only [hlt, if_true, hr.ne', if_false, hrow1, hwd]
    · refine ⟨by omega, by omega, ?_, h3, h4, h5, ?_, ?_, ?_, ?_⟩
      · simp only [h2]; rw [h.hxs, List.drop_drop]
      · simp only
        rw [List.take_add, ← h.hxs]
        exact h7
      · simp only [h.hn]; omega
      · simp [h.hlen]
      · intro k hk
        rcases Nat.lt_succ_iff_lt_or_eq.mp hk with hk | rfl
        · obtain ⟨i', τ, e1, e2, e3, e4, e5⟩ := h.hy k hk
          exact ⟨i', τ, e1, e2, e3, e4, by rw [List.getElem?_append_left (by rw [h.hlen]; exact hk)]; exact e5⟩
        · refine ⟨i, t.index, hil, h.hidx, h.hlow, hlt, ?_⟩
          rw [List.getElem?_append_right (by rw [h.hlen]), h.hlen, Nat.sub_self, List.getElem?_cons_zero, hx0, hd]
    · omega
  · obtain ⟨c, h1, h2, h3, h4, h5, h6, h7, h8⟩ := pp.innerF_spec fl B.length w φ δ _ hpos hM (by linarith) s0 hs0 j t.xs (x.take i) t.s i t.index h.hidx h.hlow h.hhigh h.hs
    have hc := h8 (not_lt.mp hlt) hg1
    refine ⟨{ t with index := (pp.innerF fl B.length t.xs t.index t.s).2.1, s := (pp.innerF fl B.length t.xs t.index t.s).2.2,
                     xs := (pp.innerF fl B.length t.xs t.index t.s).1 }, i + c, j, ?_, ?_, ?_⟩
    · unfold pp.bodyF
      simp only [hlt, if_false]
    · refine ⟨by omega, h.hj, ?_, h3, h4, h5, ?_, h.hn, h.hlen, h.hy⟩
      · simp only [h2]; rw [h.hxs, List.drop_drop]
      · simp only
        rw [List.take_add, ← h.hxs]
        exact h7
    · omega

theorem pp.loopF_spec (fl : ℝ → ℝ) (B : List (List ℝ)) (rate φ δ : ℝ) (x s0 : List ℝ) (n0 : ℕ) (hB : B ≠ []) (hrow : ∀ r ∈ B, r.length = s0.length)
    (hs0 : s0 ≠ []) (hr : 0 < rate) (hδ0 : 0 ≤ δ) (hδ : 4 * δ ≤ B.length / rate) (hδ1 : 4 * δ ≤ 1)
    (hfl : ∀ z, 0 ≤ z + δ → z ≤ B.length + B.length / rate + 1 → |fl z - z| ≤ δ) : ∀ (fuel i j : ℕ) (t : pp.St),
    pp.InvF B (B.length / rate) φ δ (B.length + B.length / rate + 1) x s0 n0 i j t → (x.length - i) + (n0 - j) ≤ fuel →
    ∃ t' i' j', pp.loopF fl B rate fuel t = (.ok (), t') ∧ pp.InvF B (B.length / rate) φ δ (B.length + B.length / rate + 1) x s0 n0 i' j' t' ∧ pp.guard t' = false := by
  intro fuel
  induction fuel with
  | zero =>
    intro i j t h hf
    refine ⟨t, i, j, rfl, h, ?_⟩
    have : t.n = 0 := by have := h.hn; omega
    simp [pp.guard, this]
  | succ fuel ih =>
    intro i j t h hf
    by_cases hg : pp.guard t = true
    · obtain ⟨t1, i1, j1, g1, g2, g3⟩ := pp.bodyF_spec fl B rate φ δ x s0 n0 i j t hB hrow hs0 hr hδ0 hδ hδ1 hfl h hg
      obtain ⟨t2, i2, j2, k1, k2, k3⟩ := ih i1 j1 t1 g2 (by omega)
      exact ⟨t2, i2, j2, by simp only [pp.loopF, hg, if_true, g1, k1], k2, k3⟩
    · refine ⟨t, i, j, ?_, h, by simpa using hg⟩
      simp only [pp.loopF, hg]
      rfl

end Verif
