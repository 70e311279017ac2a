import Verif.Lemmas.Polyphase
import Verif.Model.Fir
import Mathlib.Tactic.NormNum

/- Properties of PolyphaseRateFilter (C36-C38). -/

namespace Verif.Props

open Finset Spec

/-- A bank of filters with `cc` coefficients each. -/
def IsBank (cc : ℕ) (B : List (List ℝ)) : Prop := B ≠ [] ∧ 0 < cc ∧ ∀ r ∈ B, r.length = cc

/-- The states that calls can lead to: `Polyphase.ops` below. -/
def PPReach (cc : ℕ) (p : Polyphase) : Prop := 0 ≤ p.index ∧ 0 ≤ p.rate ∧ p.s.length = cc

/-- Output `k` in terms of the state and the signal. -/
noncomputable def ppOut (B : List (List ℝ)) (p : Polyphase) (x : List ℝ) (k : ℕ) : ℝ :=
  weigh (pp.rowAt B (p.index + k * (B.length / p.rate) - B.length * (pp.pos B.length p.rate p.index k : ℝ))) x p.s (pp.pos B.length p.rate p.index k)

theorem pp_round_zero : (np.round 0).toNat = 0 := by simp [np.round]

theorem pp_filter_spec (cc : ℕ) (B : List (List ℝ)) (hB : IsBank cc B) (p : Polyphase) (hp : PPReach cc p) (hr : 0 < p.rate) (x : List ℝ) (hx : x ≠ []) :
    ∃ p' i c, p.filter B x = (.ok ((List.range c).map (ppOut B p x)), p') ∧ i ≤ x.length ∧ c ≤ (np.round (x.length * p.rate)).toNat ∧
      p'.index = p.index + c * (B.length / p.rate) - B.length * i ∧ p'.rate = p.rate ∧ 0 ≤ p'.index ∧ pp.Hist p.s (x.take i) p'.s ∧
      (c < (np.round (x.length * p.rate)).toNat → i = x.length) ∧ (∀ k < c, p.index + (k : ℝ) * (B.length / p.rate) < B.length * x.length) ∧
      ((np.round (x.length * p.rate)).toNat = 0 ∨ i = x.length ∨ p'.index < B.length) ∧ ((np.round (x.length * p.rate)).toNat = 0 → i = 0) ∧
      (∃ t, pp.loop B p.rate (x.length + (np.round (x.length * p.rate)).toNat) (p.start x) = (.ok (), t) ∧ pp.guard t = false) := by
  obtain ⟨h1, h2, h3⟩ := hB
  obtain ⟨q1, q2, q3⟩ := hp
  have hs0 : p.s ≠ [] := by intro h; rw [h] at q3; simp at q3; omega
  set n0 := (np.round (x.length * p.rate)).toNat with hn0
  have hinv : pp.Inv B p.rate p.index x p.s n0 0 0 (p.start x) := by
    refine ⟨by simp, by simp, rfl, by simp [Polyphase.start], q1, ⟨rfl, ?_⟩, rfl, rfl, by simp⟩
    simp only [Polyphase.start, List.take_zero, List.reverse_nil, List.nil_append]
    rw [List.take_of_length_le]; simp
  obtain ⟨t, i, c, g1, g2, g3, g4⟩ := pp.loop_spec B p.rate p.index x p.s n0 h1 (fun r hr => by rw [h3 r hr, q3]) hs0 hr _ 0 0 _ hinv
    (by omega : _ ≤ x.length + n0)
  refine ⟨{ p with index := t.index, s := t.s }, i, c, ?_, g2.hi, g2.hj, g2.hidx, rfl, g2.hnonneg, g2.hs, ?_, g2.hlt, ?_, ?_, t, g1, g3⟩
  · unfold Polyphase.filter
    rw [if_neg hx, ← hn0, g1]
    simp only [g2.hy]
    rfl
  · intro hc
    have hn := g2.hn
    simp only [pp.guard, Bool.and_eq_false_iff, Bool.not_eq_false', List.isEmpty_iff, decide_eq_false_iff_not] at g3
    rcases g3 with g3 | g3
    · rw [g2.hxs] at g3
      have := List.drop_eq_nil_iff.mp g3
      have := g2.hi
      omega
    · omega
  · rcases g4 with g4 | g4
    · left
      have hn := g2.hn
      rw [g4] at g3
      simp only [pp.guard, Bool.and_eq_false_iff, Bool.not_eq_false', List.isEmpty_iff, decide_eq_false_iff_not] at g3
      rcases g3 with g3 | g3
      · exact absurd g3 hx
      · simp only [Polyphase.start] at g3
        omega
    · exact Or.inr g4
  · intro hz
    have hg : pp.guard (p.start x) = false := by simp [pp.guard, Polyphase.start, ← hn0, hz]
    have hl : ∀ fuel, pp.loop B p.rate fuel (p.start x) = (.ok (), p.start x) := by
      intro fuel
      cases fuel with
      | zero => rfl
      | succ f => simp [pp.loop, hg]
    rw [hl] at g1
    have ht : t = p.start x := (Prod.ext_iff.mp g1).2.symm
    have := g2.hxs
    rw [ht] at this
    have := congrArg List.length this
    simp only [Polyphase.start, List.length_drop] at this
    have := List.length_pos_of_ne_nil hx
    have := g2.hi
    omega

/-- C36.  The loops of `filter` end: after at most `len(x) + round(len(x) * rate)` passes the condition of the outer loop is false, no index is
outside an array, and no exception is raised. -/
theorem C36_terminates (cc : ℕ) (B : List (List ℝ)) (hB : IsBank cc B) (p : Polyphase) (hp : PPReach cc p) (x : List ℝ) (hx : x ≠ []) :
    ∃ t, pp.loop B p.rate (x.length + (np.round (x.length * p.rate)).toNat) (p.start x) = (.ok (), t) ∧ pp.guard t = false := by
  rcases eq_or_lt_of_le hp.2.1 with h0 | h0
  · refine ⟨p.start x, ?_, ?_⟩
    · rw [← h0, mul_zero, pp_round_zero]
      cases hl : x.length with
      | zero => rfl
      | succ n => simp [pp.loop, pp.guard, Polyphase.start, ← h0, pp_round_zero]
    · simp [pp.guard, Polyphase.start, ← h0, pp_round_zero]
  · obtain ⟨_, _, _, _, _, _, _, _, _, _, _, _, _, h⟩ := pp_filter_spec cc B hB p hp h0 x hx
    exact h.2

/-- C36.  From every reachable state `filter` returns at most `round(len(x) * rate)` samples, and exactly as many when the phase is zero, as it
is for a new filter.  Output `k` belongs to the time `(index / rr) + k / rate`: it weighs the latest samples at the integer part with the
row of the bank at the rounded fractional part.  The new state is reachable. -/
theorem C36_filter (cc : ℕ) (B : List (List ℝ)) (hB : IsBank cc B) (p : Polyphase) (hp : PPReach cc p) (x : List ℝ) (hx : x ≠ []) :
    ∃ (y : List ℝ) (p' : Polyphase) (m : ℤ), p.filter B x = (.ok y, p') ∧ PPReach cc p' ∧ p'.rate = p.rate ∧
      IsRound (x.length * p.rate) m ∧ (y.length : ℤ) ≤ m ∧ (p.index = 0 → (y.length : ℤ) = m) ∧
      ∀ k < y.length, ∃ (i : ℕ) (m : ℤ) (row : List ℝ), i < x.length ∧
        (i : ℝ) ≤ p.index / B.length + k / p.rate ∧ p.index / B.length + k / p.rate < i + 1 ∧
        IsRound (B.length * (p.index / B.length + k / p.rate - i)) m ∧ 0 ≤ m ∧ B[(min m (B.length - 1)).toNat]? = some row ∧
        y[k]? = some (weigh row x p.s i) := by
  obtain ⟨q1, q2, q3⟩ := id hp
  have hround := np.round_nonneg (x.length * p.rate) (by positivity)
  have hpos : (0 : ℝ) < B.length := by exact_mod_cast List.length_pos_of_ne_nil hB.1
  rcases eq_or_lt_of_le q2 with h0 | h0
  · refine ⟨[], p, 0, ?_, hp, rfl, ?_, by simp, by simp, by simp⟩
    · unfold Polyphase.filter
      rw [if_neg hx]
      have : pp.loop B p.rate (x.length + (np.round (x.length * p.rate)).toNat) (p.start x) = (.ok (), p.start x) := by
        rw [← h0, mul_zero, pp_round_zero]
        cases hl : x.length with
        | zero => rfl
        | succ n => simp [pp.loop, pp.guard, Polyphase.start, ← h0, pp_round_zero]
      rw [this]; rfl
    · rw [← h0]; simp [IsRound]
  · obtain ⟨p', i, c, g1, g2, g3, g4, g5, g6, g7, g8, g9, g10, g11, -⟩ := pp_filter_spec cc B hB p hp h0 x hx
    refine ⟨_, p', np.round (x.length * p.rate), g1, ⟨g6, by rw [g5]; exact q2, by rw [g7.1, q3]⟩, g5, np.round_spec _, ?_, ?_, ?_⟩
    · simp; omega
    · intro hidx
      simp only [List.length_map, List.length_range]
      by_contra hne
      have hlt : c < (np.round (x.length * p.rate)).toNat := by omega
      have hi := g8 hlt
      rw [g4, hidx, hi] at g6
      have hc : ((c : ℤ) : ℝ) + 1 ≤ (np.round (x.length * p.rate) : ℝ) := by exact_mod_cast (by omega : (c : ℤ) + 1 ≤ np.round (x.length * p.rate))
      push_cast at hc
      have hb := abs_le.mp (np.round_spec (x.length * p.rate)).1
      have hmul : (B.length : ℝ) * x.length ≤ B.length * (c / p.rate) := by
        have : (c : ℝ) * (B.length / p.rate) = B.length * (c / p.rate) := by ring
        linarith
      have := le_of_mul_le_mul_left hmul hpos
      rw [le_div_iff₀ h0] at this
      linarith
    · intro k hk
      simp only [List.length_map, List.length_range] at hk
      have hlt := g9 k hk
      set u := p.index + (k : ℝ) * (B.length / p.rate) with hu
      have hu0 : 0 ≤ u := by positivity
      have hdiv : u / B.length = p.index / B.length + k / p.rate := by
        rw [hu]; field_simp
      set j := pp.pos B.length p.rate p.index k with hj
      have hj1 : (j : ℝ) ≤ u / B.length := by rw [hj]; exact Nat.floor_le (by positivity)
      have hj2 : u / B.length < j + 1 := by rw [hj]; exact Nat.lt_floor_add_one _
      have hφ : u - B.length * j = B.length * (p.index / B.length + k / p.rate - j) := by
        rw [← hdiv]; field_simp
      have hφ0 : 0 ≤ u - B.length * j := by rw [hφ, ← hdiv]; exact mul_nonneg hpos.le (by linarith)
      refine ⟨j, np.round (u - B.length * j), pp.rowAt B (u - B.length * j), ?_, by rw [← hdiv]; exact hj1, by rw [← hdiv]; exact hj2, ?_,
        np.round_nonneg _ hφ0, ?_, ?_⟩
      · have : u / B.length < x.length := by rw [div_lt_iff₀ hpos]; linarith
        exact_mod_cast lt_of_le_of_lt hj1 this
      · rw [← hφ]; exact np.round_spec _
      · have hk : (min (np.round (u - B.length * j)) ((B.length : ℤ) - 1)).toNat < B.length := by
          have := List.length_pos_of_ne_nil hB.1
          have := min_le_right (np.round (u - B.length * j)) ((B.length : ℤ) - 1)
          omega
        rw [List.getElem?_eq_getElem hk, pp.rowAt, List.getD_eq_getElem?_getD, List.getElem?_eq_getElem hk]
        rfl
      · rw [List.getElem?_map, List.getElem?_range hk]
        simp only [Option.map_some, ppOut, ← hj, ← hu]

/-- Calls on an instance. -/
inductive PPOp where
  | filter (x : List ℝ)
  | rate (r : ℝ)
  | reset (x : ℝ)

noncomputable def PPOp.run (B : List (List ℝ)) (p : Polyphase) : PPOp → Polyphase
  | .filter x => (p.filter B x).2
  | .rate r => (p.setRate B.length r).2
  | .reset x => p.reset x

/-- C36.  Every history of calls on a new filter leads to a state to which C36_filter and C36_terminates apply. -/
theorem C36_reachable (rr cc : ℕ) (B B' : List (List ℝ)) (rate : ℝ) (p : Polyphase) (h : Polyphase.new rr cc B rate = (.ok p, B')) (hB : IsBank cc B')
    (ops : List PPOp) : PPReach cc (ops.foldl (PPOp.run B') p) := by
  have hp : PPReach cc p := by
    unfold Polyphase.new at h
    by_cases hr : rate < 0 ∨ rate > rr
    · simp [hr] at h
    · push Not at hr
      simp only [not_lt.mpr hr.1, not_lt.mpr hr.2, or_self, if_false] at h
      have : p = { index := 0, rate := rate, s := List.replicate cc 0 } := by
        split at h
        · split at h
          · simp at h
          · simp at h; exact h.1.symm
        · simp at h; exact h.1.symm
      rw [this]
      exact ⟨le_rfl, hr.1, by simp⟩
  clear h
  induction ops generalizing p with
  | nil => exact hp
  | cons o ops ih =>
    apply ih
    cases o with
    | filter x =>
      by_cases hx : x = []
      · simpa [PPOp.run, Polyphase.filter, hx] using hp
      · obtain ⟨y, p', m, h1, h2, -⟩ := C36_filter cc B' hB p hp x hx
        simp only [PPOp.run, h1]
        exact h2
    | rate r =>
      simp only [PPOp.run, Polyphase.setRate]
      split
      · exact hp
      · rename_i hr
        push Not at hr
        refine ⟨?_, hr.1, hp.2.2⟩
        simp only
        split
        · exact hp.1
        · exact le_rfl
    | reset x => exact ⟨hp.1, hp.2.1, by simpa [PPOp.run, Polyphase.reset] using hp.2.2⟩

/-- C36.  An empty signal is rejected, and so is a rate outside [0, rr]. -/
theorem C36_rejects (B : List (List ℝ)) (p : Polyphase) : p.filter B [] = (.error .valueError, p) := by simp [Polyphase.filter]

theorem C36_rate_rejects (rr cc : ℕ) (B : List (List ℝ)) (p : Polyphase) (rate : ℝ) (h : rate < 0 ∨ (rr : ℝ) < rate) :
    Polyphase.new rr cc B rate = (.error .valueError, B) ∧ p.setRate rr rate = (.error .valueError, p) := by
  constructor
  · unfold Polyphase.new; rw [if_pos h]
  · unfold Polyphase.setRate; rw [if_pos h]

/-- The bank of the right shape: moving averages of 15 samples. -/
noncomputable def averages : List (List ℝ) := List.replicate 256 (List.replicate 15 (1 / 15))

theorem averages_bank : IsBank 15 averages :=
  ⟨List.ne_nil_of_length_pos (by rw [averages, List.length_replicate]; norm_num), by norm_num,
    fun r hr => by rw [List.eq_of_mem_replicate hr, List.length_replicate]⟩

/-- A case of C36: a new filter at the rate 1/4 and five samples: one output. -/
example : ∃ y p', ({ index := 0, rate := 1 / 4, s := List.replicate 15 0 } : Polyphase).filter averages [1, 2, 3, 4, 5] = (.ok y, p') ∧ y.length = 1 := by
  obtain ⟨y, p', m, h1, -, -, h2, -, h3, -⟩ := C36_filter 15 averages averages_bank { index := 0, rate := 1 / 4, s := List.replicate 15 0 }
    ⟨le_rfl, by norm_num, by simp⟩ [1, 2, 3, 4, 5] (by simp)
  refine ⟨y, p', h1, ?_⟩
  have : IsRound ((([1, 2, 3, 4, 5] : List ℝ).length : ℝ) * (1 / 4)) 1 := by
    simp only [IsRound, List.length_cons, List.length_nil]; norm_num [abs_le]
  have h4 := IsRound.unique h2 this
  have := h3 rfl
  omega

/-- Every row of the constructed bank whose raw sum is not zero sums to one; there are `rr` rows of `cc` coefficients. -/
theorem C37_bank (rr cc : ℕ) (b : List ℝ) (hrr : 0 < rr) (hcc : 0 < cc) (hsum : ∀ i < rr, ∑ j ∈ range cc, at0 b (i + rr * j) ≠ 0) :
    IsBank cc (Polyphase.bank rr cc b) ∧ (Polyphase.bank rr cc b).length = rr ∧ (∀ r ∈ Polyphase.bank rr cc b, r.sum = 1) ∧
      ∀ i < rr, ∀ j < cc, ∃ row, (Polyphase.bank rr cc b)[i]? = some row ∧ at0 row j = at0 b (i + rr * j) / ∑ j ∈ range cc, at0 b (i + rr * j) := by
  have hrs : ∀ i, ((List.range cc).map fun j => b.getD (i + rr * j) 0).sum = ∑ j ∈ range cc, at0 b (i + rr * j) := by
    intro i
    rfl
  refine ⟨⟨?_, hcc, ?_⟩, by simp [Polyphase.bank, np.reshapeF], ?_, ?_⟩
  · intro h
    have := congrArg List.length h
    simp [Polyphase.bank, np.reshapeF] at this
    omega
  · intro r hr
    simp only [Polyphase.bank, np.reshapeF, List.mem_map, List.mem_range] at hr
    obtain ⟨a, ⟨i, -, rfl⟩, rfl⟩ := hr
    simp
  · intro r hr
    simp only [Polyphase.bank, np.reshapeF, List.mem_map, List.mem_range] at hr
    obtain ⟨a, ⟨i, hi, rfl⟩, rfl⟩ := hr
    rw [hrs, show (fun v : ℝ => v / ∑ j ∈ range cc, at0 b (i + rr * j)) = fun v => v * (∑ j ∈ range cc, at0 b (i + rr * j))⁻¹ from rfl,
      List.sum_map_mul_right, List.map_id'', hrs, mul_inv_cancel₀ (hsum i hi)]
    intro _; rfl
  · intro i hi j hj
    refine ⟨_, by simp only [Polyphase.bank, np.reshapeF, List.getElem?_map, List.getElem?_range hi, Option.map_some]; rfl, ?_⟩
    rw [hrs, at0_of_lt _ _ (by simpa using hj)]
    simp [at0]

/-- Two rows of two coefficients. -/
example := C37_bank 2 2 [1, 2, 3, 4] (by norm_num) (by norm_num) (by
  intro i hi
  match i, hi with
  | 0, _ => norm_num [sum_range_succ, at0]
  | 1, _ => norm_num [sum_range_succ, at0])

theorem weigh_const (cc : ℕ) (row x s : List ℝ) (c : ℝ) (hrow : row.length = cc) (hsum : row.sum = 1) (i : ℕ) (hi : i < x.length)
    (hx : ∀ v ∈ x, v = c) (hs : ∀ j < cc, 0 < j → at0 s j = c) : weigh row x s i = c := by
  have : ∀ j ∈ range row.length, at0 row j * pastSample x s i j = at0 row j * c := by
    intro j hj
    have hj := mem_range.mp hj
    congr 1
    unfold pastSample
    split
    · rw [at0_of_lt _ _ (by omega)]; exact hx _ (List.getElem_mem _)
    · exact hs _ (by omega) (by omega)
  rw [weigh, sum_congr rfl this, ← sum_mul]
  have : ∑ j ∈ range row.length, at0 row j = row.sum := by
    rw [Finset.sum_range]
    conv_rhs => rw [← List.ofFn_getElem (xs := row), List.sum_ofFn]
    apply sum_congr rfl
    intro j _
    rw [at0_of_lt _ _ j.2]
  rw [this, hsum, one_mul]

/-- C37, one call: with all past samples equal to `c`, the constant signal `c` gives the constant `c`, from every phase and for every rate; the past
samples stay equal to `c`. -/
theorem C37_constant (cc : ℕ) (B : List (List ℝ)) (hB : IsBank cc B) (hsum : ∀ r ∈ B, r.sum = 1) (p : Polyphase) (hp : PPReach cc p) (c : ℝ)
    (hs : ∀ j < cc, 0 < j → at0 p.s j = c) (n : ℕ) (hn : 0 < n) :
    ∃ y p', p.filter B (List.replicate n c) = (.ok y, p') ∧ (∀ v ∈ y, v = c) ∧ PPReach cc p' ∧ ∀ j < cc, 0 < j → at0 p'.s j = c := by
  have hne : List.replicate n c ≠ [] := by simp; omega
  obtain ⟨y, p', m, h1, h2, h3, h4, h5, h6, h7⟩ := C36_filter cc B hB p hp _ hne
  refine ⟨y, p', h1, ?_, h2, ?_⟩
  · intro v hv
    obtain ⟨k, hk, rfl⟩ := List.getElem_of_mem hv
    obtain ⟨i, m, row, g1, -, -, -, -, g2, g3⟩ := h7 k hk
    rw [List.getElem?_eq_getElem hk] at g3
    rw [Option.some.inj g3]
    have hmem := List.mem_of_getElem? g2
    exact weigh_const cc row _ _ c (hB.2.2 row hmem) (hsum row hmem) i g1 (fun v hv => List.eq_of_mem_replicate hv) hs
  · intro j hj hj0
    rcases eq_or_lt_of_le hp.2.1 with h0 | h0
    · -- rate zero: nothing happens
      have : p.filter B (List.replicate n c) = (.ok [], p) := by
        unfold Polyphase.filter
        rw [if_neg hne]
        have : pp.loop B p.rate ((List.replicate n c).length + (np.round ((List.replicate n c).length * p.rate)).toNat) (p.start (List.replicate n c)) =
            (.ok (), p.start (List.replicate n c)) := by
          rw [← h0, mul_zero, pp_round_zero]
          cases hl : (List.replicate n c).length with
          | zero => rfl
          | succ n => simp [pp.loop, pp.guard, Polyphase.start, ← h0, pp_round_zero]
        rw [this]; rfl
      rw [this] at h1
      cases h1
      exact hs j hj hj0
    · obtain ⟨p'', i, cn, g1, g2, g3, g4, g5, g6, g7, -⟩ := pp_filter_spec cc B hB p hp h0 _ hne
      rw [g1] at h1
      cases h1
      obtain ⟨g8, g9⟩ := g7
      have hl := h2.2.2
      have e : at0 p'.s j = at0 p'.s.tail (j - 1) := by
        obtain ⟨j, rfl⟩ : ∃ j', j = j' + 1 := ⟨j - 1, by omega⟩
        unfold at0
        rw [List.getD_eq_getElem?_getD, List.getD_eq_getElem?_getD, List.getElem?_tail, Nat.add_sub_cancel]
      rw [e, g9, at0_of_lt _ _ (by have := hp.2.2; simp; omega), List.getElem_take]
      by_cases hlt : j - 1 < (List.take i (List.replicate n c)).reverse.length
      · rw [List.getElem_append_left hlt, List.getElem_reverse, List.getElem_take, List.getElem_replicate]
      · rw [List.getElem_append_right (not_lt.mp hlt), List.getElem_tail]
        have := hs (j - 1 - (List.take i (List.replicate n c)).reverse.length + 1) (by omega) (by omega)
        rw [at0_of_lt _ _ (by have := hp.2.2; omega)] at this
        exact this

/-- Moving averages, and a state of sevens. -/
example := C37_constant 15 averages averages_bank (fun r hr => by rw [List.eq_of_mem_replicate hr, List.sum_replicate]; norm_num)
  { index := 3, rate := 1 / 4, s := List.replicate 15 7 } ⟨by norm_num, by norm_num, by simp⟩ 7 (fun j hj _ => by interval_cases j <;> rfl) 20 (by norm_num)

/-- What a history of calls returns: the outputs of the filter calls. -/
noncomputable def ppOutputs (B : List (List ℝ)) : Polyphase → List PPOp → List (Res (List ℝ))
  | _, [] => []
  | p, .filter x :: ops => (p.filter B x).1 :: ppOutputs B (p.filter B x).2 ops
  | p, o :: ops => ppOutputs B (PPOp.run B p o) ops

/-- C37.  After `reset(c)`, in every reachable state, filtering the constant `c` in any pieces with any changes of the rate in between returns `c`
at every sample. -/
theorem C37_history (cc : ℕ) (B : List (List ℝ)) (hB : IsBank cc B) (hsum : ∀ r ∈ B, r.sum = 1) (p : Polyphase) (hp : PPReach cc p) (c : ℝ)
    (ops : List PPOp) (hops : ∀ o ∈ ops, (∃ n, 0 < n ∧ o = .filter (List.replicate n c)) ∨ ∃ r, o = .rate r) :
    ∀ out ∈ ppOutputs B (p.reset c) ops, ∃ y, out = .ok y ∧ ∀ v ∈ y, v = c := by
  have hreset : PPReach cc (p.reset c) ∧ ∀ j < cc, 0 < j → at0 (p.reset c).s j = c := by
    refine ⟨⟨hp.1, hp.2.1, by simpa [Polyphase.reset] using hp.2.2⟩, fun j hj _ => ?_⟩
    rw [at0_of_lt _ _ (by simp [Polyphase.reset, hp.2.2]; omega)]
    simp [Polyphase.reset]
  generalize p.reset c = q at *
  clear hp p
  induction ops generalizing q with
  | nil => intro out h; simp [ppOutputs] at h
  | cons o ops ih =>
    intro out hout
    obtain ⟨hq, hs⟩ := hreset
    rcases hops o (List.mem_cons_self ..) with ⟨n, hn, rfl⟩ | ⟨r, rfl⟩
    · obtain ⟨y, p', h1, h2, h3, h4⟩ := C37_constant cc B hB hsum q hq c hs n hn
      simp only [ppOutputs, h1, List.mem_cons] at hout
      rcases hout with rfl | hout
      · exact ⟨y, rfl, h2⟩
      · exact ih (fun o ho => hops o (List.mem_cons_of_mem _ ho)) p' ⟨h3, h4⟩ out hout
    · simp only [ppOutputs] at hout
      refine ih (fun o ho => hops o (List.mem_cons_of_mem _ ho)) _ ?_ out hout
      simp only [PPOp.run, Polyphase.setRate]
      split
      · exact ⟨hq, hs⟩
      · rename_i hr
        push Not at hr
        refine ⟨⟨?_, hr.1, hq.2.2⟩, hs⟩
        simp only
        split
        · exact hq.1
        · exact le_rfl

example : IsBank 15 averages ∧ ∀ r ∈ averages, r.sum = 1 :=
  ⟨averages_bank, fun r hr => by rw [List.eq_of_mem_replicate hr, List.sum_replicate]; norm_num⟩

theorem pp_pos_zero (rr r : ℝ) (hrr : 0 < rr) (k : ℕ) : pp.pos rr r 0 k = ⌊(k : ℝ) / r⌋₊ := by
  unfold pp.pos
  congr 1
  rw [zero_add]
  field_simp

theorem pastSample_append_left (x z s : List ℝ) (i j : ℕ) (hi : i < x.length) : pastSample (x ++ z) s i j = pastSample x s i j := by
  unfold pastSample
  split
  · rw [at0_of_lt _ _ (by simp; omega), at0_of_lt _ _ (by omega), List.getElem_append_left (by omega)]
  · rfl

theorem pastSample_append_right (x z s s' : List ℝ) (i j : ℕ) (hi : i < z.length) (h : pp.Hist s x s') (hj : j < s.length) :
    pastSample (x ++ z) s (x.length + i) j = pastSample z s' i j := by
  unfold pastSample
  by_cases h1 : j ≤ i
  · rw [if_pos (by omega), if_pos h1, at0_of_lt _ _ (by simp; omega), at0_of_lt _ _ (by omega), List.getElem_append_right (by omega)]
    congr 1; omega
  · rw [if_neg h1]
    obtain ⟨g1, g2⟩ := h
    have e : at0 s' (j - i) = at0 s'.tail (j - i - 1) := by
      obtain ⟨m, hm⟩ : ∃ m, j - i = m + 1 := ⟨j - i - 1, by omega⟩
      unfold at0
      rw [List.getD_eq_getElem?_getD, List.getD_eq_getElem?_getD, List.getElem?_tail, hm, Nat.add_sub_cancel]
    rw [e, g2, at0_of_lt (List.take _ _) _ (by simp; omega), List.getElem_take]
    by_cases h2 : j ≤ x.length + i
    · rw [if_pos h2, List.getElem_append_left (by simp; omega), List.getElem_reverse, at0_of_lt _ _ (by simp; omega),
        List.getElem_append_left (by omega)]
      congr 1; omega
    · rw [if_neg h2, List.getElem_append_right (by simp; omega), List.getElem_tail, at0_of_lt _ _ (by omega)]
      congr 1; simp; omega

theorem pp_rowAt_length (cc : ℕ) (B : List (List ℝ)) (hB : IsBank cc B) (u : ℝ) (hu : 0 ≤ u) : (pp.rowAt B u).length = cc :=
  hB.2.2 _ (pp.row_ok B hB.1 u hu).2

/-- A chunk whose count of outputs is rounded up is consumed to the end, from any phase. -/
theorem pp_consumed (cc : ℕ) (B : List (List ℝ)) (hB : IsBank cc B) (p : Polyphase) (hp : PPReach cc p) (hr : 0 < p.rate) (x : List ℝ) (hx : x ≠ [])
    (hm : (x.length : ℝ) * p.rate ≤ (np.round (x.length * p.rate) : ℝ)) :
    ∃ p' c, p.filter B x = (.ok ((List.range c).map (ppOut B p x)), p') ∧ p'.index = p.index + c * (B.length / p.rate) - B.length * x.length ∧ 0 ≤ p'.index ∧
      p'.rate = p.rate ∧ pp.Hist p.s x p'.s ∧ ∀ k < c, p.index + (k : ℝ) * (B.length / p.rate) < B.length * x.length := by
  have hpos : (0 : ℝ) < B.length := by exact_mod_cast List.length_pos_of_ne_nil hB.1
  have hL : (0 : ℝ) < x.length := by exact_mod_cast List.length_pos_of_ne_nil hx
  obtain ⟨p', i, c, g1, g2, g3, g4, g5, g6, g7, g8, g9, g10, g11, -⟩ := pp_filter_spec cc B hB p hp hr x hx
  set n := (np.round (x.length * p.rate)).toNat with hn
  have hn0 : (x.length : ℝ) * p.rate ≤ n := by
    have : ((np.round (x.length * p.rate) : ℤ) : ℝ) ≤ n := by rw [hn]; exact_mod_cast Int.self_le_toNat _
    linarith
  have hi : i = x.length := by
    by_cases hc : c < n
    · exact g8 hc
    · have hcn : c = n := by omega
      rcases g10 with h | h | h
      · rw [h] at hn0
        have : 0 < (x.length : ℝ) * p.rate := by positivity
        simp at hn0; linarith
      · exact h
      · rw [g4, hcn] at h
        have h1 : (x.length : ℝ) ≤ n / p.rate := by rw [le_div_iff₀ hr]; exact hn0
        have h2 : (n : ℝ) * (B.length / p.rate) = B.length * (n / p.rate) := by ring
        have h3 : (B.length : ℝ) * x.length ≤ B.length * (n / p.rate) := mul_le_mul_of_nonneg_left h1 hpos.le
        have h4 := hp.1
        have h5 : (B.length : ℝ) * ((x.length : ℝ) - i) < B.length * 1 := by rw [h2] at h; nlinarith
        have h6 := lt_of_mul_lt_mul_left h5 hpos.le
        have h7 : (x.length : ℝ) < i + 1 := by linarith
        have h8 : x.length < i + 1 := by exact_mod_cast h7
        omega
  subst hi
  rw [List.take_length] at g7
  exact ⟨p', c, g1, g4, g6, g5, g7, g9⟩

theorem pp_phase' (rr r φ : ℝ) (hrr : 0 < rr) (hr : 0 < r) (hφ : 0 ≤ φ) (k : ℕ) : 0 ≤ φ + (k : ℝ) * (rr / r) - rr * (pp.pos rr r φ k : ℝ) := by
  have h := Nat.floor_le (show 0 ≤ (φ + (k : ℝ) * (rr / r)) / rr by positivity)
  have h' := mul_le_mul_of_nonneg_left h hrr.le
  rw [mul_div_cancel₀ _ hrr.ne'] at h'
  unfold pp.pos
  linarith

/-- Chunks which are all consumed to the end: the outputs are those of the whole signal whose positions lie before its end. -/
theorem pp_chunks (cc : ℕ) (B : List (List ℝ)) (hB : IsBank cc B) : ∀ (chunks : List (List ℝ)) (p : Polyphase), PPReach cc p → 0 < p.rate →
    (∀ x ∈ chunks, x ≠ [] ∧ (x.length : ℝ) * p.rate ≤ (np.round (x.length * p.rate) : ℝ)) →
    ∃ (c : ℕ) (p1 : Polyphase), callChunks (Polyphase.filter B) p chunks = (.ok ((List.range c).map (ppOut B p chunks.flatten)), p1) ∧
      p1.index = p.index + c * (B.length / p.rate) - B.length * chunks.flatten.length ∧ 0 ≤ p1.index ∧ p1.rate = p.rate ∧ pp.Hist p.s chunks.flatten p1.s ∧
      ∀ k < c, p.index + (k : ℝ) * (B.length / p.rate) < B.length * chunks.flatten.length := by
  have hpos : (0 : ℝ) < B.length := by exact_mod_cast List.length_pos_of_ne_nil hB.1
  intro chunks
  induction chunks with
  | nil =>
    intro p hp hr _
    refine ⟨0, p, rfl, by simp, hp.1, rfl, ⟨rfl, ?_⟩, by simp⟩
    simp only [List.flatten_nil, List.reverse_nil, List.nil_append]
    rw [List.take_of_length_le]; simp
  | cons x xs ih =>
    intro p hp hr h
    obtain ⟨hx, hm⟩ := h x (List.mem_cons_self ..)
    obtain ⟨p', m, g1, g2, g0, g3, g4, g5⟩ := pp_consumed cc B hB p hp hr x hx hm
    have hp' : PPReach cc p' := ⟨g0, by rw [g3]; exact hp.2.1, by rw [g4.1, hp.2.2]⟩
    have hr' : 0 < p'.rate := by rw [g3]; exact hr
    obtain ⟨m', p1, k1, k2, k0, k3, k4, k5⟩ := ih p' hp' hr' (fun z hz => by rw [g3]; exact h z (List.mem_cons_of_mem _ hz))
    refine ⟨m + m', p1, ?_, ?_, k0, by rw [k3, g3], ?_, ?_⟩
    · simp only [callChunks, g1, k1]
      rw [List.range_add, List.map_append, List.map_map]
      simp only [Prod.mk.injEq, Except.ok.injEq, and_true]
      congr 1
      · apply List.map_congr_left
        intro k hk
        have hk := List.mem_range.mp hk
        have hlt : pp.pos B.length p.rate p.index k < x.length := by
          have h1 := hp.1
          unfold pp.pos
          rw [Nat.floor_lt (by positivity), div_lt_iff₀ hpos, mul_comm (x.length : ℝ)]
          exact g5 k hk
        unfold ppOut weigh
        apply sum_congr rfl
        intro j _
        rw [List.flatten_cons, pastSample_append_left _ _ _ _ _ hlt]
      · apply List.map_congr_left
        intro k hk
        have hk := List.mem_range.mp hk
        have hsum : p.index + ((m + k : ℕ) : ℝ) * (B.length / p.rate) = B.length * x.length + (p'.index + (k : ℝ) * (B.length / p'.rate)) := by
          rw [g2, g3]; push_cast; ring
        have hposk : pp.pos B.length p.rate p.index (m + k) = x.length + pp.pos B.length p'.rate p'.index k := by
          unfold pp.pos
          rw [hsum, add_div, mul_div_cancel_left₀ _ hpos.ne', add_comm (x.length : ℝ), Nat.floor_add_natCast (by positivity), add_comm]
        have hphase : p.index + ((m + k : ℕ) : ℝ) * (B.length / p.rate) - B.length * (pp.pos B.length p.rate p.index (m + k) : ℝ) =
            p'.index + (k : ℝ) * (B.length / p'.rate) - B.length * (pp.pos B.length p'.rate p'.index k : ℝ) := by
          rw [hposk, hsum]; push_cast; ring
        have hlt : pp.pos B.length p'.rate p'.index k < xs.flatten.length := by
          unfold pp.pos
          rw [Nat.floor_lt (by positivity), div_lt_iff₀ hpos, mul_comm (xs.flatten.length : ℝ)]
          exact k5 k hk
        simp only [Function.comp]
        unfold ppOut
        rw [hphase, hposk]
        unfold weigh
        apply sum_congr rfl
        intro j hj
        have hj := mem_range.mp hj
        rw [pp_rowAt_length cc B hB _ (pp_phase' _ _ _ hpos hr' g0 k)] at hj
        rw [List.flatten_cons, pastSample_append_right x xs.flatten p.s p'.s _ j hlt g4 (by rw [hp.2.2]; exact hj)]
    · rw [List.flatten_cons, List.length_append, k2, g2, g3]; push_cast; ring
    · obtain ⟨a1, a2⟩ := g4
      obtain ⟨b1, b2⟩ := k4
      refine ⟨by rw [b1, a1], ?_⟩
      rw [b2, a2, a1, List.flatten_cons, List.reverse_append, List.append_assoc]
      apply List.ext_getElem
      · simp; omega
      · intro n q1 q2
        rw [List.getElem_take, List.getElem_take]
        by_cases hn : n < xs.flatten.reverse.length
        · rw [List.getElem_append_left hn, List.getElem_append_left hn]
        · rw [List.getElem_append_right (not_lt.mp hn), List.getElem_append_right (not_lt.mp hn), List.getElem_take]
    · intro k hk
      rw [List.flatten_cons, List.length_append]; push_cast
      by_cases hkm : k < m
      · have h1 := g5 k hkm
        have h2 : (0 : ℝ) ≤ B.length * xs.flatten.length := by positivity
        rw [mul_add]; linarith
      · obtain ⟨j, rfl⟩ := Nat.exists_eq_add_of_le (not_lt.mp hkm)
        have h1 := k5 j (by omega)
        rw [g2, g3] at h1
        push_cast
        rw [mul_add]; linarith

/-- C38, where it holds.  The full statement is: filtering in chunks gives the same output as one call, for every chunking.  It is proved, from any state that
calls can lead to, for all chunkings in which the count of outputs of every chunk, its length times the rate, is not rounded down: any two of them, one of a single chunk
for instance, give the same output and the same later behaviour; the outputs are those whose positions on the signal lie before its end.  It is false in general
(C38_violation): the code drops the samples at the end of a chunk that follow the last output (C38_consumed), so what is missing can not be proved. -/
theorem C38_chunks_partial (cc : ℕ) (B : List (List ℝ)) (hB : IsBank cc B) (p : Polyphase) (hp : PPReach cc p) (hr : 0 < p.rate) (chunks chunks' : List (List ℝ))
    (he : chunks.flatten = chunks'.flatten)
    (h : ∀ x ∈ chunks ++ chunks', x ≠ [] ∧ ∃ m : ℤ, IsRound (x.length * p.rate) m ∧ (x.length : ℝ) * p.rate ≤ m) :
    ∃ y p1 p2, callChunks (Polyphase.filter B) p chunks = (.ok y, p1) ∧ callChunks (Polyphase.filter B) p chunks' = (.ok y, p2) ∧
      p1.index = p2.index ∧ p1.rate = p2.rate ∧ p1.s.tail = p2.s.tail ∧
      ∀ k, k < y.length ↔ p.index / B.length + k / p.rate < chunks.flatten.length := by
  have hpos : (0 : ℝ) < B.length := by exact_mod_cast List.length_pos_of_ne_nil hB.1
  have hup : ∀ x ∈ chunks ++ chunks', x ≠ [] ∧ (x.length : ℝ) * p.rate ≤ (np.round (x.length * p.rate) : ℝ) := by
    intro x hx
    obtain ⟨h1, m, h2, h3⟩ := h x hx
    exact ⟨h1, by rw [← Verif.IsRound.unique h2 (np.round_spec _)]; exact h3⟩
  obtain ⟨c, p1, k1, k2, k0, k3, k4, k5⟩ := pp_chunks cc B hB chunks p hp hr (fun x hx => hup x (List.mem_append_left _ hx))
  obtain ⟨c', p2, j1, j2, j0, j3, j4, j5⟩ := pp_chunks cc B hB chunks' p hp hr (fun x hx => hup x (List.mem_append_right _ hx))
  have hstep : (0 : ℝ) < B.length / p.rate := by positivity
  have hc : c = c' := by
    rw [← he] at j2 j5
    rcases lt_trichotomy c c' with hlt | heq | hlt
    · have := j5 c hlt; linarith
    · exact heq
    · have := k5 c' hlt; linarith
  subst hc
  refine ⟨_, p1, p2, k1, by rw [j1, he], by rw [k2, j2, he], by rw [k3, j3], by rw [k4.2, j4.2, he], ?_⟩
  intro k
  have hiff : p.index / B.length + k / p.rate < chunks.flatten.length ↔ p.index + (k : ℝ) * (B.length / p.rate) < B.length * chunks.flatten.length := by
    rw [← mul_lt_mul_iff_right₀ hpos, show (B.length : ℝ) * (p.index / B.length + k / p.rate) = p.index + k * (B.length / p.rate) by field_simp]
  rw [hiff]
  simp only [List.length_map, List.length_range]
  refine ⟨k5 k, fun hk => ?_⟩
  by_contra hge
  have hge' : (c : ℝ) ≤ k := by exact_mod_cast not_lt.mp hge
  have := mul_le_mul_of_nonneg_right hge' hstep.le
  linarith

/-- A case of C38_chunks_partial: chunks of 7 and 8 samples at the rate 1/4 (7/4 is rounded to 2), and all 15 at once (15/4 is rounded to 4). -/
example : ∀ x ∈ [List.replicate 7 (1 : ℝ), List.replicate 8 2] ++ [List.replicate 7 1 ++ List.replicate 8 2],
    x ≠ [] ∧ ∃ m : ℤ, IsRound (x.length * (1 / 4)) m ∧ (x.length : ℝ) * (1 / 4) ≤ m := by
  intro x hx
  simp only [List.cons_append, List.nil_append, List.mem_cons, List.not_mem_nil, or_false] at hx
  rcases hx with rfl | rfl | rfl
  · exact ⟨by simp, 2, by norm_num [IsRound, abs_le, abs_div], by norm_num⟩
  · exact ⟨by simp, 2, by norm_num [IsRound], by norm_num⟩
  · exact ⟨by simp, 4, by norm_num [IsRound, abs_le, abs_div], by norm_num⟩

/-- C38, what is dropped.  With `n` the count of outputs asked for, `filter` consumes the first `i` samples, where `i` is the whole part of the position after `n` outputs, at most the
length; nothing if `n = 0`.  The samples from `i` on leave no trace in the state, and there are fewer than `1 / (2 rate) + 1` of them. -/
theorem C38_consumed (cc : ℕ) (B : List (List ℝ)) (hB : IsBank cc B) (p : Polyphase) (hp : PPReach cc p) (hr : 0 < p.rate) (x : List ℝ) (hx : x ≠ []) (n : ℕ)
    (hn : IsRound (x.length * p.rate) n) :
    ∃ y p' i, p.filter B x = (.ok y, p') ∧ i = (if n = 0 then 0 else min x.length ⌊p.index / B.length + n / p.rate⌋₊) ∧
      p'.index = p.index + y.length * (B.length / p.rate) - B.length * i ∧ p'.s.tail = ((x.take i).reverse ++ p.s.tail).take (cc - 1) ∧
      ((x.length : ℝ) - i < 1 / (2 * p.rate) + 1) ∧
      ∀ z : List ℝ, z.length = x.length → z.take i = x.take i → ∃ y2 p2, p.filter B z = (.ok y2, p2) ∧ p2.index = p'.index ∧ p2.rate = p'.rate ∧ p2.s.tail = p'.s.tail := by
  have hpos : (0 : ℝ) < B.length := by exact_mod_cast List.length_pos_of_ne_nil hB.1
  have hstep : (0 : ℝ) < B.length / p.rate := by positivity
  have key : ∀ z : List ℝ, z.length = x.length → ∃ p' c, p.filter B z = (.ok ((List.range c).map (ppOut B p z)), p') ∧
      p'.index = p.index + c * (B.length / p.rate) - B.length * ((if n = 0 then 0 else min x.length ⌊p.index / B.length + n / p.rate⌋₊ : ℕ) : ℝ) ∧ p'.rate = p.rate ∧
      p'.s.tail = ((z.take (if n = 0 then 0 else min x.length ⌊p.index / B.length + n / p.rate⌋₊)).reverse ++ p.s.tail).take (cc - 1) ∧
      (∀ k < c, p.index + (k : ℝ) * (B.length / p.rate) < B.length * x.length) ∧ c ≤ n ∧ (c < n → (B.length : ℝ) * x.length ≤ p.index + c * (B.length / p.rate)) := by
    intro z hz
    have hz0 : z ≠ [] := by intro e; rw [e] at hz; exact hx (List.length_eq_zero_iff.mp hz.symm)
    obtain ⟨p', i, c, g1, g2, g3, g4, g5, g6, g7, g8, g9, g10, g11, -⟩ := pp_filter_spec cc B hB p hp hr z hz0
    rw [hz] at g2 g3 g8 g9 g10 g11
    rw [← Verif.IsRound.unique hn (np.round_spec _), Int.toNat_natCast] at g3 g8 g10 g11
    have hmul : (B.length : ℝ) * (p.index / B.length + n / p.rate) = p.index + n * (B.length / p.rate) := by field_simp
    have h0 := hp.1
    have hi : i = if n = 0 then 0 else min x.length ⌊p.index / B.length + n / p.rate⌋₊ := by
      split_ifs with hn0
      · exact g11 hn0
      · have hlow : i ≤ ⌊p.index / B.length + (n : ℝ) / p.rate⌋₊ := by
          apply Nat.le_floor
          rw [← mul_le_mul_iff_right₀ hpos, hmul]
          have : (c : ℝ) * (B.length / p.rate) ≤ n * (B.length / p.rate) := mul_le_mul_of_nonneg_right (by exact_mod_cast g3) hstep.le
          linarith
        rcases Nat.eq_or_lt_of_le g2 with h | h
        · rw [min_eq_left]; exact h; omega
        · have hcn : c = n := by
            by_contra hne
            have := g8 (by omega); omega
          rcases g10 with h' | h' | h'
          · omega
          · omega
          · have : ⌊p.index / B.length + (n : ℝ) / p.rate⌋₊ < i + 1 := by
              rw [Nat.floor_lt (by positivity), ← mul_lt_mul_iff_right₀ hpos, hmul]
              rw [g4, hcn] at h'
              push_cast; linarith
            rw [min_eq_right (by omega)]; omega
    refine ⟨p', c, g1, by rw [g4, hi], g5, by rw [g7.2, hp.2.2, hi], g9, g3, ?_⟩
    intro hc
    have := g8 hc
    rw [g4, this] at g6
    linarith
  obtain ⟨p', c, k1, k2, k3, k4, k5, k6, k7⟩ := key x rfl
  refine ⟨_, p', _, k1, rfl, by rw [k2]; simp, k4, ?_, ?_⟩
  · have h1 := (abs_le.mp hn.1).2
    push_cast at h1
    have h2 : (x.length : ℝ) ≤ n / p.rate + 1 / (2 * p.rate) := by
      rw [← mul_le_mul_iff_left₀ hr]
      have : (n / p.rate + 1 / (2 * p.rate)) * p.rate = n + 1 / 2 := by field_simp
      rw [this]; linarith
    have h3 : (0 : ℝ) < 1 / (2 * p.rate) := by positivity
    split_ifs with hn0
    · rw [hn0] at h2; simp at h2 ⊢; linarith
    · rcases le_total x.length ⌊p.index / B.length + (n : ℝ) / p.rate⌋₊ with h | h
      · rw [min_eq_left h]; linarith
      · rw [min_eq_right h]
        have h4 := Nat.lt_floor_add_one (p.index / B.length + (n : ℝ) / p.rate)
        have h5 : 0 ≤ p.index / B.length := div_nonneg hp.1 hpos.le
        linarith
  · intro z hz ht
    obtain ⟨p2, c2, j1, j2, j3, j4, j5, j6, j7⟩ := key z hz
    have hc : c = c2 := by
      rcases lt_trichotomy c c2 with hlt | heq | hlt
      · have := j5 c hlt; have := k7 (by omega); linarith
      · exact heq
      · have := k5 c2 hlt; have := j7 (by omega); linarith
    exact ⟨_, p2, j1, by rw [j2, k2, hc], by rw [j3, k3], by rw [j4, k4, ht]⟩

/-- Five samples at the rate 1/4: one output is asked for and four samples are consumed. -/
example : IsRound (([1, 2, 3, 4, 5] : List ℝ).length * (1 / 4)) (1 : ℕ) ∧ min 5 ⌊(0 : ℝ) / 256 + (1 : ℕ) / (1 / 4)⌋₊ = 4 := by
  refine ⟨by norm_num [IsRound, abs_le, abs_div], ?_⟩
  norm_num

/-- C38 is violated: at the rate 1/4 the last of five samples is dropped, whatever the bank: neither the output nor the new state depends on it. -/
theorem C38_drops_sample (cc : ℕ) (B : List (List ℝ)) (hB : IsBank cc B) (p : Polyphase) (hp : PPReach cc p) (h0 : p.index = 0) (hr : p.rate = 1 / 4)
    (a b c d e e' : ℝ) : ∃ y p1 p2, p.filter B [a, b, c, d, e] = (.ok y, p1) ∧ p.filter B [a, b, c, d, e'] = (.ok y, p2) ∧
      p1.index = p2.index ∧ p1.rate = p2.rate ∧ p1.s.tail = p2.s.tail := by
  have hpos : (0 : ℝ) < B.length := by exact_mod_cast List.length_pos_of_ne_nil hB.1
  have key : ∀ e, ∃ p1, p.filter B [a, b, c, d, e] = (.ok [ppOut B p [a, b, c, d, e] 0], p1) ∧ p1.index = 0 ∧ p1.rate = p.rate ∧
      pp.Hist p.s [a, b, c, d] p1.s := by
    intro e
    obtain ⟨p', i, n, g1, g2, g3, g4, g5, g6, g7, g8, g9, g10, g11, -⟩ := pp_filter_spec cc B hB p hp (by rw [hr]; norm_num) [a, b, c, d, e] (by simp)
    have hround : np.round (([a, b, c, d, e] : List ℝ).length * p.rate) = 1 := by
      have : IsRound ((([a, b, c, d, e] : List ℝ).length : ℝ) * p.rate) 1 := by
        rw [hr]; simp only [IsRound, List.length_cons, List.length_nil]; norm_num [abs_le]
      exact IsRound.unique (np.round_spec _) this
    rw [hround] at g3 g8 g10
    simp only [Int.toNat_one] at g3 g8 g10
    rw [h0, hr] at g4
    have g4' : p'.index = B.length * (n * 4 - i) := by rw [g4]; ring
    simp only [List.length_cons, List.length_nil, Nat.zero_add, Nat.reduceAdd] at g2 g8 g10
    have hn : n = 1 := by
      by_contra hne
      have hn0 : n = 0 := by omega
      have hi := g8 (by omega)
      rw [g4', hn0, hi] at g6
      push_cast at g6
      nlinarith
    subst hn
    have hi : i = 4 := by
      have h1 : 0 ≤ (1 : ℝ) * 4 - i := by
        rw [g4'] at g6
        push_cast at g6
        exact nonneg_of_mul_nonneg_right g6 hpos
      have h2 : (i : ℝ) ≤ 4 := by linarith
      have h3 : i ≤ 4 := by exact_mod_cast h2
      rcases g10 with h | h | h
      · omega
      · omega
      · rw [g4'] at h
        push_cast at h
        have h4 : (1 : ℝ) * 4 - i < 1 := by
          have : (B.length : ℝ) * (1 * 4 - i) < B.length * 1 := by linarith
          exact lt_of_mul_lt_mul_left this hpos.le
        have h5 : (3 : ℝ) < i := by linarith
        have : 3 < i := by exact_mod_cast h5
        omega
    subst hi
    refine ⟨p', g1, by rw [g4']; norm_num, g5, g7⟩
  obtain ⟨p1, a1, a2, a3, a4⟩ := key e
  obtain ⟨p2, b1, b2, b3, b4⟩ := key e'
  refine ⟨_, p1, p2, a1, ?_, by rw [a2, b2], by rw [a3, b3], by rw [a4.2, b4.2]⟩
  rw [b1]
  simp only [Prod.mk.injEq, Except.ok.injEq, and_true]
  congr 1
  have hpz : pp.pos B.length p.rate p.index 0 = 0 := by rw [h0, pp_pos_zero _ _ hpos]; simp
  unfold ppOut
  rw [hpz]
  unfold weigh
  apply sum_congr rfl
  intro j _
  congr 1
  unfold pastSample
  split
  · simp [at0]
  · rfl

/-- Moving averages. -/
example := C38_drops_sample 15 averages averages_bank { index := 0, rate := 1 / 4, s := List.replicate 15 0 } ⟨by norm_num, by norm_num, by simp⟩ rfl rfl 1 2 3 4 5 6

/-- C38 is violated: ten samples at the rate 1/4, in one call and in two calls of five; the bank averages 15 samples. -/
theorem C38_violation : ∃ (x1 x2 y y' : List ℝ) (p1 p2 : Polyphase),
    let p : Polyphase := { index := 0, rate := 1 / 4, s := List.replicate 15 0 }
    callChunks (Polyphase.filter averages) p [x1, x2] = (.ok y, p1) ∧ p.filter averages (x1 ++ x2) = (.ok y', p2) ∧ y ≠ y' := by
  have hlen : (averages.length : ℝ) = 256 := by rw [averages, List.length_replicate]; norm_num
  set p : Polyphase := { index := 0, rate := 1 / 4, s := List.replicate 15 0 } with hp
  have hreach : PPReach 15 p := ⟨le_rfl, by norm_num [hp], by simp [hp]⟩
  have hrow : ∀ r ∈ averages, r = List.replicate 15 (1 / 15) := fun r hr => List.eq_of_mem_replicate hr
  -- the call on all ten samples
  obtain ⟨y', p2, m, h1, -, -, h2, h3, h4, h5⟩ := C36_filter 15 averages averages_bank p hreach [0, 0, 0, 0, 1, 0, 0, 0, 0, 0] (by simp)
  have hm : m = 2 := by
    refine IsRound.unique h2 ?_
    refine ⟨?_, fun _ => by decide⟩
    simp only [hp, List.length_cons, List.length_nil]; norm_num [abs_le]
  have hl' : y'.length = 2 := by have := h4 rfl; omega
  -- the calls on five samples
  obtain ⟨z1, q1, m1, a1, a2, a3, a4, a5, a6, a7⟩ := C36_filter 15 averages averages_bank p hreach [0, 0, 0, 0, 1] (by simp)
  obtain ⟨w, q1', q0, d1, d2, d3, d4, d5⟩ := C38_drops_sample 15 averages averages_bank p hreach rfl rfl 0 0 0 0 1 0
  rw [a1] at d1
  cases d1
  -- all samples are zero without the dropped one
  have hbank : ∀ r ∈ averages, r.sum = 1 := fun r hr => by rw [hrow r hr, List.sum_replicate]; norm_num
  obtain ⟨v, r0, e1, e2, e3, e4⟩ := C37_constant 15 averages averages_bank hbank p hreach 0 (by
    intro j hj _; rw [at0_of_lt _ _ (by simp [hp]; omega)]; exact List.getElem_replicate _) 5 (by norm_num)
  have hrep : List.replicate 5 (0 : ℝ) = [0, 0, 0, 0, 0] := rfl
  rw [hrep, d2] at e1
  cases e1
  have hq1 : ∀ j < 15, 0 < j → at0 q1.s j = 0 := by
    intro j hj hj0
    have := e4 j hj hj0
    obtain ⟨j, rfl⟩ : ∃ j', j = j' + 1 := ⟨j - 1, by omega⟩
    unfold at0 at this ⊢
    rw [List.getD_eq_getElem?_getD, ← List.getElem?_tail] at this ⊢
    rw [d5]; exact this
  obtain ⟨v2, r1, f1, f2, -, -⟩ := C37_constant 15 averages averages_bank hbank q1 a2 0 hq1 5 (by norm_num)
  rw [hrep] at f1
  refine ⟨[0, 0, 0, 0, 1], [0, 0, 0, 0, 0], z1 ++ v2, y', r1, p2, ?_, h1, ?_⟩
  · simp only [callChunks, a1, f1, List.append_nil]
  · intro hy
    have hz : ∀ u ∈ y', u = 0 := by
      rw [← hy]
      intro u hu
      rcases List.mem_append.mp hu with h | h
      · exact e2 u h
      · exact f2 u h
    obtain ⟨i, m', row, b1, b2, b3, b4, b5, b6, b7⟩ := h5 1 (by omega)
    have hi : i = 4 := by
      simp only [hp, hlen] at b2 b3
      norm_num at b2 b3
      have c1 : i ≤ 4 := by exact_mod_cast b2
      have c2 : (3 : ℝ) < i := by linarith
      have c3 : 3 < i := by exact_mod_cast c2
      omega
    have hrow' := hrow row (List.mem_of_getElem? b6)
    have := hz _ (List.mem_of_getElem? b7)
    rw [hi, hrow'] at this
    simp [weigh, pastSample, sum_range_succ, at0, hp] at this

/-- The hypotheses of `C36_terminates` hold for a filter which was constructed. -/
example : IsBank 15 averages ∧ PPReach 15 ({ index := 0, rate := 1 / 4, s := List.replicate 15 0 } : Polyphase) := ⟨averages_bank, by norm_num, by norm_num, by simp⟩

end Verif.Props
