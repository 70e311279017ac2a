import Verif.Lemmas.Rank
import Verif.Lemmas.Morphology
import Mathlib.Algebra.Order.Ring.Rat

/-
Properties C16–C19 of RankFilter (diamondback/filters/rank_filter.py).
-/

namespace Verif.Props

open Spec

variable {R K : Type*}

/-- The samples an order-`order` rank filter looks at for output `n`: current and previous samples, and the state
before the signal (the first state entry is overwritten by the current sample). -/
def lookback [Zero R] (order : ℕ) (s x : List R) (n : ℕ) : List R :=
  (List.range (order + 1)).map (fun i => if i ≤ n then at0 x (n - i) else at0 s (i - n))

theorem window_eq_lookback [Zero R] (order : ℕ) (s x : List R) (n : ℕ) (hs : s.length = order + 1)
    (hn : n < x.length) : Rank.window s x n = lookback order s x n := by
  have hl : (x.take (n+1)).length = n + 1 := by simp; omega
  have hlw : (Rank.window s x n).length = order + 1 := by
    simp [Rank.window, hs]; omega
  apply List.ext_getElem (by simp [hlw, lookback])
  intro i h1 h2
  have hi : i < order + 1 := by rw [hlw] at h1; exact h1
  rw [← at0_of_lt _ _ h1]
  simp only [lookback, List.getElem_map, List.getElem_range]
  rw [Rank.window, at0_window x s.tail n i _ hn (by omega)]
  by_cases h : i ≤ n
  · simp [h, not_lt.mpr h]
  · simp only [h, if_false, not_le.mp h, if_true]
    rcases s with _ | ⟨s0, t⟩
    · simp at hs
    · rw [List.tail_cons, show i - n = (i - n - 1) + 1 by omega, at0_cons_succ]
      simp

/-- C16.  For every accepted `RankFilter(index, order)`, every state of the right length and every signal, each output
is an element of the window whose magnitude has exactly rank `index`.  `argsort` is any function that sorts. -/
theorem C16_rank_order_statistic [LinearOrder K] [Zero R] (argsort : List K → List ℕ) (ha : IsArgsort argsort)
    (key : R → K) (index order : ℕ) (hio : index ≤ order) (s : List R) (hs : s.length = order + 1) (x : List R)
    (hx : x ≠ []) :
    ∃ f : Rank R, Rank.new index order = .ok f ∧
      ∃ y f', Rank.filter argsort key { f with s := s } x = (.ok y, f') ∧ y.length = x.length ∧
        ∀ n, n < x.length → ∃ v, y[n]? = some v ∧ IsRank key (lookback order s x n) index v := by
  have hnew : Rank.new (R := R) index order = .ok ⟨List.replicate (order + 1) 0, index⟩ := by
    unfold Rank.new
    have : ¬ ((index : ℤ) < 0 ∨ (index : ℤ) > order) := by omega
    simp only [this, if_false]
    congr 2
  refine ⟨_, hnew, ?_⟩
  obtain ⟨ys, f', e1, e2, e3, e4, e5, e6, e7⟩ := Rank.runLoop_spec argsort ha key x ⟨s, index⟩ (by simp) (by simp; omega)
  have hl : x.length ≠ 0 := by simpa using hx
  refine ⟨ys, f', by simpa [Rank.filter, hl] using e1, e4, fun n hn => ?_⟩
  obtain ⟨v, h1, h2⟩ := e7 n hn
  rw [window_eq_lookback order s x n hs hn] at h2
  exact ⟨v, h1, by simpa using h2⟩

/-- The median of three, with a state. -/
example := C16_rank_order_statistic argsortRef argsortRef_isArgsort (fun v : ℤ => |v|) 1 2 (by decide) [0, 3, -5] rfl [5, -1, 3, 4] (by simp)

/-- Rank 0 is a minimum, rank `length - 1` is a maximum of the window. -/
theorem C16_rank_extremes [LinearOrder K] (key : R → K) (w : List R) (y : R) :
    (IsRank key w 0 y ↔ y ∈ w ∧ ∀ v ∈ w, key y ≤ key v) ∧
    (IsRank key w (w.length - 1) y ↔ y ∈ w ∧ ∀ v ∈ w, key v ≤ key y) := by
  constructor
  · constructor
    · rintro ⟨h1, h2, _⟩
      refine ⟨h1, fun v hv => ?_⟩
      have := List.countP_eq_zero.mp (Nat.le_zero.mp h2) v hv
      simpa using this
    · rintro ⟨h1, h2⟩
      refine ⟨h1, ?_, ?_⟩
      · rw [Nat.le_zero, List.countP_eq_zero]
        intro v hv; simpa using h2 v hv
      · exact List.countP_pos_iff.mpr ⟨y, h1, by simp⟩
  · constructor
    · rintro ⟨h1, _, h3⟩
      refine ⟨h1, fun v hv => ?_⟩
      have hp : 0 < w.length := List.length_pos_of_mem h1
      have hle := List.countP_le_length (l := w) (p := fun w => decide (key w ≤ key y))
      have := List.countP_eq_length.mp (le_antisymm hle (by omega)) v hv
      simpa using this
    · rintro ⟨h1, h2⟩
      have hp : 0 < w.length := List.length_pos_of_mem h1
      refine ⟨h1, ?_, ?_⟩
      · have hlt : w.countP (fun v => decide (key v < key y)) < w.length := by
          refine lt_of_le_of_ne List.countP_le_length ?_
          intro h
          have := List.countP_eq_length.mp h y h1
          simp at this
        omega
      · have : w.countP (fun v => decide (key v ≤ key y)) = w.length := by
          rw [List.countP_eq_length]; intro v hv; simpa using h2 v hv
        omega

/-- Concrete case of C16: median of three. -/
example : ∃ f : Rank ℤ, Rank.new 1 2 = .ok f ∧ (f.filter argsortRef (fun v => |v|) [5, -1, 3, 4]).1 = .ok [0, -1, 3, 3] := by
  refine ⟨_, rfl, ?_⟩
  decide +kernel

/-- C17.  Chunk boundaries are invisible, for any argsort whatsoever and any instance. -/
theorem C17_rank_streaming (argsort : List K → List ℕ) (key : R → K) (f : Rank R) (chunks : List (List R))
    (h0 : chunks ≠ []) (hne : ∀ c ∈ chunks, c ≠ []) :
    callChunks (Rank.filter argsort key) f chunks = f.filter argsort key chunks.flatten := by
  refine callChunks_eq_filter (Rank.step argsort key) (Rank.filter argsort key) ?_ f chunks h0 hne
  intro st x hx
  have : x.length ≠ 0 := by simpa using hx
  simp [Rank.filter, this]

example : ([[1, 2], [3]] : List (List ℤ)) ≠ [] ∧ ∀ c ∈ ([[1, 2], [3]] : List (List ℤ)), c ≠ [] := by decide

/-- C17.  State after a call: the newest sample first, then the most recent samples of signal and previous state, newest
first (all but the oldest element of the last window). -/
theorem C17_rank_state [LinearOrder K] (argsort : List K → List ℕ) (ha : IsArgsort argsort) (key : R → K)
    (f : Rank R) (h0 : 0 ≤ f.index) (h1 : f.index < f.s.length) (x : List R) (v : R) :
    ∃ y f', f.filter argsort key (x ++ [v]) = (.ok y, f') ∧
      f'.s = v :: (((x ++ [v]).reverse ++ f.s.tail).take (f.s.length - 1)) ∧ f'.index = f.index := by
  obtain ⟨ys, f', e1, e2, e3, e4, e5, e6, e7⟩ := Rank.runLoop_spec argsort ha key (x ++ [v]) f h0 h1
  refine ⟨ys, f', by simpa [Rank.filter] using e1, ?_, e2⟩
  have h := e6 v (by simp)
  rcases hs : f'.s with _ | ⟨a, t⟩
  · rw [hs] at h; simp at h
  · rw [hs] at h e5
    simp at h
    rw [h, ← e5]; simp

example : IsArgsort (argsortRef (K := ℤ)) := argsortRef_isArgsort

/-- C18.  The constructor accepts exactly `0 ≤ index ≤ order`, with a state of `order + 1` zeros. -/
theorem C18_rank_constructor [Zero R] (index order : ℤ) :
    (0 ≤ index ∧ index ≤ order → Rank.new (R := R) index order = .ok ⟨List.replicate (order + 1).toNat 0, index⟩) ∧
    (¬ (0 ≤ index ∧ index ≤ order) → Rank.new (R := R) index order = .error .valueError) := by
  constructor
  · intro h
    have : ¬ (index < 0 ∨ index > order) := by omega
    simp [Rank.new, this]
  · intro h
    have : (index < 0 ∨ index > order) := by omega
    simp [Rank.new, this]

/-- C18.  Assignment accepts exactly `0 ≤ index ≤ len(s)-1`; a rejected value changes nothing. -/
theorem C18_rank_setter (f : Rank R) (i : ℤ) :
    (0 ≤ i ∧ i ≤ f.s.length - 1 → f.setIndex i = (.ok (), { f with index := i })) ∧
    (¬ (0 ≤ i ∧ i ≤ f.s.length - 1) → f.setIndex i = (.error .valueError, f)) := by
  constructor
  · intro h
    have : ¬ (i < 0 ∨ i > (f.s.length : ℤ) - 1) := by omega
    simp [Rank.setIndex, this]
  · intro h
    have : (i < 0 ∨ i > (f.s.length : ℤ) - 1) := by omega
    simp [Rank.setIndex, this]

example : (⟨[4, 2, 3], 1⟩ : Rank ℚ).setIndex 2 = (.ok (), ⟨[4, 2, 3], 2⟩) := (C18_rank_setter _ 2).1 (by norm_num)

/-- C18.  After any history of `filter`, `reset` and index assignments (accepted or rejected) on an accepted instance,
`filter` returns a value for every nonempty signal. -/
theorem C18_rank_never_index_error [LinearOrder K] [Zero R] (argsort : List K → List ℕ) (ha : IsArgsort argsort)
    (key : R → K) (index order : ℤ) (f : Rank R) (hf : Rank.new index order = .ok f) (ops : List (RankOp R))
    (x : List R) (hx : x ≠ []) :
    (f.after argsort key ops).s.length = (order + 1).toNat ∧
    ∃ y, ((f.after argsort key ops).filter argsort key x).1 = .ok y ∧ y.length = x.length := by
  have hio : 0 ≤ index ∧ index ≤ order := by
    by_contra h
    rw [(C18_rank_constructor index order).2 h] at hf
    exact absurd hf (by simp)
  rw [(C18_rank_constructor index order).1 hio] at hf
  have hinv : ∀ (ops : List (RankOp R)) (g : Rank R), 0 ≤ g.index → g.index < g.s.length →
      0 ≤ (g.after argsort key ops).index ∧ (g.after argsort key ops).index < (g.after argsort key ops).s.length ∧
        (g.after argsort key ops).s.length = g.s.length := by
    intro ops
    induction ops with
    | nil => intro g h0 h1; exact ⟨h0, h1, rfl⟩
    | cons op ops ih =>
      intro g h0 h1
      have : 0 ≤ (g.apply argsort key op).index ∧ (g.apply argsort key op).index < (g.apply argsort key op).s.length ∧
          (g.apply argsort key op).s.length = g.s.length := by
        cases op with
        | filter z =>
          by_cases hz : z = []
          · subst hz; exact ⟨h0, h1, rfl⟩
          · have hl : z.length ≠ 0 := by simpa using hz
            obtain ⟨ys, f', e1, e2, e3, _⟩ := Rank.runLoop_spec argsort ha key z g h0 h1
            simp only [Rank.apply, Rank.filter, hl, if_false, e1]
            exact ⟨by omega, by omega, e3⟩
        | reset a =>
          cases a with
          | nonScalar => exact ⟨h0, h1, rfl⟩
          | scalar v => simp only [Rank.apply, Rank.reset, List.length_map]; exact ⟨h0, h1, trivial⟩
        | setIndex i =>
          by_cases h : 0 ≤ i ∧ i ≤ (g.s.length : ℤ) - 1
          · simp only [Rank.apply, (C18_rank_setter g i).1 h]
            exact ⟨h.1, by omega, trivial⟩
          · simp only [Rank.apply, (C18_rank_setter g i).2 h]
            exact ⟨h0, h1, trivial⟩
      obtain ⟨a1, a2, a3⟩ := this
      obtain ⟨b1, b2, b3⟩ := ih _ a1 a2
      exact ⟨b1, b2, by rw [← a3]; exact b3⟩
  cases hf
  obtain ⟨b1, b2, b3⟩ := hinv ops ⟨List.replicate (order + 1).toNat 0, index⟩ hio.1 (by simp; omega)
  refine ⟨by simpa using b3, ?_⟩
  obtain ⟨ys, f', e1, e2, e3, e4, _⟩ := Rank.runLoop_spec argsort ha key x _ b1 b2
  have hl : x.length ≠ 0 := by simpa using hx
  exact ⟨ys, by simp [Rank.filter, hl, e1], e4⟩

example : ∃ f : Rank ℤ, Rank.new 2 2 = .ok f := ⟨_, rfl⟩

/-! ### Morphology -/

section Morph

variable [AddCommGroup R] [LinearOrder R] [IsOrderedAddMonoid R]

/-- `RankFilter(index, order).filter(x)` on a fresh instance. -/
def rankRun (argsort : List R → List ℕ) (index order : ℕ) (x : List R) : Res (List R) :=
  match Rank.new index order with
  | .error e => .error e
  | .ok f => (f.filter argsort (fun v => |v|) x).1

omit [LinearOrder R] [IsOrderedAddMonoid R] in
theorem twoSided_natCast (x : List R) (n : ℕ) : twoSided x n = at0 x n := by
  simp [twoSided, at0]

theorem lookback_zero_mem (order : ℕ) (x : List R) (n : ℕ) (v : R) :
    v ∈ lookback order (List.replicate (order + 1) 0) x n ↔ ∃ i, i ≤ order ∧ v = twoSided x ((n : ℤ) - (i : ℕ)) := by
  have hz : ∀ i, at0 (List.replicate (order + 1) (0 : R)) i = 0 := by
    intro i; simp only [at0, List.getD, List.getElem?_replicate]; split <;> rfl
  simp only [lookback, List.mem_map, List.mem_range, hz]
  constructor
  · rintro ⟨i, hi, rfl⟩
    refine ⟨i, by omega, ?_⟩
    by_cases h : i ≤ n
    · rw [if_pos h, show (n : ℤ) - i = ((n - i : ℕ) : ℤ) by omega, twoSided_natCast]
    · rw [if_neg h]; simp [twoSided]; omega
  · rintro ⟨i, hi, rfl⟩
    refine ⟨i, by omega, ?_⟩
    by_cases h : i ≤ n
    · rw [if_pos h, show (n : ℤ) - i = ((n - i : ℕ) : ℤ) by omega, twoSided_natCast]
    · rw [if_neg h]; simp [twoSided]; omega

omit [IsOrderedAddMonoid R] in
theorem twoSided_nonneg (x : List R) (hx : ∀ v ∈ x, 0 ≤ v) (n : ℤ) : 0 ≤ twoSided x n := by
  unfold twoSided
  split
  · exact le_rfl
  · by_cases h : n.toNat < x.length
    · rw [List.getD, List.getElem?_eq_getElem h]; exact hx _ (List.getElem_mem h)
    · rw [List.getD, List.getElem?_eq_none (by omega)]; exact le_rfl

/-- A fresh index-0 filter on a nonnegative signal is the erosion. -/
theorem rankRun_erode (argsort : List R → List ℕ) (ha : IsArgsort argsort) (order : ℕ) (x : List R)
    (hx : x ≠ []) (hpos : ∀ v ∈ x, 0 ≤ v) :
    ∃ y, rankRun argsort 0 order x = .ok y ∧ y.length = x.length ∧ (∀ v ∈ y, 0 ≤ v) ∧
      ∀ n : ℤ, n < x.length → twoSided y n = erode order (twoSided x) n := by
  obtain ⟨f, hf, y, f', h1, h2, h3⟩ := C16_rank_order_statistic argsort ha (fun v : R => |v|) 0 order (by omega)
    (List.replicate (order + 1) 0) (by simp) x hx
  have hfs : f.s = List.replicate (order + 1) 0 := by
    rw [(C18_rank_constructor _ _).1 ⟨by simp, by simp⟩] at hf
    cases hf; simp only; congr 1
  have hrun : rankRun argsort 0 order x = .ok y := by
    unfold rankRun
    rw [hf]
    rw [← hfs] at h1
    have h1' : f.filter argsort (fun v => |v|) x = (.ok y, f') := h1
    simp only [h1']
  have hval : ∀ n : ℕ, n < x.length → at0 y n = erode order (twoSided x) n := by
    intro n hn
    obtain ⟨v, hv1, hv2⟩ := h3 n hn
    obtain ⟨hm, hmin⟩ := (C16_rank_extremes (fun v : R => |v|) _ v).1.mp hv2
    have : at0 y n = v := by simp [at0, List.getD, hv1]
    rw [this]
    obtain ⟨i, hi, rfl⟩ := (lookback_zero_mem order x n v).mp hm
    apply le_antisymm
    · apply le_erode
      intro j hj
      have := hmin _ ((lookback_zero_mem order x n _).mpr ⟨j, hj, rfl⟩)
      simpa [abs_of_nonneg (twoSided_nonneg x hpos _)] using this
    · exact erode_le _ _ _ i hi
  have hall : ∀ n : ℤ, n < x.length → twoSided y n = erode order (twoSided x) n := by
    intro n hn
    rcases lt_or_ge n 0 with h | h
    · have e1 : twoSided y n = 0 := by simp [twoSided, h]
      rw [e1]
      apply le_antisymm
      · apply le_erode; intro i _; exact twoSided_nonneg x hpos _
      · refine le_trans (erode_le order _ n 0 (by omega)) ?_
        simp [twoSided, h]
    · obtain ⟨m, rfl⟩ := Int.eq_ofNat_of_zero_le h
      rw [twoSided_natCast]; exact hval m (by simpa using hn)
  refine ⟨y, hrun, h2, ?_, hall⟩
  intro v hv
  obtain ⟨n, hn, rfl⟩ := List.mem_iff_getElem.mp hv
  have := hval n (by omega)
  rw [at0_of_lt _ _ hn] at this
  rw [this]
  apply le_erode; intro i _; exact twoSided_nonneg x hpos _

/-- A fresh index-`order` filter on a nonnegative signal is the dilation. -/
theorem rankRun_dilate (argsort : List R → List ℕ) (ha : IsArgsort argsort) (order : ℕ) (x : List R)
    (hx : x ≠ []) (hpos : ∀ v ∈ x, 0 ≤ v) :
    ∃ y, rankRun argsort order order x = .ok y ∧ y.length = x.length ∧ (∀ v ∈ y, 0 ≤ v) ∧
      ∀ n : ℤ, n < x.length → twoSided y n = dilate order (twoSided x) n := by
  obtain ⟨f, hf, y, f', h1, h2, h3⟩ := C16_rank_order_statistic argsort ha (fun v : R => |v|) order order (by omega)
    (List.replicate (order + 1) 0) (by simp) x hx
  have hfs : f.s = List.replicate (order + 1) 0 := by
    rw [(C18_rank_constructor _ _).1 ⟨by simp, by simp⟩] at hf
    cases hf; simp only; congr 1
  have hrun : rankRun argsort order order x = .ok y := by
    unfold rankRun
    rw [hf]
    rw [← hfs] at h1
    have h1' : f.filter argsort (fun v => |v|) x = (.ok y, f') := h1
    simp only [h1']
  have hval : ∀ n : ℕ, n < x.length → at0 y n = dilate order (twoSided x) n := by
    intro n hn
    obtain ⟨v, hv1, hv2⟩ := h3 n hn
    have hlen : (lookback order (List.replicate (order + 1) 0) x n).length - 1 = order := by simp [lookback]
    have hx2 := (C16_rank_extremes (fun v : R => |v|) (lookback order (List.replicate (order + 1) 0) x n) v).2
    rw [hlen] at hx2
    obtain ⟨hm, hmax⟩ := hx2.mp hv2
    have : at0 y n = v := by simp [at0, List.getD, hv1]
    rw [this]
    obtain ⟨i, hi, rfl⟩ := (lookback_zero_mem order x n v).mp hm
    apply le_antisymm
    · exact le_dilate _ _ _ i hi
    · apply dilate_le
      intro j hj
      have := hmax _ ((lookback_zero_mem order x n _).mpr ⟨j, hj, rfl⟩)
      simpa [abs_of_nonneg (twoSided_nonneg x hpos _)] using this
  have hall : ∀ n : ℤ, n < x.length → twoSided y n = dilate order (twoSided x) n := by
    intro n hn
    rcases lt_or_ge n 0 with h | h
    · have e1 : twoSided y n = 0 := by simp [twoSided, h]
      rw [e1]
      apply le_antisymm
      · refine le_trans ?_ (le_dilate order _ n 0 (by omega))
        simp [twoSided, h]
      · apply dilate_le; intro i _
        have : n - (i : ℤ) < 0 := by omega
        simp [twoSided, this]
    · obtain ⟨m, rfl⟩ := Int.eq_ofNat_of_zero_le h
      rw [twoSided_natCast]; exact hval m (by simpa using hn)
  refine ⟨y, hrun, h2, ?_, hall⟩
  intro v hv
  obtain ⟨n, hn, rfl⟩ := List.mem_iff_getElem.mp hv
  have := hval n (by omega)
  rw [at0_of_lt _ _ hn] at this
  rw [this]
  exact le_trans (twoSided_nonneg x hpos _) (le_dilate _ _ _ 0 (by omega))

theorem ne_nil_of_length_eq (x y : List R) (h : y.length = x.length) (hx : x ≠ []) : y ≠ [] := by
  intro e; subst e; simp at h; exact hx (List.length_eq_zero_iff.mp h.symm)

/-- C19.  Opening (index 0 followed by index `order`, fresh instances) of a nonnegative signal never exceeds the signal
delayed by `order` samples, and opening twice equals opening once, delayed by `order`. -/
theorem C19_rank_open_idempotent (argsort : List R → List ℕ) (ha : IsArgsort argsort) (order : ℕ) (x : List R)
    (hx : x ≠ []) (hpos : ∀ v ∈ x, 0 ≤ v) :
    ∃ e o e2 o2, rankRun argsort 0 order x = .ok e ∧ rankRun argsort order order e = .ok o ∧
      rankRun argsort 0 order o = .ok e2 ∧ rankRun argsort order order e2 = .ok o2 ∧
      ∀ n : ℤ, n < x.length → twoSided o n ≤ twoSided x (n - order) ∧ twoSided o2 n = twoSided o (n - order) := by
  obtain ⟨e, h1, l1, p1, v1⟩ := rankRun_erode argsort ha order x hx hpos
  obtain ⟨o, h2, l2, p2, v2⟩ := rankRun_dilate argsort ha order e (ne_nil_of_length_eq x e l1 hx) p1
  have l2' : o.length = x.length := l2.trans l1
  obtain ⟨e2, h3, l3, p3, v3⟩ := rankRun_erode argsort ha order o (ne_nil_of_length_eq x o l2' hx) p2
  have l3' : e2.length = x.length := l3.trans l2'
  obtain ⟨o2, h4, l4, p4, v4⟩ := rankRun_dilate argsort ha order e2 (ne_nil_of_length_eq x e2 l3' hx) p3
  rw [l1] at v2; rw [l2'] at v3; rw [l3'] at v4
  have a2 : ∀ n : ℤ, n < x.length → twoSided o n = dilate order (erode order (twoSided x)) n := fun n hn => by
    rw [v2 n hn]; exact dilate_congr order _ _ _ v1 n hn
  have a3 : ∀ n : ℤ, n < x.length → twoSided e2 n = erode order (dilate order (erode order (twoSided x))) n :=
    fun n hn => by rw [v3 n hn]; exact erode_congr order _ _ _ a2 n hn
  have a4 : ∀ n : ℤ, n < x.length →
      twoSided o2 n = dilate order (erode order (dilate order (erode order (twoSided x)))) n :=
    fun n hn => by rw [v4 n hn]; exact dilate_congr order _ _ _ a3 n hn
  refine ⟨e, o, e2, o2, h1, h2, h3, h4, fun n hn => ⟨?_, ?_⟩⟩
  · rw [a2 n hn]; exact open_le order _ n
  · rw [a4 n hn, open_open, ← a2 _ (by omega)]

/-- A signal with a peak of one sample. -/
example := C19_rank_open_idempotent argsortRef argsortRef_isArgsort 1 [(1 : ℤ), 1, 9, 1, 1] (by simp) (by decide)

/-- C19.  Closing (index `order` followed by index 0) of a nonnegative signal never falls below the signal delayed by
`order` samples, and closing twice equals closing once, delayed by `order`. -/
theorem C19_rank_close_idempotent (argsort : List R → List ℕ) (ha : IsArgsort argsort) (order : ℕ) (x : List R)
    (hx : x ≠ []) (hpos : ∀ v ∈ x, 0 ≤ v) :
    ∃ d c d2 c2, rankRun argsort order order x = .ok d ∧ rankRun argsort 0 order d = .ok c ∧
      rankRun argsort order order c = .ok d2 ∧ rankRun argsort 0 order d2 = .ok c2 ∧
      ∀ n : ℤ, n < x.length → twoSided x (n - order) ≤ twoSided c n ∧ twoSided c2 n = twoSided c (n - order) := by
  obtain ⟨e, h1, l1, p1, v1⟩ := rankRun_dilate argsort ha order x hx hpos
  obtain ⟨o, h2, l2, p2, v2⟩ := rankRun_erode argsort ha order e (ne_nil_of_length_eq x e l1 hx) p1
  have l2' : o.length = x.length := l2.trans l1
  obtain ⟨e2, h3, l3, p3, v3⟩ := rankRun_dilate argsort ha order o (ne_nil_of_length_eq x o l2' hx) p2
  have l3' : e2.length = x.length := l3.trans l2'
  obtain ⟨o2, h4, l4, p4, v4⟩ := rankRun_erode argsort ha order e2 (ne_nil_of_length_eq x e2 l3' hx) p3
  rw [l1] at v2; rw [l2'] at v3; rw [l3'] at v4
  have a2 : ∀ n : ℤ, n < x.length → twoSided o n = erode order (dilate order (twoSided x)) n := fun n hn => by
    rw [v2 n hn]; exact erode_congr order _ _ _ v1 n hn
  have a3 : ∀ n : ℤ, n < x.length → twoSided e2 n = dilate order (erode order (dilate order (twoSided x))) n :=
    fun n hn => by rw [v3 n hn]; exact dilate_congr order _ _ _ a2 n hn
  have a4 : ∀ n : ℤ, n < x.length →
      twoSided o2 n = erode order (dilate order (erode order (dilate order (twoSided x)))) n :=
    fun n hn => by rw [v4 n hn]; exact erode_congr order _ _ _ a3 n hn
  refine ⟨e, o, e2, o2, h1, h2, h3, h4, fun n hn => ⟨?_, ?_⟩⟩
  · rw [a2 n hn]; exact le_close order _ n
  · rw [a4 n hn, close_close, ← a2 _ (by omega)]

end Morph

/-- Concrete case of C19: opening removes the peak that is too short. -/
example : rankRun (R := ℤ) argsortRef 0 1 [0, 5, 0, 5, 5, 5] = .ok [0, 0, 0, 0, 5, 5] ∧
    rankRun (R := ℤ) argsortRef 1 1 [0, 0, 0, 0, 5, 5] = .ok [0, 0, 0, 0, 5, 5] := by
  constructor <;> decide +kernel

end Verif.Props
