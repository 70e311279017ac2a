import Verif.Props.Diversity
import Verif.Model.DiversityRef

/-
Property C166: the state of a diversity model, read and assigned through its property `s` (diamondback/models/diversity_model.py).
-/

namespace Verif.Props

open Spec

/-- The instance `m`, whose state is the array at `l`, as a value. -/
def DivRef.value (h : GridHeap) (m : DivRef) (l : ℕ) : Diversity :=
  { distance := m.distance, diversity := m.diversity, cols := (h.read l).cols, s := (h.read l).rows }

/-- The contents of the argument. -/
def GridArg.grid (h : GridHeap) : GridArg → Grid
  | .list v => v
  | .array l => h.read l

/-- An argument which is a list, or an array other than the one at `l`. -/
def GridArg.Apart (h : GridHeap) (l : ℕ) : GridArg → Prop
  | .list _ => True
  | .array xl => xl < h.length ∧ xl ≠ l

private theorem read_set (h : GridHeap) (l k : ℕ) (g : Grid) (hl : l < h.length) : GridHeap.read (h.set l g) k = if k = l then g else h.read k := by
  unfold GridHeap.read
  simp only [List.getD_eq_getElem?_getD, List.getElem?_set]
  by_cases e : l = k
  · subst e; simp [hl]
  · rw [if_neg e, if_neg (Ne.symm e)]

private theorem read_append (h : GridHeap) (g : Grid) (k : ℕ) (hk : k < h.length) : GridHeap.read (h ++ [g]) k = h.read k := by
  unfold GridHeap.read
  rw [List.getD_eq_getElem?_getD, List.getD_eq_getElem?_getD, List.getElem?_append_left hk]

private theorem read_last (h : GridHeap) (g : Grid) : GridHeap.read (h ++ [g]) h.length = g := by
  simp [GridHeap.read]

private theorem step_value (h : GridHeap) (m : DivRef) (l xl ii cc : ℕ) (hl : l < h.length) :
    DivRef.value (divr.step h m l xl ii cc).2.1 (divr.step h m l xl ii cc).1 l = (div.step (DivRef.value h m l) cc ((h.read xl).rows.getD ii [])).1 ∧
      (divr.step h m l xl ii cc).2.2 = (div.step (DivRef.value h m l) cc ((h.read xl).rows.getD ii [])).2 ∧
      (divr.step h m l xl ii cc).1.s = m.s ∧ (divr.step h m l xl ii cc).2.1.length = h.length ∧
      ∀ k, k ≠ l → (divr.step h m l xl ii cc).2.1.read k = h.read k := by
  unfold divr.step div.step DivRef.value
  simp only
  split_ifs with h1 h2
  · refine ⟨by simp [read_set _ _ _ _ hl], rfl, rfl, by simp, fun k hk => by simp [read_set _ _ _ _ hl, hk]⟩
  · refine ⟨by simp [read_set _ _ _ _ hl], rfl, rfl, by simp, fun k hk => by simp [read_set _ _ _ _ hl, hk]⟩
  · exact ⟨rfl, rfl, rfl, rfl, fun k _ => rfl⟩

private theorem step_diversity (h : GridHeap) (m : DivRef) (l xl ii cc : ℕ) (hl : l < h.length) :
    (divr.step h m l xl ii cc).1.diversity = (div.step (DivRef.value h m l) cc ((h.read xl).rows.getD ii [])).1.diversity := by
  rw [← (step_value h m l xl ii cc hl).1]
  rfl

private theorem loop_apart (l xl : ℕ) (n : ℕ) : ∀ (ii : ℕ) (m : DivRef) (h : GridHeap) (cc : ℕ), l < h.length → xl ≠ l → ii + n = (h.read xl).rows.length →
    (divr.loop l xl ii n m h cc).1 = (div.loop ((h.read xl).rows.drop ii) (DivRef.value h m l, cc)).1 ∧
      DivRef.value (divr.loop l xl ii n m h cc).2.2 (divr.loop l xl ii n m h cc).2.1 l = (div.loop ((h.read xl).rows.drop ii) (DivRef.value h m l, cc)).2.1 := by
  induction n with
  | zero =>
    intro ii m h cc hl hx hn
    rw [List.drop_eq_nil_of_le (by omega)]
    exact ⟨rfl, rfl⟩
  | succ n ih =>
    intro ii m h cc hl hx hn
    obtain ⟨s1, s2, s3, s4, s5⟩ := step_value h m l xl ii cc hl
    have hi : ii < (h.read xl).rows.length := by omega
    have hd : (h.read xl).rows.drop ii = (h.read xl).rows.getD ii [] :: (h.read xl).rows.drop (ii + 1) := by
      rw [List.drop_eq_getElem_cons hi, List.getD_eq_getElem?_getD, List.getElem?_eq_getElem hi]
      rfl
    obtain ⟨i1, i2⟩ := ih (ii + 1) (divr.step h m l xl ii cc).1 (divr.step h m l xl ii cc).2.1 (divr.step h m l xl ii cc).2.2
      (by rw [s4]; exact hl) hx (by rw [s5 xl hx]; omega)
    rw [s5 xl hx, s1] at i1 i2
    rw [hd, div.loop_cons, divr.loop]
    exact ⟨by simp only; rw [i1, s2, step_diversity h m l xl ii cc hl], by simp only; rw [i2, s2]⟩

/-- Whatever is observed, the loop writes to the array of the state only, and the reference remains. -/
private theorem loop_frame (l xl : ℕ) (n : ℕ) : ∀ (ii : ℕ) (m : DivRef) (h : GridHeap) (cc : ℕ), l < h.length →
    (divr.loop l xl ii n m h cc).2.1.s = m.s ∧ (divr.loop l xl ii n m h cc).2.2.length = h.length ∧
      (∀ k, k ≠ l → (divr.loop l xl ii n m h cc).2.2.read k = h.read k) ∧ ((divr.loop l xl ii n m h cc).2.2.read l).cols = (h.read l).cols := by
  induction n with
  | zero => intro ii m h cc _; exact ⟨rfl, rfl, fun k _ => rfl, rfl⟩
  | succ n ih =>
    intro ii m h cc hl
    obtain ⟨s1, s2, s3, s4, s5⟩ := step_value h m l xl ii cc hl
    obtain ⟨i1, i2, i3, i4⟩ := ih (ii + 1) (divr.step h m l xl ii cc).1 (divr.step h m l xl ii cc).2.1 (divr.step h m l xl ii cc).2.2 (by rw [s4]; exact hl)
    rw [divr.loop]
    refine ⟨i1.trans s3, i2.trans s4, fun k hk => (i3 k hk).trans (s5 k hk), i4.trans ?_⟩
    have : (DivRef.value (divr.step h m l xl ii cc).2.1 (divr.step h m l xl ii cc).1 l).cols = (DivRef.value h m l).cols := by
      rw [s1]
      unfold div.step
      simp only
      split_ifs <;> rfl
    exact this

private theorem place_spec (h : GridHeap) (x : GridArg) (l : ℕ) (hl : l < h.length) (hx : GridArg.Apart h l x) :
    (x.place h).1 ≠ l ∧ (x.place h).1 < (x.place h).2.length ∧ (x.place h).2.read (x.place h).1 = GridArg.grid h x ∧ h.length ≤ (x.place h).2.length ∧
      ∀ k < h.length, (x.place h).2.read k = h.read k := by
  cases x with
  | list v => exact ⟨by simp only [GridArg.place]; omega, by simp [GridArg.place], read_last h v, by simp [GridArg.place], fun k hk => read_append h v k hk⟩
  | array xl => exact ⟨hx.2, hx.1, rfl, le_refl _, fun k _ => rfl⟩

/-- C166.  On a heap: `fit` of an argument which is not the state itself does to the array of the state what the model of C50 to C52 says; every other
array which exists is left alone.  The array is the same as before once observations have given it columns, and a new one at the first. -/
theorem C166_heap (h : GridHeap) (m : DivRef) (l : ℕ) (hs : m.s = .array l) (hl : l < h.length) (x : GridArg) (hx : GridArg.Apart h l x) :
    ∃ l', (DivRef.fit h m x).1 = ((DivRef.value h m l).fit (GridArg.grid h x).rows (GridArg.grid h x).cols).1 ∧
      (DivRef.fit h m x).2.1.s = .array l' ∧ l' < (DivRef.fit h m x).2.2.length ∧
      DivRef.value (DivRef.fit h m x).2.2 (DivRef.fit h m x).2.1 l' = ((DivRef.value h m l).fit (GridArg.grid h x).rows (GridArg.grid h x).cols).2 ∧
      (∀ k < h.length, k ≠ l' → (DivRef.fit h m x).2.2.read k = h.read k) ∧ ((h.read l).cols ≠ 0 → l' = l) ∧ (l' = l ∨ h.length ≤ l') := by
  obtain ⟨p1, p2, p3, p4, p5⟩ := place_spec h x l hl hx
  unfold DivRef.fit
  simp only [p3, hs]
  generalize (x.place h).1 = xl at *
  generalize (x.place h).2 = h1 at *
  generalize GridArg.grid h x = g at *
  have hv : DivRef.value h m l = DivRef.value h1 m l := by simp [DivRef.value, p5 l hl]
  unfold Diversity.fit
  by_cases e : g.rows = [] ∨ g.cols = 0
  · rw [if_pos e, if_pos e]
    exact ⟨l, rfl, hs, by simp only; omega, hv.symm, fun k hk _ => p5 k hk, fun _ => rfl, .inl rfl⟩
  rw [if_neg e, if_neg e, hv]
  have hl1 : l < h1.length := by omega
  by_cases h0 : (h1.read l).cols = 0
  · have hv0 : (DivRef.value h1 m l).cols = 0 := h0
    simp only [divr.sized, h0, if_true, Diversity.sized, hv0, read_last, ne_eq, not_true_eq_false, if_false]
    set h2 := h1 ++ [(⟨g.cols, List.replicate (h1.read l).rows.length (List.replicate g.cols div.fmax)⟩ : Grid)] with hh2
    have hr : h2.read h1.length = ⟨g.cols, List.replicate (h1.read l).rows.length (List.replicate g.cols div.fmax)⟩ := read_last _ _
    have hxl : h2.read xl = g := by rw [hh2, read_append _ _ _ p2, p3]
    have hlen : h1.length < h2.length := by simp [hh2]
    obtain ⟨a1, a2⟩ := loop_apart h1.length xl g.rows.length 0 (m.assign (.array h1.length)) h2
      (div.count (List.replicate (h1.read l).rows.length (List.replicate g.cols div.fmax))) hlen (by omega) (by rw [hxl]; omega)
    obtain ⟨b1, b2, b3, -⟩ := loop_frame h1.length xl g.rows.length 0 (m.assign (.array h1.length)) h2
      (div.count (List.replicate (h1.read l).rows.length (List.replicate g.cols div.fmax))) hlen
    have e2 : DivRef.value h2 (m.assign (.array h1.length)) h1.length = { DivRef.value h1 m l with
        cols := g.cols, s := List.replicate (h1.read l).rows.length (List.replicate g.cols div.fmax) } := by
      simp [DivRef.value, hr, DivRef.assign]
    rw [hxl, List.drop_zero, e2] at a1 a2
    refine ⟨h1.length, congrArg Except.ok a1, b1, by rw [b2]; exact hlen, a2, ?_, ?_, .inr p4⟩
    · intro k hk hk'
      rw [b3 k hk', hh2, read_append _ _ _ (by omega), p5 k hk]
    · intro hc
      rw [← p5 l hl] at hc
      exact absurd h0 hc
  · have hv0 : (DivRef.value h1 m l).cols ≠ 0 := h0
    have hv1 : (DivRef.value h1 m l).cols = (h1.read l).cols := rfl
    simp only [divr.sized, h0, if_false, Diversity.sized, hv1]
    by_cases h2 : g.cols = (h1.read l).cols
    · rw [if_neg (not_not.mpr h2), if_neg (not_not.mpr h2)]
      obtain ⟨a1, a2⟩ := loop_apart l xl g.rows.length 0 m h1 (div.count (h1.read l).rows) hl1 p1 (by rw [p3]; omega)
      obtain ⟨b1, b2, b3, -⟩ := loop_frame l xl g.rows.length 0 m h1 (div.count (h1.read l).rows) hl1
      rw [p3, List.drop_zero] at a1 a2
      exact ⟨l, congrArg Except.ok a1, b1.trans hs, by rw [b2]; exact hl1, a2, fun k hk hk' => (b3 k hk').trans (p5 k hk), fun _ => rfl, .inl rfl⟩
    · rw [if_pos h2, if_pos h2]
      exact ⟨l, rfl, hs, hl1, rfl, fun k hk _ => p5 k hk, fun _ => rfl, .inl rfl⟩

/-- C166.  `DiversityModel(...)` and `clear` are those of the model of C50 to C52, on an array which no other reference is to; every array which exists is left alone. -/
theorem C166_own (h : GridHeap) (style : Option (List ℝ → List ℝ → WithTop ℝ)) (order : ℤ) :
    (∀ e, Diversity.new style order = .error e → DivRef.new h style order = (.error e, h)) ∧
    (∀ v, Diversity.new style order = .ok v → ∃ m, (DivRef.new h style order).1 = .ok m ∧ m.s = .array h.length ∧ h.length < (DivRef.new h style order).2.length ∧
      DivRef.value (DivRef.new h style order).2 m h.length = v ∧ ∀ k < h.length, (DivRef.new h style order).2.read k = h.read k) ∧
    ∀ (m : DivRef) (l : ℕ), m.s = .array l → (DivRef.clear h m).1 = .ok () ∧ (DivRef.clear h m).2.1.s = .array h.length ∧ h.length < (DivRef.clear h m).2.2.length ∧
      DivRef.value (DivRef.clear h m).2.2 (DivRef.clear h m).2.1 h.length = (DivRef.value h m l).clear ∧ ∀ k < h.length, (DivRef.clear h m).2.2.read k = h.read k := by
  refine ⟨?_, ?_, ?_⟩
  · intro e he
    unfold Diversity.new at he
    unfold DivRef.new
    split at he
    · simp only [Except.error.injEq] at he; rw [he]
    · split_ifs at he ⊢ with ho
      simp only [Except.error.injEq] at he; rw [he]
  · intro v hv
    unfold Diversity.new at hv
    split at hv
    · exact absurd hv (by simp)
    · split_ifs at hv with ho
      rename_i d
      obtain rfl := Except.ok.inj hv
      unfold DivRef.new
      simp only [if_neg ho]
      exact ⟨_, rfl, rfl, by simp, by simp [DivRef.value, read_last], fun k hk => read_append _ _ _ hk⟩
  · intro m l hs
    unfold DivRef.clear
    simp only [hs]
    exact ⟨trivial, rfl, by simp, by simp [DivRef.value, Diversity.clear, read_last, DivRef.assign], fun k hk => read_append _ _ _ hk⟩

/-- A model of order 2 beside an array which exists, and one of order 2 after observations of two columns cleared. -/
example (d : List ℝ → List ℝ → WithTop ℝ) := (C166_own [⟨1, [[1]]⟩] (some d) 2).2.1 _ rfl

example (d : List ℝ → List ℝ → WithTop ℝ) := (C166_own [⟨2, [[1, 2], [3, 4], [5, 6]]⟩] (some d) 2).2.2 ⟨d, 1, .array 0⟩ 0 rfl

/-- Calls of `fit` in succession. -/
noncomputable def fitRefs : List GridArg → DivRef → GridHeap → DivRef × GridHeap
  | [], m, h => (m, h)
  | x :: t, m, h => fitRefs t (DivRef.fit h m x).2.1 (DivRef.fit h m x).2.2

private theorem fit_keeps (h : GridHeap) (m : DivRef) (l : ℕ) (hs : m.s = .array l) (hl : l < h.length) (hc : (h.read l).cols ≠ 0) (x : GridArg) :
    (DivRef.fit h m x).2.1.s = .array l ∧ l < (DivRef.fit h m x).2.2.length ∧ ((DivRef.fit h m x).2.2.read l).cols ≠ 0 := by
  have q : l < (x.place h).2.length ∧ (x.place h).2.read l = h.read l := by
    cases x with
    | list v => exact ⟨by simp only [GridArg.place, List.length_append]; omega, read_append h v l hl⟩
    | array xl => exact ⟨hl, rfl⟩
  unfold DivRef.fit
  simp only [hs]
  generalize (x.place h).1 = xl at *
  generalize (x.place h).2 = h1 at *
  obtain ⟨q1, q2⟩ := q
  have hz : divr.sized h1 m l (h1.read xl).cols = (l, m, h1) := by rw [divr.sized, if_neg (by rw [q2]; exact hc)]
  rw [hz]
  split_ifs with e e1
  · exact ⟨hs, q1, by rw [q2]; exact hc⟩
  · exact ⟨hs, q1, by rw [q2]; exact hc⟩
  · obtain ⟨b1, b2, -, b4⟩ := loop_frame l xl (h1.read xl).rows.length 0 m h1 (div.count (h1.read l).rows) q1
    exact ⟨b1.trans hs, by simp only; rw [b2]; exact q1, by simp only; rw [b4, q2]; exact hc⟩

/-- C166.  `t = model.s` is no snapshot: once the state has columns, it is the same array after any calls of `fit`, with any arguments, whether or not
they raise.  So `model.s = t` afterwards changes nothing. -/
theorem C166_reference (calls : List GridArg) : ∀ (m : DivRef) (h : GridHeap) (l : ℕ), m.s = .array l → l < h.length → (h.read l).cols ≠ 0 →
    (fitRefs calls m h).1.s = .array l ∧ (fitRefs calls m h).1.assign (.array l) = (fitRefs calls m h).1 := by
  induction calls with
  | nil => intro m h l hs _ _; exact ⟨hs, by rw [DivRef.assign, ← hs]; rfl⟩
  | cons x t ih =>
    intro m h l hs hl hc
    obtain ⟨k1, k2, k3⟩ := fit_keeps h m l hs hl hc x
    exact ih _ _ l k1 k2 k3

/-- C166.  After a list has been assigned, as the setter allows, every call of `fit` raises, `AttributeError` unless the argument is refused, and
changes nothing; `clear` raises also. -/
theorem C166_list (h : GridHeap) (m : DivRef) (x : GridArg) :
    (DivRef.fit h (m.assign .list) x).1 = .error (if ((x.place h).2.read (x.place h).1).rows = [] ∨ ((x.place h).2.read (x.place h).1).cols = 0 then .valueError else .other) ∧
      (DivRef.fit h (m.assign .list) x).2.1 = m.assign .list ∧
      DivRef.clear h (m.assign .list) = (.error .other, { m.assign .list with diversity := 0 }, h) := by
  refine ⟨?_, ?_, rfl⟩
  · unfold DivRef.fit DivRef.assign
    simp only
    split_ifs <;> rfl
  · unfold DivRef.fit DivRef.assign
    simp only
    split_ifs <;> rfl

/-- C166.  What `clear` should do (C52) can be done: after it, assign `numpy.zeros((order + 1, 0))`.  The model is then as a new one of that order, up to
the place of its array. -/
theorem C166_restart (h : GridHeap) (m : DivRef) (l : ℕ) (hs : m.s = .array l) (order : ℕ) :
    ∃ m1 h1, DivRef.clear h m = (.ok (), m1, h1) ∧
      Diversity.new (some m.distance) order = .ok (DivRef.value (h1 ++ [⟨0, List.replicate (order + 1) []⟩]) (m1.assign (.array h1.length)) h1.length) := by
  refine ⟨{ m with diversity := 0, s := .array h.length }, h ++ [⟨0, List.replicate (h.read l).cols []⟩], by unfold DivRef.clear; simp only [hs, DivRef.assign], ?_⟩
  unfold Diversity.new DivRef.value
  simp only [read_last, DivRef.assign]
  rw [if_neg (by omega)]
  rfl

/-- One observation which is a row of a full state. -/
private theorem step_own (m : Diversity) (hd : 0 ≤ m.diversity) (v : WithTop ℝ) (hv : IsMinDistance m.distance m.s v) (hself : ∀ r ∈ m.s, m.distance r r = 0)
    (ii : ℕ) (hi : ii < m.s.length) : div.step m m.s.length (m.s.getD ii []) = ({ m with diversity := max m.diversity v }, m.s.length) := by
  have hx : m.s.getD ii [] = m.s[ii] := by rw [List.getD_eq_getElem?_getD, List.getElem?_eq_getElem hi]; rfl
  have hset : m.s.set ii (m.s.getD ii []) = m.s := by rw [hx]; exact List.set_getElem_self hi
  unfold div.step
  rw [if_neg (lt_irrefl _)]
  obtain ⟨b1, b2, b3⟩ := div.best_spec m.distance m.s (m.s.getD ii []) m.diversity m.s.length rfl
  have hle := b2 ii hi v (by rw [hset]; exact hv)
  rcases b3 with b3 | ⟨k, hk, w, b3, b4, b5, -⟩
  · rw [b3] at hle ⊢
    simp only [gt_iff_lt, lt_irrefl, if_false]
    rw [max_eq_left hle]
  · have hki : k = ii := by
      by_contra hne
      have hself' : m.distance (m.s.getD ii []) (m.s.getD ii []) = 0 := hself _ (by rw [hx]; exact List.getElem_mem hi)
      have e1 : (m.s.set k (m.s.getD ii []))[k]? = some (m.s.getD ii []) := by rw [List.getElem?_set]; simp [hk]
      have e2 : (m.s.set k (m.s.getD ii []))[ii]? = some (m.s.getD ii []) := by
        rw [List.getElem?_set, if_neg hne, List.getElem?_eq_getElem hi, hx]
      have : w ≤ 0 := by
        rcases lt_or_gt_of_ne hne with h | h
        · rw [← hself']; exact b5.1 k ii _ _ h e1 e2
        · rw [← hself']; exact b5.1 ii k _ _ h e2 e1
      exact absurd (b4.trans_le this) (not_lt.mpr hd)
    subst hki
    rw [hset] at b5
    have hw := b5.unique hv
    rw [b3]
    simp only [gt_iff_lt, b4, if_true, Option.getD_some, hset]
    rw [hw, max_eq_right (hw ▸ b4.le)]

/-- A state of which no row is vacant. -/
private theorem count_full (s : List (List ℝ)) (h : ∀ r ∈ s, ¬ NearLargest (r.getD 0 0)) : div.count s = s.length := by
  classical
  unfold div.count
  congr 1
  rw [List.takeWhile_eq_self_iff]
  intro r hr
  have := h r hr
  rw [← div.vacant_iff] at this
  simpa using this

private theorem loop_own (l : ℕ) (n : ℕ) : ∀ (ii : ℕ) (m : DivRef) (h : GridHeap) (v : WithTop ℝ), l < h.length → 0 ≤ m.diversity →
    IsMinDistance m.distance (h.read l).rows v → (∀ r ∈ (h.read l).rows, m.distance r r = 0) → ii + n ≤ (h.read l).rows.length →
    (divr.loop l l ii n m h (h.read l).rows.length).1 = List.replicate n (max m.diversity v) ∧
      (divr.loop l l ii n m h (h.read l).rows.length).2.1 = (if n = 0 then m else { m with diversity := max m.diversity v }) ∧
      ∀ k, (divr.loop l l ii n m h (h.read l).rows.length).2.2.read k = h.read k := by
  induction n with
  | zero => intro ii m h v _ _ _ _ _; exact ⟨rfl, rfl, fun _ => rfl⟩
  | succ n ih =>
    intro ii m h v hl hd hv hself hn
    have hstep := step_own (DivRef.value h m l) hd v hv hself ii (by show ii < (h.read l).rows.length; omega)
    obtain ⟨s1, s2, s3, s4, s5⟩ := step_value h m l l ii (h.read l).rows.length hl
    change div.step (DivRef.value h m l) (h.read l).rows.length ((h.read l).rows.getD ii []) = _ at hstep
    rw [hstep] at s1 s2
    have hm : (divr.step h m l l ii (h.read l).rows.length).1 = { m with diversity := max m.diversity v } := by
      have a : (divr.step h m l l ii (h.read l).rows.length).1.distance = m.distance := congrArg Diversity.distance s1
      have b : (divr.step h m l l ii (h.read l).rows.length).1.diversity = max m.diversity v := congrArg Diversity.diversity s1
      generalize divr.step h m l l ii (h.read l).rows.length = st at *
      obtain ⟨⟨d, w, s⟩, h2, c⟩ := st
      simp only at a b s3
      rw [a, b, s3]
    have hread : ∀ k, (divr.step h m l l ii (h.read l).rows.length).2.1.read k = h.read k := by
      intro k
      by_cases e : k = l
      · subst e
        have a : ((divr.step h m k k ii (h.read k).rows.length).2.1.read k).cols = (h.read k).cols := congrArg Diversity.cols s1
        have b : ((divr.step h m k k ii (h.read k).rows.length).2.1.read k).rows = (h.read k).rows := congrArg Diversity.s s1
        generalize (divr.step h m k k ii (h.read k).rows.length).2.1.read k = g at *
        obtain ⟨c, r⟩ := g
        simp only at a b
        rw [a, b]
      · exact s5 k e
    have hcc : (divr.step h m l l ii (h.read l).rows.length).2.2 = ((divr.step h m l l ii (h.read l).rows.length).2.1.read l).rows.length := by
      rw [hread l]; exact s2
    obtain ⟨i1, i2, i3⟩ := ih (ii + 1) (divr.step h m l l ii (h.read l).rows.length).1 (divr.step h m l l ii (h.read l).rows.length).2.1 v
      (by rw [s4]; exact hl) (by rw [hm]; exact hd.trans (le_max_left _ _)) (by rw [hread, hm]; exact hv) (by rw [hread, hm]; exact hself) (by rw [hread]; omega)
    rw [← hcc] at i1 i2 i3
    have hdiv : (divr.step h m l l ii (h.read l).rows.length).1.diversity = max m.diversity v := by rw [hm]
    rw [hdiv] at i1 i2
    rw [max_eq_left (le_max_right m.diversity v)] at i1 i2
    rw [divr.loop]
    refine ⟨?_, ?_, fun k => (i3 k).trans (hread k)⟩
    · simp only
      rw [i1, hdiv]
      rfl
    · simp only
      rw [i2, hm]
      simp

/-- C166.  `model.fit(model.s)` measures the state: with all rows occupied and a distance which is zero from each row to itself, the rows and all the
arrays remain, and the diversity becomes the least distance of two rows, unless it was greater. -/
theorem C166_measure (h : GridHeap) (m : DivRef) (l : ℕ) (hs : m.s = .array l) (hl : l < h.length) (hc : (h.read l).cols ≠ 0) (hr : (h.read l).rows ≠ [])
    (hfull : ∀ r ∈ (h.read l).rows, ¬ NearLargest (r.getD 0 0)) (hself : ∀ r ∈ (h.read l).rows, m.distance r r = 0) (hd : 0 ≤ m.diversity)
    (v : WithTop ℝ) (hv : IsMinDistance m.distance (h.read l).rows v) :
    (DivRef.fit h m (.array l)).1 = .ok (List.replicate (h.read l).rows.length (max m.diversity v)) ∧
      (DivRef.fit h m (.array l)).2.1 = { m with diversity := max m.diversity v } ∧ ∀ k, (DivRef.fit h m (.array l)).2.2.read k = h.read k := by
  have hne : ¬ ((h.read l).rows = [] ∨ (h.read l).cols = 0) := by tauto
  have hz : divr.sized h m l (h.read l).cols = (l, m, h) := by rw [divr.sized, if_neg hc]
  have hfit : DivRef.fit h m (.array l) = (.ok (divr.loop l l 0 (h.read l).rows.length m h (div.count (h.read l).rows)).1,
      (divr.loop l l 0 (h.read l).rows.length m h (div.count (h.read l).rows)).2) := by
    unfold DivRef.fit
    refine (if_neg hne).trans ?_
    rw [hs]
    show (if (h.read l).cols ≠ ((divr.sized h m l (h.read l).cols).2.2.read (divr.sized h m l (h.read l).cols).1).cols then _ else _) = _
    rw [hz]
    simp only [ne_eq, not_true_eq_false, if_false]
    rw [show divr.sized (GridArg.place h (GridArg.array l)).2 m l ((GridArg.place h (GridArg.array l)).2.read (GridArg.place h (GridArg.array l)).1).cols = (l, m, h) from hz]
    rfl
  rw [hfit]
  obtain ⟨a, b, c⟩ := loop_own l (h.read l).rows.length 0 m h v hl hd hv hself (by omega)
  rw [count_full _ hfull]
  rw [if_neg (by simpa using hr)] at b
  exact ⟨congrArg Except.ok a, b, c⟩

private theorem reach_nonneg {d : List ℝ → List ℝ → WithTop ℝ} {order : ℕ} {obs : List (List ℝ)} {m : Diversity} (h : DivReach d order obs m) : 0 ≤ m.diversity := by
  induction h with
  | new m h =>
    unfold Diversity.new at h
    simp only at h
    split_ifs at h
    rw [← Except.ok.inj h]
  | fail obs x cols m m' e h hf ih =>
    unfold Diversity.fit at hf
    split_ifs at hf with h1
    · have e : m = m' := congrArg Prod.snd hf
      rw [← e]; exact ih
    · simp only at hf
      have hs : (m.sized cols).diversity = m.diversity := by unfold Diversity.sized; split_ifs <;> rfl
      split_ifs at hf with h2
      · have e : m.sized cols = m' := congrArg Prod.snd hf
        rw [← e, hs]; exact ih
      · cases congrArg Prod.fst hf
  | fit obs x cols m m' y h hx e ih =>
    obtain ⟨p, -, q⟩ := C50_monotone m m' x cols y e
    have : m'.diversity ∈ m.diversity :: y := List.mem_of_getLast? q
    rcases List.mem_cons.mp this with e | e
    · rw [e]; exact ih
    · exact ih.trans ((List.pairwise_cons.mp p).1 _ e)

/-- C166.  How to save and restore a model which has replaced a row: copy the rows, assign the copy to the state of a new instance of the same style and any
order, and fit the new instance to the copy once.  It is then equal to the model saved, so that all later calls return the same. -/
theorem C166_restored (d : List ℝ → List ℝ → WithTop ℝ) (order : ℕ) (obs : List (List ℝ)) (h : GridHeap) (m : DivRef) (l : ℕ)
    (hm : DivReach d order obs (DivRef.value h m l)) (hpos : m.diversity ≠ 0) (hself : ∀ r ∈ (h.read l).rows, d r r = 0)
    (order' : ℕ) (n : DivRef) (h' : GridHeap) (hn : DivRef.new h (some d) order' = (.ok n, h')) (c : ℕ) (hcopy : h'.read c = h.read l) (hcl : c < h'.length) :
    DivRef.value (DivRef.fit h' (n.assign (.array c)) (.array c)).2.2 (DivRef.fit h' (n.assign (.array c)) (.array c)).2.1 c = DivRef.value h m l := by
  have hn' : n.distance = d ∧ n.diversity = 0 := by
    unfold DivRef.new at hn
    simp only at hn
    rw [if_neg (by omega)] at hn
    have := Except.ok.inj (congrArg Prod.fst hn)
    rw [← this]
    exact ⟨rfl, rfl⟩
  have hsep := C50_separated d order obs _ hm hpos
  have hnn : 0 ≤ m.diversity := reach_nonneg hm
  have hdist : m.distance = d ∧ (h.read l).cols ≠ 0 ∧ (∀ r ∈ (h.read l).rows, ¬ NearLargest (r.getD 0 0)) ∧ (h.read l).rows ≠ [] := by
    rcases div_reach hm with ⟨-, -, e⟩ | ⟨e, cc, hi⟩
    · exact absurd (congrArg Diversity.diversity e) hpos
    · refine ⟨hi.dist, e, ?_, ?_⟩
      · intro r hr hv
        have hlong : order + 1 ≤ obs.length := by
          by_contra hlt
          exact hpos (C50_filling d order obs _ hm (by omega))
        have := hi.ok r (hi.mem hlong r hr)
        exact this ((div.vacant_iff _).mpr hv)
      · intro e0
        have hlen := hi.len
        rw [show (DivRef.value h m l).s = [] from e0] at hlen
        simp at hlen
  obtain ⟨d1, d2, d3, d4⟩ := hdist
  obtain ⟨-, b, a⟩ := C166_measure h' (n.assign (.array c)) c rfl hcl (by rw [hcopy]; exact d2) (by rw [hcopy]; exact d4) (by rw [hcopy]; exact d3)
    (by rw [hcopy]; show ∀ r ∈ _, n.distance r r = 0; rw [hn'.1]; exact hself) (by show 0 ≤ n.diversity; rw [hn'.2]) m.diversity
    (by rw [hcopy]; show IsMinDistance n.distance _ _; rw [hn'.1]; exact hsep)
  unfold DivRef.value
  rw [a c, hcopy, b]
  simp only [DivRef.assign, hn'.1, hn'.2, d1, max_eq_right hnn]

/-- C166.  Assigning a copy of an earlier state to the same instance is not enough: the diversity remains that of the later state, and an observation which no
replacement brings above it is passed over. -/
theorem C166_stale (h : GridHeap) (m : DivRef) (c : ℕ) (hc : (h.read c).cols ≠ 0)
    (hfull : ∀ r ∈ (h.read c).rows, ¬ NearLargest (r.getD 0 0)) (x : List ℝ)
    (hx : ∀ k < (h.read c).rows.length, ∃ v ≤ m.diversity, IsMinDistance m.distance ((h.read c).rows.set k x) v) :
    (DivRef.value h (m.assign (.array c)) c).fit [x] (h.read c).cols = (.ok [m.diversity], DivRef.value h (m.assign (.array c)) c) := by
  have hstep : div.step (DivRef.value h (m.assign (.array c)) c) (h.read c).rows.length x = (DivRef.value h (m.assign (.array c)) c, (h.read c).rows.length) := by
    unfold div.step
    rw [if_neg (by simp [DivRef.value])]
    obtain ⟨-, -, b3⟩ := div.best_spec m.distance (h.read c).rows x m.diversity (h.read c).rows.length rfl
    show (if _ > m.diversity then _ else _) = _
    change (if (div.best m.distance (h.read c).rows (h.read c).rows.length x m.diversity).1 > m.diversity then _ else _) = _
    rcases b3 with b3 | ⟨k, hk, w, b3, b4, b5, -⟩
    · rw [b3, if_neg (lt_irrefl _)]
    · obtain ⟨v, hv, hm⟩ := hx k hk
      rw [b5.unique hm] at b4
      exact absurd b4 (not_lt.mpr hv)
  unfold Diversity.fit
  have e0 : (DivRef.value h (m.assign (.array c)) c).cols = (h.read c).cols := rfl
  have e1 : (DivRef.value h (m.assign (.array c)) c).s = (h.read c).rows := rfl
  rw [if_neg (by simpa using hc)]
  simp only [Diversity.sized, e0, hc, if_false, ne_eq, not_true_eq_false, e1]
  rw [count_full _ hfull, div.loop_cons, hstep]
  rfl

private theorem best_pair (v a b x : ℝ) :
    div.best DivStyle.manhattan.distance [[a], [b]] 2 [x] (v : WithTop ℝ) =
      (if |x - b| > v then (if |a - x| > |x - b| then (((|a - x| : ℝ) : WithTop ℝ), some 1) else (((|x - b| : ℝ) : WithTop ℝ), some 0))
        else if |a - x| > v then (((|a - x| : ℝ) : WithTop ℝ), some 1) else ((v : WithTop ℝ), none)) := by
  have h0 : div.least DivStyle.manhattan.distance [[x], [b]] 2 = ((|x - b| : ℝ) : WithTop ℝ) :=
    (div.least_spec DivStyle.manhattan.distance [[x], [b]]).unique (by rw [← manhattan_one]; exact isMinDistance_pair _ _ _)
  have h1 : div.least DivStyle.manhattan.distance [[a], [x]] 2 = ((|a - x| : ℝ) : WithTop ℝ) :=
    (div.least_spec DivStyle.manhattan.distance [[a], [x]]).unique (by rw [← manhattan_one]; exact isMinDistance_pair _ _ _)
  unfold div.best
  simp only [List.range_succ, List.range_zero, List.nil_append, List.foldl_append, List.foldl_cons, List.foldl_nil, List.set_cons_zero, List.set_cons_succ, h0, h1,
    gt_iff_lt, WithTop.coe_lt_coe]
  split_ifs <;> simp_all

/-- `fit` of one number by a full model of two numbers. -/
private theorem fit_pair (v a b x : ℝ) (ha : |a| ≤ 1000) (hb : |b| ≤ 1000) :
    (⟨DivStyle.manhattan.distance, (v : WithTop ℝ), 1, [[a], [b]]⟩ : Diversity).fit [[x]] 1 =
      (if |x - b| > v ∧ |a - x| ≤ |x - b| then (.ok [((|x - b| : ℝ) : WithTop ℝ)], ⟨DivStyle.manhattan.distance, ((|x - b| : ℝ) : WithTop ℝ), 1, [[x], [b]]⟩)
        else if |a - x| > v then (.ok [((|a - x| : ℝ) : WithTop ℝ)], ⟨DivStyle.manhattan.distance, ((|a - x| : ℝ) : WithTop ℝ), 1, [[a], [x]]⟩)
        else (.ok [(v : WithTop ℝ)], ⟨DivStyle.manhattan.distance, (v : WithTop ℝ), 1, [[a], [b]]⟩)) := by
  have hcount : div.count [[a], [b]] = 2 := count_full _ (by
    intro r hr
    simp only [List.mem_cons, List.not_mem_nil, or_false] at hr
    rcases hr with rfl | rfl
    · exact (observation_one a ha).2
    · exact (observation_one b hb).2)
  unfold Diversity.fit
  rw [if_neg (by simp)]
  simp only [Diversity.sized, one_ne_zero, if_false, ne_eq, not_true_eq_false, hcount, div.loop, List.length_cons, List.length_nil, Nat.zero_add,
    Nat.reduceAdd, lt_irrefl, best_pair]
  by_cases h1 : |x - b| > v
  · by_cases h2 : |a - x| > |x - b|
    · have h3 : |a - x| > v := h1.trans h2
      simp [h1, h2, not_le.mpr h2, h3]
    · simp [h1, h2, not_lt.mp h2]
  · by_cases h3 : |a - x| > v
    · simp [h1, h3]
    · simp [h1, h3]

/-- C166, witness for the stale diversity: a model of the rows 0 and 1 is saved by a copy (at place 1), learns 5 and is restored.  It then refuses 4, which the
model saved would have learnt. -/
theorem C166_stale_witness :
    let h : GridHeap := [⟨1, [[0], [1]]⟩, ⟨1, [[0], [1]]⟩]
    let m : DivRef := ⟨DivStyle.manhattan.distance, 0, .array 0⟩
    let r := DivRef.fit h m (.list ⟨1, [[5]]⟩)
    r.1 = .ok [((5 : ℝ) : WithTop ℝ)] ∧ (r.2.2.read 0).rows = [[0], [5]] ∧ (r.2.2.read 1).rows = [[0], [1]] ∧
      (DivRef.fit r.2.2 (r.2.1.assign (.array 1)) (.list ⟨1, [[4]]⟩)).1 = .ok [((5 : ℝ) : WithTop ℝ)] ∧
      (DivRef.fit h m (.list ⟨1, [[4]]⟩)).1 = .ok [((4 : ℝ) : WithTop ℝ)] := by
  intro h m r
  have f5 : (⟨DivStyle.manhattan.distance, ((0 : ℝ) : WithTop ℝ), 1, [[0], [1]]⟩ : Diversity).fit [[5]] 1 =
      (.ok [((5 : ℝ) : WithTop ℝ)], ⟨DivStyle.manhattan.distance, ((5 : ℝ) : WithTop ℝ), 1, [[0], [5]]⟩) := by
    rw [fit_pair 0 0 1 5 (by norm_num) (by norm_num)]; norm_num [abs_of_nonneg, abs_of_neg]
  have f4 : (⟨DivStyle.manhattan.distance, ((0 : ℝ) : WithTop ℝ), 1, [[0], [1]]⟩ : Diversity).fit [[4]] 1 =
      (.ok [((4 : ℝ) : WithTop ℝ)], ⟨DivStyle.manhattan.distance, ((4 : ℝ) : WithTop ℝ), 1, [[0], [4]]⟩) := by
    rw [fit_pair 0 0 1 4 (by norm_num) (by norm_num)]; norm_num [abs_of_nonneg, abs_of_neg]
  have g4 : (⟨DivStyle.manhattan.distance, ((5 : ℝ) : WithTop ℝ), 1, [[0], [1]]⟩ : Diversity).fit [[4]] 1 =
      (.ok [((5 : ℝ) : WithTop ℝ)], ⟨DivStyle.manhattan.distance, ((5 : ℝ) : WithTop ℝ), 1, [[0], [1]]⟩) := by
    rw [fit_pair 5 0 1 4 (by norm_num) (by norm_num)]; norm_num [abs_of_nonneg, abs_of_neg]
  obtain ⟨l1, a1, a2, a3, a4, a5, a6, -⟩ := C166_heap h m 0 rfl (by simp [h]) (.list ⟨1, [[5]]⟩) trivial
  have hl1 := a6 (by simp [h, GridHeap.read])
  subst hl1
  change _ = ((⟨DivStyle.manhattan.distance, ((0 : ℝ) : WithTop ℝ), 1, [[0], [1]]⟩ : Diversity).fit [[5]] 1).1 at a1
  change _ = ((⟨DivStyle.manhattan.distance, ((0 : ℝ) : WithTop ℝ), 1, [[0], [1]]⟩ : Diversity).fit [[5]] 1).2 at a4
  rw [f5] at a1 a4
  have r1 : r.2.2.read 1 = ⟨1, [[0], [1]]⟩ := a5 1 (by simp [h]) (by simp)
  have d1 : r.2.1.distance = DivStyle.manhattan.distance := congrArg Diversity.distance a4
  have d2 : r.2.1.diversity = ((5 : ℝ) : WithTop ℝ) := congrArg Diversity.diversity a4
  have len : 1 < r.2.2.length := by
    by_contra hlt
    have : r.2.2.read 1 = ⟨0, []⟩ := by
      unfold GridHeap.read
      rw [List.getD_eq_getElem?_getD, List.getElem?_eq_none (by omega)]
      rfl
    rw [r1] at this
    simp at this
  obtain ⟨l2, b1, -⟩ := C166_heap r.2.2 (r.2.1.assign (.array 1)) 1 rfl len (.list ⟨1, [[4]]⟩) trivial
  obtain ⟨l3, c1, -⟩ := C166_heap h m 0 rfl (by simp [h]) (.list ⟨1, [[4]]⟩) trivial
  have hv : DivRef.value r.2.2 (r.2.1.assign (.array 1)) 1 = ⟨DivStyle.manhattan.distance, ((5 : ℝ) : WithTop ℝ), 1, [[0], [1]]⟩ := by
    unfold DivRef.value
    rw [r1]
    show (⟨r.2.1.distance, r.2.1.diversity, 1, [[0], [1]]⟩ : Diversity) = _
    rw [d1, d2]
  rw [hv] at b1
  change _ = ((⟨DivStyle.manhattan.distance, ((5 : ℝ) : WithTop ℝ), 1, [[0], [1]]⟩ : Diversity).fit [[4]] 1).1 at b1
  change _ = ((⟨DivStyle.manhattan.distance, ((0 : ℝ) : WithTop ℝ), 1, [[0], [1]]⟩ : Diversity).fit [[4]] 1).1 at c1
  rw [g4] at b1
  rw [f4] at c1
  exact ⟨a1, congrArg Diversity.s a4, congrArg Grid.rows r1, b1, c1⟩

/-- C166.  Two models which share an array: `fit` of one replaces rows of the other, whose diversity remains. -/
theorem C166_shared (h : GridHeap) (a b : DivRef) (l : ℕ) (ha : a.s = .array l) (hb : b.s = .array l) (hl : l < h.length) (hc : (h.read l).cols ≠ 0) (x : GridArg)
    (hx : GridArg.Apart h l x) :
    DivRef.value (DivRef.fit h a x).2.2 b l = { DivRef.value h b l with
      s := ((DivRef.value h a l).fit (GridArg.grid h x).rows (GridArg.grid h x).cols).2.s } ∧ b.s = (DivRef.fit h a x).2.1.s := by
  obtain ⟨l1, a1, a2, a3, a4, a5, a6, -⟩ := C166_heap h a l ha hl x hx
  have := a6 hc
  subst this
  have e1 : ((DivRef.fit h a x).2.2.read l1).rows = _ := congrArg Diversity.s a4
  have e2 : ((DivRef.fit h a x).2.2.read l1).cols = (h.read l1).cols := by
    have : (DivRef.value (DivRef.fit h a x).2.2 (DivRef.fit h a x).2.1 l1).cols = (DivRef.value h a l1).cols := by
      rw [a4]
      unfold Diversity.fit Diversity.sized
      have h0 : (DivRef.value h a l1).cols ≠ 0 := hc
      simp only [h0, if_false]
      have hloop : ∀ (xs : List (List ℝ)) (m : Diversity) (cc : ℕ), (div.loop xs (m, cc)).2.1.cols = m.cols := by
        intro xs
        induction xs with
        | nil => intro m cc; rfl
        | cons y ys ih =>
          intro m cc
          rw [div.loop_cons]
          have : (div.step m cc y).1.cols = m.cols := by
            unfold div.step
            simp only
            split_ifs <;> rfl
          rw [← this]
          exact ih _ _
      split_ifs
      · rfl
      · rfl
      · exact hloop _ _ _
    exact this
  refine ⟨?_, by rw [hb, a2]⟩
  unfold DivRef.value
  rw [e1, e2]
  rfl

private theorem small_rows (a b : ℝ) (ha : |a| ≤ 1000) (hb : |b| ≤ 1000) : ∀ r ∈ [[a], [b]], ¬ NearLargest (r.getD 0 0) := by
  intro r hr
  simp only [List.mem_cons, List.not_mem_nil, or_false] at hr
  rcases hr with rfl | rfl
  · exact (observation_one a ha).2
  · exact (observation_one b hb).2

private theorem self_rows (a b : ℝ) : ∀ r ∈ [[a], [b]], DivStyle.manhattan.distance r r = 0 := by
  intro r hr
  simp only [List.mem_cons, List.not_mem_nil, or_false] at hr
  rcases hr with rfl | rfl <;> simp [manhattan_one]

/-- A model which has observed 0, 1 and 5 in calls of two and one holds 0 and 5. -/
private theorem reach_pair : DivReach DivStyle.manhattan.distance 1 [[0], [1], [5]] ⟨DivStyle.manhattan.distance, ((5 : ℝ) : WithTop ℝ), 1, [[0], [5]]⟩ := by
  have hobs : ∀ r ∈ [[(0 : ℝ)], [1]], Observation 1 r := by
    intro r hr
    simp only [List.mem_cons, List.not_mem_nil, or_false] at hr
    rcases hr with rfl | rfl
    · exact observation_one 0 (by norm_num)
    · exact observation_one 1 (by norm_num)
  obtain ⟨m0, y, m, h1, h2, hr, hc⟩ := div_fit_ok DivStyle.manhattan.distance 1 [[0], [1]] 1 (by simp) (by simp) hobs
  have e1 : m.diversity = 0 := C50_filling _ 1 _ m hr (by simp)
  have e2 := (C51_rows _ 1 _ m hr).2.2 (by simp)
  have e3 := (C51_rows _ 1 _ m hr).1
  have e4 : m.s = [[0], [1]] := by
    rw [← e2]
    exact (List.take_of_length_le (by rw [e3]; simp)).symm
  have e5 : m.distance = DivStyle.manhattan.distance := by
    rcases div_reach hr with ⟨h, -⟩ | ⟨-, cc, hi⟩
    · rw [hc] at h; cases h
    · exact hi.dist
  have e : m = ⟨DivStyle.manhattan.distance, ((0 : ℝ) : WithTop ℝ), 1, [[0], [1]]⟩ := by
    obtain ⟨d, v, c, s⟩ := m
    simp only at e1 e4 e5 hc
    rw [e1, e4, e5, hc]
    rfl
  have f5 : m.fit [[5]] 1 = (.ok [((5 : ℝ) : WithTop ℝ)], ⟨DivStyle.manhattan.distance, ((5 : ℝ) : WithTop ℝ), 1, [[0], [5]]⟩) := by
    rw [e, fit_pair 0 0 1 5 (by norm_num) (by norm_num)]; norm_num [abs_of_nonneg, abs_of_neg]
  refine DivReach.fit [[0], [1]] [[5]] 1 m _ _ hr ?_ f5
  intro r hr
  rw [List.mem_singleton.mp hr]
  exact observation_one 5 (by norm_num)

/-- The hypotheses of `C166_heap` and `C166_shared`, for an array of 0 and 1 and the list of 5. -/
example : let h : GridHeap := [⟨1, [[0], [1]]⟩]
    let a : DivRef := ⟨DivStyle.manhattan.distance, 0, .array 0⟩
    let b : DivRef := ⟨DivStyle.euclidean.distance, 0, .array 0⟩
    (DivRef.value (DivRef.fit h a (.list ⟨1, [[5]]⟩)).2.2 b 0).s = [[0], [5]] := by
  intro h a b
  rw [(C166_shared h a b 0 rfl rfl (by simp [h]) (by simp [h, GridHeap.read]) (.list ⟨1, [[5]]⟩) trivial).1]
  have f5 := fit_pair 0 0 1 5 (by norm_num) (by norm_num)
  have e : (DivRef.value h a 0) = ⟨DivStyle.manhattan.distance, ((0 : ℝ) : WithTop ℝ), 1, [[0], [1]]⟩ := rfl
  simp only [GridArg.grid, e, f5]
  norm_num [abs_of_nonneg, abs_of_neg]

/-- `C166_reference`: a call with a list, one with the state itself and one which is refused. -/
example : let h : GridHeap := [⟨1, [[0], [1]]⟩]
    (fitRefs [.list ⟨1, [[5]]⟩, .array 0, .list ⟨2, [[1, 2]]⟩] ⟨DivStyle.manhattan.distance, 0, .array 0⟩ h).1.s = .array 0 := by
  intro h
  exact (C166_reference _ _ h 0 rfl (by simp [h]) (by simp [h, GridHeap.read])).1

/-- `C166_measure`: the rows 0 and 3, assigned to a new model, have the diversity 3. -/
example : let h : GridHeap := [⟨1, [[0], [3]]⟩]
    (DivRef.fit h ⟨DivStyle.manhattan.distance, 0, .array 0⟩ (.array 0)).1 = .ok [((3 : ℝ) : WithTop ℝ), ((3 : ℝ) : WithTop ℝ)] := by
  intro h
  have := (C166_measure h ⟨DivStyle.manhattan.distance, 0, .array 0⟩ 0 rfl (by simp [h]) (by simp [h, GridHeap.read]) (by simp [h, GridHeap.read])
    (small_rows 0 3 (by norm_num) (by norm_num)) (self_rows 0 3) le_rfl ((3 : ℝ) : WithTop ℝ) (by
      have := isMinDistance_pair DivStyle.manhattan.distance [0] [3]
      rw [manhattan_one] at this
      norm_num at this
      exact this)).1
  rw [this]
  have : max (0 : WithTop ℝ) ((3 : ℝ) : WithTop ℝ) = ((3 : ℝ) : WithTop ℝ) := max_eq_right (by exact_mod_cast (by norm_num : (0 : ℝ) ≤ 3))
  simp only [this]
  rfl

/-- `C166_restored`: the model of 0 and 5 above, saved at place 1, restored by a new instance of order 7. -/
example : let h : GridHeap := [⟨1, [[0], [5]]⟩, ⟨1, [[0], [5]]⟩]
    let m : DivRef := ⟨DivStyle.manhattan.distance, ((5 : ℝ) : WithTop ℝ), .array 0⟩
    ∃ n h', DivRef.new h (some DivStyle.manhattan.distance) 7 = (.ok n, h') ∧
      DivRef.value (DivRef.fit h' (n.assign (.array 1)) (.array 1)).2.2 (DivRef.fit h' (n.assign (.array 1)) (.array 1)).2.1 1 = DivRef.value h m 0 := by
  intro h m
  refine ⟨_, _, rfl, ?_⟩
  exact C166_restored DivStyle.manhattan.distance 1 [[0], [1], [5]] h m 0 reach_pair (by simp [m]) (self_rows 0 5) 7 _ _ rfl 1 rfl (by simp [h])

/-- `C166_stale`: the numbers of the witness. -/
example : let h : GridHeap := [⟨1, [[0], [1]]⟩]
    let m : DivRef := ⟨DivStyle.manhattan.distance, ((5 : ℝ) : WithTop ℝ), .list⟩
    (DivRef.value h (m.assign (.array 0)) 0).fit [[4]] 1 = (.ok [((5 : ℝ) : WithTop ℝ)], DivRef.value h (m.assign (.array 0)) 0) := by
  intro h m
  refine C166_stale h m 0 (by simp [h, GridHeap.read]) (small_rows 0 1 (by norm_num) (by norm_num)) [4] ?_
  intro k hk
  match k, hk with
  | 0, _ =>
    refine ⟨_, ?_, isMinDistance_pair DivStyle.manhattan.distance [4] [1]⟩
    rw [manhattan_one]
    exact WithTop.coe_le_coe.mpr (by norm_num [abs_of_nonneg])
  | 1, _ =>
    refine ⟨_, ?_, isMinDistance_pair DivStyle.manhattan.distance [0] [4]⟩
    rw [manhattan_one]
    exact WithTop.coe_le_coe.mpr (by norm_num [abs_of_nonneg])
  | k + 2, hk => simp [h, GridHeap.read] at hk

/-- `C166_restart`: a model of two rows, cleared and given three rows again. -/
example : ∃ m1 h1, DivRef.clear [⟨1, [[0], [1]]⟩] ⟨DivStyle.manhattan.distance, ((5 : ℝ) : WithTop ℝ), .array 0⟩ = (.ok (), m1, h1) ∧
    Diversity.new (some DivStyle.manhattan.distance) 2 = .ok (DivRef.value (h1 ++ [⟨0, List.replicate 3 []⟩]) (m1.assign (.array h1.length)) h1.length) :=
  C166_restart [⟨1, [[0], [1]]⟩] ⟨DivStyle.manhattan.distance, ((5 : ℝ) : WithTop ℝ), .array 0⟩ 0 rfl 2

/-- `C166_list`: an observation of two numbers raises `AttributeError`. -/
example (m : DivRef) : (DivRef.fit [] (m.assign .list) (.list ⟨2, [[1, 2]]⟩)).1 = .error .other := by
  rw [(C166_list [] m (.list ⟨2, [[1, 2]]⟩)).1]
  simp [GridArg.place, GridHeap.read]

end Verif.Props
