import Verif.Props.Diversity

/-!
Property C122: fit and clear of a diversity model in any order (diamondback/models/diversity_model.py).
-/

namespace Verif.Props

open Spec

/-- A call on a diversity model. -/
inductive DivCall where
  | fit (x : List (List ℝ)) (cols : ℕ)
  | clear

/-- The model after a call; exceptions are caught by the caller. -/
noncomputable def DivCall.run (m : Diversity) : DivCall → Diversity
  | .fit x cols => (m.fit x cols).2
  | .clear => m.clear

/-- Rows and columns of the state, as two counters: `clear` leaves as many rows as there were columns, and the first observations
after it set the columns. -/
def shapeAfter : ℕ × ℕ → DivCall → ℕ × ℕ
  | (_, c), .clear => (c, 0)
  | (r, c), .fit x cols => if x = [] ∨ cols = 0 then (r, c) else if c = 0 then (r, cols) else (r, c)

/-- The loop keeps the shape of the state, and the distance. -/
private theorem loop_shape (xs : List (List ℝ)) : ∀ (m : Diversity) (cc : ℕ), (div.loop xs (m, cc)).2.1.s.length = m.s.length ∧
    (div.loop xs (m, cc)).2.1.cols = m.cols ∧ (div.loop xs (m, cc)).1.length = xs.length := by
  induction xs with
  | nil => intro m cc; exact ⟨rfl, rfl, rfl⟩
  | cons x xs ih =>
    intro m cc
    rw [div.loop]
    simp only [List.length_cons]
    split_ifs with h1 h2
    · obtain ⟨a, b, c⟩ := ih { m with s := m.s.set cc x } (cc + 1)
      exact ⟨by rw [a]; simp, b, by rw [c]⟩
    · obtain ⟨a, b, c⟩ := ih { m with diversity := (div.best m.distance m.s cc x m.diversity).1, s := m.s.set ((div.best m.distance m.s cc x m.diversity).2.getD (m.s.length - 1)) x } cc
      exact ⟨by rw [a]; simp, b, by rw [c]⟩
    · obtain ⟨a, b, c⟩ := ih m cc
      exact ⟨a, b, by rw [c]⟩

/-- C122.  The shape of the state after any calls, in any order, whether or not they raise. -/
theorem C122_shape (calls : List DivCall) : ∀ m : Diversity, ((calls.foldl DivCall.run m).s.length, (calls.foldl DivCall.run m).cols) =
    calls.foldl shapeAfter (m.s.length, m.cols) := by
  induction calls with
  | nil => intro m; rfl
  | cons c t ih =>
    intro m
    rw [List.foldl_cons, List.foldl_cons, ih]
    congr 1
    cases c with
    | clear => simp [DivCall.run, Diversity.clear, shapeAfter]
    | fit x cols =>
      simp only [DivCall.run, Diversity.fit, shapeAfter]
      by_cases h1 : x = [] ∨ cols = 0
      · rw [if_pos h1, if_pos h1]
      · rw [if_neg h1, if_neg h1]
        by_cases h0 : m.cols = 0
        · obtain ⟨a, b, -⟩ := loop_shape x { m with cols := cols, s := List.replicate m.s.length (List.replicate cols div.fmax) }
            (div.count (List.replicate m.s.length (List.replicate cols div.fmax)))
          simp only [Diversity.sized, h0, if_true, ne_eq, not_true_eq_false, if_false]
          rw [a, b]
          simp
        · simp only [Diversity.sized, h0, if_false]
          by_cases h2 : cols = m.cols
          · obtain ⟨a, b, -⟩ := loop_shape x m (div.count m.s)
            simp only [ne_eq, h2, not_true_eq_false, if_false]
            rw [a, b]
          · simp [h2]

/-- C122.  After any calls observations are accepted: of any dimension after construction or `clear`, of the dimension of the others otherwise. -/
theorem C122_accepts (m : Diversity) (calls : List DivCall) (x : List (List ℝ)) (cols : ℕ) (hx : x ≠ []) (hc : cols ≠ 0)
    (h : (calls.foldl shapeAfter (m.s.length, m.cols)).2 = 0 ∨ (calls.foldl shapeAfter (m.s.length, m.cols)).2 = cols) :
    ∃ y, ((calls.foldl DivCall.run m).fit x cols).1 = .ok y ∧ y.length = x.length := by
  rw [← C122_shape calls m] at h
  generalize calls.foldl DivCall.run m = m' at h
  simp only at h
  unfold Diversity.fit
  rw [if_neg (by tauto)]
  have hs : (m'.sized cols).cols = cols := by
    unfold Diversity.sized
    split_ifs with h0
    · rfl
    · tauto
  simp only [hs, ne_eq, not_true_eq_false, if_false]
  exact ⟨_, rfl, (loop_shape x _ _).2.2⟩

private theorem loop_empty (xs : List (List ℝ)) (m : Diversity) (hs : m.s = []) : div.loop xs (m, 0) = (List.replicate xs.length m.diversity, (m, 0)) := by
  induction xs with
  | nil => rfl
  | cons x xs ih =>
    rw [div.loop]
    simp only [hs, List.length_nil, lt_irrefl, if_false]
    have hb : div.best m.distance [] 0 x m.diversity = (m.diversity, none) := rfl
    rw [hb]
    simp only [gt_iff_lt, lt_irrefl, if_false]
    rw [ih]
    rfl

/-- A state without rows remains without rows. -/
private theorem fit_empty (m : Diversity) (hs : m.s = []) (x : List (List ℝ)) (cols : ℕ) : ((m.fit x cols).2.s = [] ∧ (m.fit x cols).2.diversity = m.diversity) ∧
    ∀ y, (m.fit x cols).1 = .ok y → y = List.replicate x.length m.diversity := by
  unfold Diversity.fit
  by_cases h1 : x = [] ∨ cols = 0
  · rw [if_pos h1]
    exact ⟨⟨hs, rfl⟩, fun y h => by cases h⟩
  rw [if_neg h1]
  have e1 : (m.sized cols).s = [] := by
    unfold Diversity.sized
    split_ifs <;> simp [hs]
  have e2 : (m.sized cols).diversity = m.diversity := by
    unfold Diversity.sized
    split_ifs <;> rfl
  generalize m.sized cols = m1 at e1 e2
  simp only
  split_ifs with h2
  · exact ⟨⟨e1, e2⟩, fun y h => by cases h⟩
  · have hcount : div.count m1.s = 0 := by rw [e1]; rfl
    rw [hcount, loop_empty x m1 e1]
    refine ⟨⟨e1, e2⟩, fun y h => ?_⟩
    have := Except.ok.inj h
    rw [← this, e2]

/-- C122.  A model cleared before its first observations, or cleared twice, does not learn: whatever is fitted and however often, the
state holds nothing and every diversity is zero. -/
theorem C122_dead (m : Diversity) (h0 : m.cols = 0) (fits : List (List (List ℝ) × ℕ)) (x : List (List ℝ)) (cols : ℕ) :
    let m1 := (fits.map fun c => DivCall.fit c.1 c.2).foldl DivCall.run m.clear
    m1.s = [] ∧ ∀ y, (m1.fit x cols).1 = .ok y → y = List.replicate x.length 0 := by
  have key : ∀ (fits : List (List (List ℝ) × ℕ)) (m : Diversity), m.s = [] → m.diversity = 0 →
      ((fits.map fun c => DivCall.fit c.1 c.2).foldl DivCall.run m).s = [] ∧ ((fits.map fun c => DivCall.fit c.1 c.2).foldl DivCall.run m).diversity = 0 := by
    intro fits
    induction fits with
    | nil => intro m a b; exact ⟨a, b⟩
    | cons c t ih =>
      intro m a b
      obtain ⟨⟨p, q⟩, -⟩ := fit_empty m a c.1 c.2
      exact ih _ p (by show (m.fit c.1 c.2).2.diversity = 0; rw [q, b])
  obtain ⟨a, b⟩ := key fits m.clear (by simp [Diversity.clear, h0]) rfl
  refine ⟨a, fun y hy => ?_⟩
  rw [(fit_empty _ a x cols).2 y hy, b]

/-- C122.  So calling `clear` twice is not the same as calling it once. -/
theorem C122_twice (m : Diversity) : m.clear.cols = 0 ∧ m.clear.clear.s = [] ∧ m.clear.s.length = m.cols := by
  simp [Diversity.clear]

example := C122_twice ⟨DivStyle.manhattan.distance, 0, 2, [[0, 1], [2, 3], [4, 9]]⟩

/-- C122.  A model which has observed `cols` numbers at a time, cleared, is the model constructed with the order `cols - 1`: the order it was constructed
with is forgotten.  This holds for the model which did not learn as well. -/
theorem C122_order (m : Diversity) (x : List (List ℝ)) (cols : ℕ) (hx : x ≠ []) (hc : cols ≠ 0) (h0 : m.cols = 0) :
    Diversity.new (some m.distance) ((cols : ℤ) - 1) = .ok (m.fit x cols).2.clear := by
  have hd : ∀ (xs : List (List ℝ)) (m : Diversity) (cc : ℕ), (div.loop xs (m, cc)).2.1.distance = m.distance := by
    intro xs
    induction xs with
    | nil => intro m cc; rfl
    | cons x xs ih =>
      intro m cc
      rw [div.loop]
      simp only
      split_ifs <;> rw [ih]
  have e : (m.fit x cols).2.cols = cols ∧ (m.fit x cols).2.distance = m.distance := by
    unfold Diversity.fit
    rw [if_neg (by tauto)]
    simp only [Diversity.sized, h0, if_true, ne_eq, not_true_eq_false, if_false]
    exact ⟨(loop_shape _ _ _).2.1, hd _ _ _⟩
  have := C52_clear_partial (m.fit x cols).2 (by omega)
  rwa [e.1, e.2] at this

/-- A model of order two, cleared at once, given three observations: the hypotheses are met and nothing is kept. -/
example : ∃ m, Diversity.new (some DivStyle.euclidean.distance) 2 = .ok m ∧ m.s.length = 3 ∧ m.cols = 0 ∧
    ∃ y, (m.clear.fit [[0], [5], [9]] 1).1 = .ok y ∧ y = [0, 0, 0] ∧ (m.clear.fit [[0], [5], [9]] 1).2.s = [] := by
  refine ⟨_, rfl, rfl, rfl, ?_⟩
  obtain ⟨y, h1, -⟩ := C122_accepts { distance := DivStyle.euclidean.distance, diversity := 0, cols := 0, s := List.replicate 3 [] } [.clear] [[0], [5], [9]] 1
    (by simp) (by simp) (.inl rfl)
  refine ⟨y, h1, ?_, ?_⟩
  · exact (C122_dead { distance := DivStyle.euclidean.distance, diversity := 0, cols := 0, s := List.replicate 3 [] } rfl [] [[0], [5], [9]] 1).2 y h1
  · exact (C122_dead { distance := DivStyle.euclidean.distance, diversity := 0, cols := 0, s := List.replicate 3 [] } rfl [([[0], [5], [9]], 1)] [] 1).1

/-- The shape after fit, clear, fit and clear with observations of two and then of five numbers. -/
example (x : List (List ℝ)) (hx : x ≠ []) : [DivCall.fit x 2, .clear, .fit x 5, .clear].foldl shapeAfter (4, 0) = (5, 0) := by
  simp [shapeAfter, hx]

end Verif.Props
