import Verif.Lemmas.Diversity
import Mathlib.Tactic.NormNum
import Mathlib.Tactic.IntervalCases
import Mathlib.Data.List.TakeWhile

/- Properties of DiversityModel (C50-C52). -/

namespace Verif.Props

open Spec

/-- An observation: a row of `cols > 0` numbers, the first of which is not within 0.001 % of the largest float. -/
def Observation (cols : ℕ) (r : List ℝ) : Prop := r.length = cols ∧ ¬ NearLargest (r.getD 0 0)

theorem Observation.occupied {cols : ℕ} {r : List ℝ} (h : Observation cols r) : ¬ div.vacant (r.getD 0 0) := fun hv => h.2 ((div.vacant_iff _).mp hv)

/-- The models that a constructor and calls of `fit` lead to, with all accepted observations in their order. -/
inductive DivReach (d : List ℝ → List ℝ → WithTop ℝ) (order : ℕ) : List (List ℝ) → Diversity → Prop
  | new (m : Diversity) : Diversity.new (some d) order = .ok m → DivReach d order [] m
  | fit (obs x : List (List ℝ)) (cols : ℕ) (m m' : Diversity) (y : List (WithTop ℝ)) : DivReach d order obs m → (∀ r ∈ x, Observation cols r) →
      m.fit x cols = (.ok y, m') → DivReach d order (obs ++ x) m'
  | fail (obs x : List (List ℝ)) (cols : ℕ) (m m' : Diversity) (e : PyErr) : DivReach d order obs m → m.fit x cols = (.error e, m') → DivReach d order obs m'

/-- What holds of a sized state with `cc` occupied rows. -/
structure DivInv (d : List ℝ → List ℝ → WithTop ℝ) (n : ℕ) (obs : List (List ℝ)) (m : Diversity) (cc : ℕ) : Prop where
  dist : m.distance = d
  len : m.s.length = n
  cc : cc = min obs.length n
  ok : ∀ r ∈ obs, ¬ div.vacant (r.getD 0 0)
  part : obs.length ≤ n → m.diversity = 0 ∧ ∃ k, m.s = obs ++ List.replicate k (List.replicate m.cols div.fmax)
  mem : n ≤ obs.length → ∀ r ∈ m.s, r ∈ obs
  sep : m.diversity = 0 ∨ IsMinDistance d m.s m.diversity

theorem DivInv.step {d : List ℝ → List ℝ → WithTop ℝ} {n : ℕ} {obs : List (List ℝ)} {m : Diversity} {cc : ℕ} (h : DivInv d n obs m cc) (x : List ℝ)
    (hx : ¬ div.vacant (x.getD 0 0)) : DivInv d n (obs ++ [x]) (div.step m cc x).1 (div.step m cc x).2 ∧ (div.step m cc x).1.cols = m.cols := by
  have hlen := h.len
  have hok : ∀ r ∈ obs ++ [x], ¬ div.vacant (r.getD 0 0) := by
    intro r hr
    rcases List.mem_append.mp hr with hr | hr
    · exact h.ok r hr
    · rw [List.mem_singleton.mp hr]; exact hx
  unfold div.step
  simp only
  by_cases hc : cc < m.s.length
  · rw [if_pos hc]
    have hcc := h.cc
    have hlt : obs.length < n := by omega
    have ecc : cc = obs.length := by omega
    obtain ⟨h0, k, hk⟩ := h.part (by omega)
    have hkl : n = obs.length + k := by rw [← hlen, hk]; simp
    obtain ⟨k', rfl⟩ : ∃ k', k = k' + 1 := ⟨k - 1, by omega⟩
    have es : m.s.set cc x = obs ++ [x] ++ List.replicate k' (List.replicate m.cols div.fmax) := by
      rw [hk, ecc, List.set_append_right _ _ (le_refl _), Nat.sub_self, List.replicate_succ, List.set_cons_zero]; simp
    refine ⟨⟨h.dist, by simpa using hlen, by simp; omega, hok, fun _ => ⟨h0, k', es⟩, ?_, Or.inl h0⟩, rfl⟩
    intro hn r hr
    have : k' = 0 := by simp at hn; omega
    subst this
    rw [es] at hr
    simpa using hr
  · rw [if_neg hc]
    have hcc := h.cc
    have hcn : cc = m.s.length := by omega
    have hmem : ∀ k, ∀ r ∈ m.s.set k x, r ∈ obs ++ [x] := by
      intro k r hr
      rcases List.mem_or_eq_of_mem_set hr with hr | rfl
      · exact List.mem_append_left _ (h.mem (by omega) r hr)
      · simp
    obtain ⟨b1, b2, b3⟩ := div.best_spec m.distance m.s x m.diversity cc hcn
    rcases b3 with b3 | ⟨k, hk, v, b3, b4, b5, b6⟩
    · rw [b3, if_neg (lt_irrefl _)]
      exact ⟨⟨h.dist, hlen, by simp; omega, hok, fun hn => by simp at hn; omega, fun _ r hr => List.mem_append_left _ (h.mem (by omega) r hr), h.sep⟩, rfl⟩
    · rw [b3, if_pos b4]
      simp only [Option.getD_some]
      refine ⟨⟨h.dist, by simpa using hlen, by simp; omega, hok, fun hn => by simp at hn; omega, fun _ => hmem k, Or.inr ?_⟩, ?_⟩
      swap
      · trivial
      rw [← h.dist]; exact b5

theorem DivInv.loop {d : List ℝ → List ℝ → WithTop ℝ} {n : ℕ} (xs : List (List ℝ)) : ∀ {obs : List (List ℝ)} {m : Diversity} {cc : ℕ}, DivInv d n obs m cc →
    (∀ x ∈ xs, ¬ div.vacant (x.getD 0 0)) → DivInv d n (obs ++ xs) (div.loop xs (m, cc)).2.1 (div.loop xs (m, cc)).2.2 ∧
      (div.loop xs (m, cc)).2.1.cols = m.cols := by
  induction xs with
  | nil => intro obs m cc h _; simpa [div.loop] using h
  | cons x xs ih =>
    intro obs m cc h hx
    rw [div.loop_cons]
    obtain ⟨h1, h2⟩ := h.step x (hx x (by simp))
    obtain ⟨h3, h4⟩ := ih h1 (fun y hy => hx y (by simp [hy]))
    rw [List.append_assoc] at h3
    exact ⟨h3, by rw [← h2]; exact h4⟩

theorem DivInv.count {d : List ℝ → List ℝ → WithTop ℝ} {n : ℕ} {obs : List (List ℝ)} {m : Diversity} {cc : ℕ} (h : DivInv d n obs m cc) (hc : m.cols ≠ 0) :
    div.count m.s = cc := by
  classical
  have hcc := h.cc
  have hlen := h.len
  unfold div.count
  by_cases hn : n ≤ obs.length
  · rw [List.takeWhile_eq_self_iff.mpr]
    · omega
    · intro r hr
      simpa using h.ok r (h.mem hn r hr)
  · obtain ⟨-, k, hk⟩ := h.part (by omega)
    rw [hk, List.takeWhile_append_of_pos (by intro r hr; simpa using h.ok r hr)]
    have : List.takeWhile (fun r => decide ¬ div.vacant (r.getD 0 0)) (List.replicate k (List.replicate m.cols div.fmax)) = [] := by
      cases k with
      | zero => rfl
      | succ k =>
        rw [List.replicate_succ, List.takeWhile_cons_of_neg]
        obtain ⟨c, hcc⟩ : ∃ c, m.cols = c + 1 := ⟨m.cols - 1, by omega⟩
        rw [hcc, List.replicate_succ]
        simpa using div.vacant_fmax
    rw [this, List.append_nil]
    omega

/-- What holds of every reachable model. -/
theorem div_reach {d : List ℝ → List ℝ → WithTop ℝ} {order : ℕ} {obs : List (List ℝ)} {m : Diversity} (h : DivReach d order obs m) :
    (m.cols = 0 ∧ obs = [] ∧ m = { distance := d, diversity := 0, cols := 0, s := List.replicate (order + 1) [] }) ∨
      (m.cols ≠ 0 ∧ ∃ cc, DivInv d (order + 1) obs m cc) := by
  induction h with
  | new m h =>
    left
    unfold Diversity.new at h
    simp only [Nat.cast_nonneg, not_lt.mpr, if_false] at h
    cases h
    exact ⟨rfl, rfl, by simp⟩
  | fit obs x cols m m' y hr hx h ih =>
    right
    unfold Diversity.fit at h
    split at h
    · simp at h
    · rename_i hne
      push Not at hne
      simp only at h
      split at h
      · simp at h
      · rename_i hcols
        push Not at hcols
        simp only [Prod.mk.injEq, Except.ok.injEq] at h
        have hxs : ∀ r ∈ x, ¬ div.vacant (r.getD 0 0) := fun r hr => (hx r hr).occupied
        rcases ih with ⟨h0, ho, hm⟩ | ⟨h0, cc, hinv⟩
        · subst ho
          rw [Diversity.sized, if_pos h0] at h hcols
          have hi : DivInv d (order + 1) [] { m with cols := cols, s := List.replicate m.s.length (List.replicate cols div.fmax) } 0 := by
            subst hm
            exact ⟨rfl, by simp, by simp, by simp, fun _ => ⟨rfl, order + 1, by simp⟩, fun hn => by simp at hn, Or.inl rfl⟩
          have hcnt := hi.count hne.2
          have hl := DivInv.loop x hi hxs
          rw [hcnt] at h
          rw [h.2] at hl
          exact ⟨by rw [hl.2]; exact hne.2, _, hl.1⟩
        · rw [Diversity.sized, if_neg h0] at h hcols
          have hcnt := hinv.count h0
          have hl := DivInv.loop x hinv hxs
          rw [hcnt] at h
          rw [h.2] at hl
          exact ⟨by rw [hl.2]; exact h0, _, hl.1⟩
  | fail obs x cols m m' e hr h ih =>
    unfold Diversity.fit at h
    split at h
    · simp only [Prod.mk.injEq, Except.error.injEq] at h
      rw [← h.2]; exact ih
    · rename_i hne
      push Not at hne
      simp only at h
      split at h
      · rename_i hcols
        rcases ih with ⟨h0, ho, hm⟩ | ⟨h0, cc, hinv⟩
        · rw [Diversity.sized, if_pos h0] at hcols; simp at hcols
        · rw [Diversity.sized, if_neg h0] at h
          simp only [Prod.mk.injEq, Except.error.injEq] at h
          rw [← h.2]; exact Or.inr ⟨h0, cc, hinv⟩
      · simp at h

/-- C50: the diversities returned by one call, preceded by the diversity before the call, never decrease; there is one for each observation, and the
last one is the diversity of the model after the call.  For every state, every distance, every observation. -/
theorem C50_monotone (m m' : Diversity) (x : List (List ℝ)) (cols : ℕ) (y : List (WithTop ℝ)) (h : m.fit x cols = (.ok y, m')) :
    (m.diversity :: y).Pairwise (· ≤ ·) ∧ y.length = x.length ∧ (m.diversity :: y).getLast? = some m'.diversity := by
  unfold Diversity.fit at h
  split at h
  · simp at h
  · simp only at h
    split at h
    · simp at h
    · simp only [Prod.mk.injEq, Except.ok.injEq] at h
      obtain ⟨h1, h2⟩ := h
      have e : (m.sized cols).diversity = m.diversity := by unfold Diversity.sized; split <;> rfl
      obtain ⟨q1, q2⟩ := div.loop_mono x (m.sized cols) (div.count (m.sized cols).s)
      rw [e, h1] at q1 q2
      rw [h2] at q2
      exact ⟨q1, by rw [← h1, div.loop_length], q2⟩

/-- Calls of `fit` one after the other: all returned diversities (a rejected call returns none) and the model. -/
noncomputable def fitAll : List (List (List ℝ) × ℕ) → Diversity → List (WithTop ℝ) × Diversity
  | [], m => ([], m)
  | (x, cols) :: t, m =>
    let r := m.fit x cols
    let q := fitAll t r.2
    (match r.1 with | .ok y => y ++ q.1 | .error _ => q.1, q.2)

/-- C50: over any history of calls the returned diversities never decrease, and are never negative for a new model. -/
theorem C50_history (calls : List (List (List ℝ) × ℕ)) : ∀ m, (m.diversity :: (fitAll calls m).1).Pairwise (· ≤ ·) := by
  induction calls with
  | nil => intro m; simp [fitAll]
  | cons c t ih =>
    intro m
    obtain ⟨x, cols⟩ := c
    have hq := ih (m.fit x cols).2
    rw [fitAll]
    simp only
    cases hr : (m.fit x cols).1 with
    | error e =>
      simp only
      have : (m.fit x cols).2.diversity = m.diversity := by
        unfold Diversity.fit at hr ⊢
        split
        · rfl
        · rename_i hne
          rw [if_neg hne] at hr
          simp only at hr ⊢
          split at hr
          · rename_i hc
            rw [if_pos hc]; simp only [Diversity.sized]; split <;> rfl
          · simp at hr
      rw [this] at hq
      exact hq
    | ok y =>
      simp only
      obtain ⟨h1, -, h3⟩ := C50_monotone m (m.fit x cols).2 x cols y (by rw [← hr])
      rw [← List.cons_append, List.pairwise_append]
      refine ⟨h1, (List.pairwise_cons.mp hq).2, ?_⟩
      intro a ha b hb
      have hb' := (List.pairwise_cons.mp hq).1 b hb
      refine le_trans ?_ hb'
      obtain ⟨l, hl⟩ : ∃ l, m.diversity :: y = l ++ [(m.fit x cols).2.diversity] := by
        have hne : m.diversity :: y ≠ [] := by simp
        refine ⟨(m.diversity :: y).dropLast, ?_⟩
        rw [List.getLast?_eq_some_getLast hne] at h3
        rw [← Option.some.inj h3, List.dropLast_append_getLast]
      rw [hl] at ha h1
      rw [List.pairwise_append] at h1
      rcases List.mem_append.mp ha with ha | ha
      · exact h1.2.2 a ha _ (by simp)
      · rw [List.mem_singleton.mp ha]

example (m : Diversity) := C50_history [([[0, 1], [2, 3]], 2), ([[5, 5]], 2)] m

/-- C50: until more observations than the state has rows have been seen, the diversity is zero. -/
theorem C50_filling (d : List ℝ → List ℝ → WithTop ℝ) (order : ℕ) (obs : List (List ℝ)) (m : Diversity) (h : DivReach d order obs m)
    (hn : obs.length ≤ order + 1) : m.diversity = 0 := by
  rcases div_reach h with ⟨-, -, h⟩ | ⟨-, cc, h⟩
  · rw [h]
  · exact (h.part hn).1

/-- C50: a positive diversity is the minimum distance between the rows of the state; it is reached by a pair, or infinite with a single row. -/
theorem C50_separated (d : List ℝ → List ℝ → WithTop ℝ) (order : ℕ) (obs : List (List ℝ)) (m : Diversity) (h : DivReach d order obs m)
    (hpos : m.diversity ≠ 0) : IsMinDistance d m.s m.diversity := by
  rcases div_reach h with ⟨-, -, h⟩ | ⟨-, cc, h⟩
  · rw [h] at hpos; simp at hpos
  · exact h.sep.resolve_left hpos

/-- C50: the four distances are symmetric, not negative, and zero between equal rows of at least one number. -/
theorem C50_distances (style : DivStyle) (x y : List ℝ) (hl : x.length = y.length) (hx : x ≠ []) :
    style.distance x y = style.distance y x ∧ 0 ≤ style.distance x y ∧ style.distance x x = 0 := by
  have hsym : div.gap x y = div.gap y x := by
    unfold div.gap
    rw [List.zipWith_comm]
    congr 1
    funext a b
    exact abs_sub_comm b a
  have hnn : ∀ v ∈ div.gap x y, 0 ≤ v := by
    intro v hv
    unfold div.gap at hv
    rw [List.mem_iff_getElem] at hv
    obtain ⟨i, hi, rfl⟩ := hv
    rw [List.getElem_zipWith]
    exact abs_nonneg _
  have hself : div.gap x x = List.replicate x.length 0 := by
    unfold div.gap
    rw [List.zipWith_self]
    simp
  have hmax : ∀ (l : List ℝ) (a : ℝ), 0 ≤ a → 0 ≤ l.foldl max a := by
    intro l
    induction l with
    | nil => intro a h; exact h
    | cons b l ih => intro a h; exact ih _ (h.trans (le_max_left _ _))
  have hrep : ∀ n, (List.replicate n (0 : ℝ)).foldl max 0 = 0 := by
    intro n
    induction n with
    | zero => rfl
    | succ n ih => rw [List.replicate_succ, List.foldl_cons, max_self, ih]
  have hpos : 0 < x.length := List.length_pos_of_ne_nil hx
  cases style
  · refine ⟨by simp only [DivStyle.distance, hsym], ?_, ?_⟩
    · exact WithTop.coe_nonneg.mpr (hmax _ 0 (le_refl _))
    · simp only [DivStyle.distance, hself, hrep]; rfl
  · refine ⟨by simp only [DivStyle.distance, hsym], ?_, ?_⟩
    · exact WithTop.coe_nonneg.mpr (Real.sqrt_nonneg _)
    · simp [DivStyle.distance, hself]
  · refine ⟨by simp only [DivStyle.distance, hsym, hl], ?_, ?_⟩
    · exact WithTop.coe_nonneg.mpr (Real.rpow_nonneg (List.prod_nonneg hnn) _)
    · simp only [DivStyle.distance, hself, List.prod_replicate]
      rw [zero_pow (by omega), Real.zero_rpow (by positivity)]; rfl
  · refine ⟨by simp only [DivStyle.distance, hsym], ?_, ?_⟩
    · exact WithTop.coe_nonneg.mpr (List.sum_nonneg hnn)
    · simp [DivStyle.distance, hself]

example := C50_distances .euclidean [0, 3] [4, 0] rfl (by simp)

/-- C51: with at least as many observations as rows, every row of the state is an observation; before that the state holds all of them in order. -/
theorem C51_rows (d : List ℝ → List ℝ → WithTop ℝ) (order : ℕ) (obs : List (List ℝ)) (m : Diversity) (h : DivReach d order obs m) :
    m.s.length = order + 1 ∧ (order + 1 ≤ obs.length → ∀ r ∈ m.s, r ∈ obs) ∧ (obs.length ≤ order + 1 → m.s.take obs.length = obs) := by
  rcases div_reach h with ⟨-, ho, h⟩ | ⟨-, cc, h⟩
  · rw [h, ho]; simp
  · refine ⟨h.len, h.mem, fun hn => ?_⟩
    obtain ⟨-, k, hk⟩ := h.part hn
    rw [hk]; simp

/-- C51: an observation that comes to a full state replaces a row only if the minimum distance after the replacement exceeds the recorded
diversity; then no other row would have given more, and no earlier row as much.  Otherwise no replacement would have exceeded it, and the state stays.

Full claim: it replaces a row only if that strictly increases the minimum distance of the state.  That fails for the first replacement, see
`C51_violation`, since the recorded diversity is zero until then; it holds afterwards, see `C51_increases`. -/
theorem C51_greedy_partial (d : List ℝ → List ℝ → WithTop ℝ) (order : ℕ) (obs : List (List ℝ)) (m : Diversity) (h : DivReach d order obs m)
    (hn : order + 1 ≤ obs.length) (x : List ℝ) (cols : ℕ) (hc : cols = m.cols) :
    ∃ m', m.fit [x] cols = (.ok [m'.diversity], m') ∧
      ((m' = m ∧ ∀ k < order + 1, ∀ v, IsMinDistance d (m.s.set k x) v → v ≤ m.diversity) ∨
        ∃ k < order + 1, m'.s = m.s.set k x ∧ m.diversity < m'.diversity ∧ IsMinDistance d m'.s m'.diversity ∧
          (∀ k' < order + 1, ∀ v, IsMinDistance d (m.s.set k' x) v → v ≤ m'.diversity) ∧
          (∀ k' < k, ∀ v, IsMinDistance d (m.s.set k' x) v → v < m'.diversity)) := by
  rcases div_reach h with ⟨-, ho, -⟩ | ⟨h0, cc, hi⟩
  · rw [ho] at hn; simp at hn
  · have hcnt := hi.count h0
    have hcc := hi.cc
    have hlen := hi.len
    refine ⟨(div.step m cc x).1, ?_, ?_⟩
    · unfold Diversity.fit
      rw [if_neg (by push Not; exact ⟨by simp, by rw [hc]; exact h0⟩)]
      simp only
      rw [Diversity.sized, if_neg h0, if_neg (by simpa using hc), hcnt, div.loop_cons]
      simp [div.loop]
    · unfold div.step
      simp only
      rw [if_neg (by omega)]
      obtain ⟨b1, b2, b3⟩ := div.best_spec m.distance m.s x m.diversity cc (by omega)
      rw [hi.dist] at b1 b2 b3 ⊢
      rcases b3 with b3 | ⟨k, hk, v, b3, b4, b5, b6⟩
      · left
        rw [b3, if_neg (lt_irrefl _)]
        rw [b3] at b2
        exact ⟨rfl, fun k hk => b2 k (by omega)⟩
      · right
        rw [b3, if_pos b4]
        rw [b3] at b2
        simp only [Option.getD_some]
        exact ⟨k, by omega, rfl, b4, b5, fun k' hk' => b2 k' (by omega), b6⟩

/-- C51: once the diversity is positive, a replacement strictly increases the minimum distance of the state. -/
theorem C51_increases (d : List ℝ → List ℝ → WithTop ℝ) (order : ℕ) (obs : List (List ℝ)) (m : Diversity) (h : DivReach d order obs m)
    (hpos : m.diversity ≠ 0) (x : List ℝ) (cols : ℕ) (hc : cols = m.cols) :
    ∃ m', m.fit [x] cols = (.ok [m'.diversity], m') ∧ (m' = m ∨ ∀ v v', IsMinDistance d m.s v → IsMinDistance d m'.s v' → v < v') := by
  have hn : order + 1 ≤ obs.length := by
    by_contra hn
    exact hpos (C50_filling d order obs m h (by omega))
  obtain ⟨m', h1, h2⟩ := C51_greedy_partial d order obs m h hn x cols hc
  refine ⟨m', h1, ?_⟩
  rcases h2 with ⟨h2, -⟩ | ⟨k, -, -, h3, h4, -⟩
  · exact Or.inl h2
  · refine Or.inr fun v v' hv hv' => ?_
    rw [hv.unique (C50_separated d order obs m h hpos), hv'.unique h4]
    exact h3

/-- C51: observations may be passed one by one or together: a call with the concatenation is the two calls. -/
theorem C51_batches (d : List ℝ → List ℝ → WithTop ℝ) (order : ℕ) (obs : List (List ℝ)) (m : Diversity) (h : DivReach d order obs m)
    (x1 x2 : List (List ℝ)) (cols : ℕ) (hx1 : ∀ r ∈ x1, Observation cols r) (h2 : x2 ≠ []) (m1 m2 : Diversity)
    (y1 y2 : List (WithTop ℝ)) (e1 : m.fit x1 cols = (.ok y1, m1)) (e2 : m1.fit x2 cols = (.ok y2, m2)) : m.fit (x1 ++ x2) cols = (.ok (y1 ++ y2), m2) := by
  have hr1 := DivReach.fit obs x1 cols m m1 y1 h hx1 e1
  unfold Diversity.fit at e1
  split at e1
  · simp at e1
  rename_i hne
  push Not at hne
  simp only at e1
  split at e1
  · simp at e1
  rename_i hcols
  push Not at hcols
  simp only [Prod.mk.injEq, Except.ok.injEq] at e1
  set m0 : Diversity := m.sized cols with hm0
  have hinv : ∃ cc, DivInv d (order + 1) obs m0 cc ∧ m0.cols ≠ 0 := by
    rcases div_reach h with ⟨h0, ho, hm⟩ | ⟨h0, cc, hi⟩
    · rw [hm0, Diversity.sized, if_pos h0]
      refine ⟨0, ?_, hne.2⟩
      subst hm; subst ho
      exact ⟨rfl, by simp, by simp, by simp, fun _ => ⟨rfl, order + 1, by simp⟩, fun hn => by simp at hn, Or.inl rfl⟩
    · rw [hm0, Diversity.sized, if_neg h0]; exact ⟨cc, hi, h0⟩
  obtain ⟨cc, hi, hc0⟩ := hinv
  have hcnt := hi.count hc0
  have hl := DivInv.loop x1 hi (fun r hr => (hx1 r hr).occupied)
  rw [hcnt] at e1
  have hcnt1 := hl.1.count (by rw [hl.2]; exact hc0)
  rw [e1.2] at hl hcnt1
  have hm1c : m1.cols ≠ 0 := by rw [hl.2]; exact hc0
  unfold Diversity.fit at e2
  rw [if_neg (by push Not; exact ⟨h2, hne.2⟩)] at e2
  simp only at e2
  rw [Diversity.sized, if_neg hm1c, if_neg (by rw [hl.2]; simpa using hcols)] at e2
  simp only [Prod.mk.injEq, Except.ok.injEq] at e2
  unfold Diversity.fit
  rw [if_neg (by push Not; exact ⟨by simp [h2], hne.2⟩)]
  simp only
  rw [← hm0, if_neg (by simpa using hcols), hcnt, div.loop_append]
  have e3 : (div.loop x1 (m0, cc)).2 = (m1, div.count m1.s) := by
    rw [hcnt1, ← e1.2]
  rw [e3, e2.1, e2.2, e1.1]

/-- C52: after `clear` the model is a new one of the same style, whose order is the dimension of the observations less one.

Full claim: after `clear` the model is a new one of the same style and order.  See `C52_violation`: that holds only if the dimension of the
observations happens to be the order plus one. -/
theorem C52_clear_partial (m : Diversity) (hc : 0 < m.cols) : Diversity.new (some m.distance) ((m.cols : ℤ) - 1) = .ok m.clear := by
  unfold Diversity.new Diversity.clear
  simp only
  rw [if_neg (by omega)]
  simp

example := C52_clear_partial ⟨DivStyle.manhattan.distance, 0, 2, [[0, 1], [2, 3], [4, 9]]⟩ (by norm_num)

theorem div_small (v : ℝ) (h : |v| ≤ 1000) : ¬ div.vacant v := by
  unfold div.vacant
  have hf : (2 : ℝ) ^ 20 ≤ div.fmax := by
    unfold div.fmax
    have h1 : (1 : ℝ) ≤ 2 - 1 / 2 ^ 52 := by norm_num
    have h2 : (2 : ℝ) ^ 20 ≤ 2 ^ 1023 := pow_le_pow_right₀ (by norm_num) (by norm_num)
    calc (2 : ℝ) ^ 20 ≤ 2 ^ 1023 := h2
      _ = 1 * 2 ^ 1023 := (one_mul _).symm
      _ ≤ _ := mul_le_mul_of_nonneg_right h1 (by positivity)
  generalize div.fmax = f at hf
  have hf' : (1048576 : ℝ) ≤ f := by norm_num at hf; exact hf
  have hv := abs_le.mp h
  rw [abs_of_neg (by linarith), abs_of_pos (by linarith)]
  norm_num
  linarith

theorem isMinDistance_pair {α : Type*} (d : α → α → WithTop ℝ) (a b : α) : IsMinDistance d [a, b] (d a b) := by
  refine ⟨?_, Or.inr ⟨0, 1, a, b, by omega, rfl, rfl, rfl⟩⟩
  intro i j a' b' hij ha hb
  have hj : j < 2 := by
    by_contra h
    rw [List.getElem?_eq_none (by simp; omega)] at hb
    simp at hb
  have hi : i = 0 := by omega
  have hj : j = 1 := by omega
  subst hi; subst hj
  simp only [List.getElem?_cons_zero, Option.some.injEq] at ha
  simp only [List.getElem?_cons_succ, List.getElem?_cons_zero, Option.some.injEq] at hb
  rw [ha, hb]

theorem div_fit_ok (d : List ℝ → List ℝ → WithTop ℝ) (order : ℕ) (x : List (List ℝ)) (cols : ℕ) (hx : x ≠ []) (hc : cols ≠ 0)
    (ho : ∀ r ∈ x, Observation cols r) :
    ∃ m0 y m, Diversity.new (some d) order = .ok m0 ∧ m0.fit x cols = (.ok y, m) ∧ DivReach d order x m ∧ m.cols = cols := by
  refine ⟨{ distance := d, diversity := 0, cols := 0, s := List.replicate (order + 1) [] }, ?_⟩
  have hnew : Diversity.new (some d) order = .ok { distance := d, diversity := 0, cols := 0, s := List.replicate (order + 1) [] } := by
    unfold Diversity.new
    simp only [Nat.cast_nonneg, not_lt.mpr, if_false]
    simp
  set m0 : Diversity := { distance := d, diversity := 0, cols := 0, s := List.replicate (order + 1) [] } with hm0
  have hfit : m0.fit x cols = (.ok (div.loop x (m0.sized cols, div.count (m0.sized cols).s)).1, (div.loop x (m0.sized cols, div.count (m0.sized cols).s)).2.1) := by
    unfold Diversity.fit
    rw [if_neg (by push Not; exact ⟨hx, hc⟩)]
    simp only
    rw [if_neg (by simp [Diversity.sized, hm0])]
  have hi : DivInv d (order + 1) [] (m0.sized cols) 0 :=
    ⟨rfl, by simp [Diversity.sized, hm0], by simp, by simp, fun _ => ⟨rfl, order + 1, by simp [Diversity.sized, hm0]⟩, fun hn => by simp at hn, Or.inl rfl⟩
  have hcnt := hi.count (by simpa [Diversity.sized, hm0] using hc)
  have hl := DivInv.loop x hi (fun r hr => (ho r hr).occupied)
  refine ⟨_, _, hnew, hfit, ?_, ?_⟩
  · have := DivReach.fit [] x cols m0 _ _ (DivReach.new m0 hnew) ho hfit
    simpa using this
  · rw [hcnt, hl.2]; simp [Diversity.sized, hm0]

theorem observation_one (v : ℝ) (h : |v| ≤ 1000) : Observation 1 [v] := ⟨rfl, fun hv => div_small v h ((div.vacant_iff _).mpr hv)⟩

theorem manhattan_one (a b : ℝ) : DivStyle.manhattan.distance [a] [b] = ((|a - b| : ℝ) : WithTop ℝ) := by
  simp [DivStyle.distance, div.gap]

/-- C51: the full claim fails.  A state of two rows holds 0 and 10, at distance 10; the observation 1 replaces 0 though the distance falls to 9. -/
theorem C51_violation : ∃ m m', DivReach DivStyle.manhattan.distance 1 [[0], [10]] m ∧ m.fit [[1]] 1 = (.ok [m'.diversity], m') ∧
    IsMinDistance DivStyle.manhattan.distance m.s (10 : ℝ) ∧ m'.s ≠ m.s ∧
    ∃ v : ℝ, v < 10 ∧ IsMinDistance DivStyle.manhattan.distance m'.s v := by
  obtain ⟨m0, y, m, h1, h2, hr, hc⟩ := div_fit_ok DivStyle.manhattan.distance 1 [[0], [10]] 1 (by simp) (by simp) (by
    intro r hr
    simp only [List.mem_cons, List.not_mem_nil, or_false] at hr
    rcases hr with rfl | rfl <;> exact observation_one _ (by norm_num))
  obtain ⟨r1, -, r3⟩ := C51_rows _ _ _ _ hr
  have hs : m.s = [[0], [10]] := by
    have := r3 (by simp)
    rwa [List.take_of_length_le (by simp [r1])] at this
  have hd : m.diversity = 0 := C50_filling _ _ _ _ hr (by simp)
  obtain ⟨m', e, g⟩ := C51_greedy_partial _ _ _ _ hr (by simp) [1] 1 hc.symm
  have p0 : IsMinDistance DivStyle.manhattan.distance [[1], [10]] (9 : ℝ) := by
    have := isMinDistance_pair DivStyle.manhattan.distance [1] [10]
    rw [manhattan_one] at this
    norm_num at this ⊢
    exact this
  have p1 : IsMinDistance DivStyle.manhattan.distance [[0], [1]] (1 : ℝ) := by
    have := isMinDistance_pair DivStyle.manhattan.distance [0] [1]
    rw [manhattan_one] at this
    norm_num at this ⊢
    exact this
  refine ⟨m, m', hr, e, ?_, ?_⟩
  · rw [hs]
    have := isMinDistance_pair DivStyle.manhattan.distance [0] [10]
    rw [manhattan_one] at this
    norm_num at this ⊢
    exact this
  · rw [hs, hd] at g
    rcases g with ⟨-, g⟩ | ⟨k, hk, g1, -⟩
    · have := g 0 (by omega) _ p0
      norm_cast at this
    · interval_cases k
      · rw [g1, hs]; exact ⟨by simp, 9, by norm_num, p0⟩
      · rw [g1, hs]; exact ⟨by simp, 1, by norm_num, p1⟩

/-- C52: the full claim fails.  A model of order 1, fitted to numbers, then cleared, answers two observations differently from a new model of order 1. -/
theorem C52_violation : ∃ m0 m y z, Diversity.new (some DivStyle.manhattan.distance) 1 = .ok m0 ∧ DivReach DivStyle.manhattan.distance 1 [[0], [10]] m ∧
    (m.clear.fit [[0], [10]] 1).1 = .ok y ∧ (m0.fit [[0], [10]] 1).1 = .ok z ∧ y ≠ z ∧ m.clear.s.length ≠ m0.s.length := by
  have hobs : ∀ r ∈ [[(0 : ℝ)], [10]], Observation 1 r := by
    intro r hr
    simp only [List.mem_cons, List.not_mem_nil, or_false] at hr
    rcases hr with rfl | rfl <;> exact observation_one _ (by norm_num)
  obtain ⟨m0, z, m, h1, h2, hr, hc⟩ := div_fit_ok DivStyle.manhattan.distance 1 [[0], [10]] 1 (by simp) (by simp) hobs
  obtain ⟨c0, y, c, g1, g2, gr, gc⟩ := div_fit_ok DivStyle.manhattan.distance 0 [[0], [10]] 1 (by simp) (by simp) hobs
  have hclear : m.clear = c0 := by
    have := C52_clear_partial m (by omega)
    rcases div_reach hr with ⟨h, -⟩ | ⟨-, cc, hi⟩
    · omega
    · rw [hi.dist, hc] at this
      simp only [Nat.cast_one, sub_self] at this
      have g1' : Diversity.new (some DivStyle.manhattan.distance) 0 = .ok c0 := g1
      rw [g1'] at this
      exact (Except.ok.inj this).symm
  refine ⟨m0, m, y, z, h1, hr, by rw [hclear, g2], by rw [h2], ?_, ?_⟩
  · intro hyz
    -- the last diversity of the order one model is zero, that of the order zero model is not
    obtain ⟨-, -, z3⟩ := C50_monotone m0 m _ _ z h2
    obtain ⟨-, -, y3⟩ := C50_monotone c0 c _ _ y g2
    have e0 : m0.diversity = c0.diversity := by
      rw [C50_filling _ _ _ _ (DivReach.new m0 h1) (by simp), C50_filling _ _ _ _ (DivReach.new c0 g1) (by simp)]
    rw [hyz, ← e0, z3, C50_filling _ _ _ _ hr (by simp)] at y3
    have hcd : c.diversity = 0 := (Option.some.inj y3).symm
    obtain ⟨k0, w, k, f1, f2, fr, fc⟩ := div_fit_ok DivStyle.manhattan.distance 0 [[0]] 1 (by simp) (by simp) (by
      intro r hr; rw [List.mem_singleton.mp hr]; exact observation_one _ (by norm_num))
    have hk0 : k0 = c0 := by rw [f1] at g1; exact Except.ok.inj g1
    obtain ⟨k', e, g⟩ := C51_greedy_partial _ _ _ _ fr (by simp) [10] 1 fc.symm
    rw [hk0] at f2
    have hb := C51_batches _ 0 [] c0 (DivReach.new c0 g1) [[0]] [[10]] 1 (by
      intro r hr; rw [List.mem_singleton.mp hr]; exact observation_one _ (by norm_num)) (by simp) k k' w _ f2 e
    have hck : c = k' := by
      have : c0.fit [[0], [10]] 1 = (.ok (w ++ [k'.diversity]), k') := hb
      rw [g2] at this
      exact (Prod.mk.inj this).2
    have hkd : k.diversity = 0 := C50_filling _ _ _ _ fr (by simp)
    rw [← hck, hcd, hkd] at g
    rcases g with ⟨-, g⟩ | ⟨_, _, _, h, _⟩
    · have hlen : (k.s.set 0 [10]).length = 1 := by rw [List.length_set, (C51_rows _ _ _ _ fr).1]
      have := g 0 (by omega) ⊤ ⟨fun i j a b hij ha hb => by
        have hj : j < (k.s.set 0 [10]).length := by
          by_contra h
          rw [List.getElem?_eq_none (by omega)] at hb
          simp at hb
        omega, Or.inl rfl⟩
      simp at this
    · exact absurd h (lt_irrefl _)
  · rw [hclear, (C51_rows _ _ _ _ (DivReach.new c0 g1)).1, (C51_rows _ _ _ _ (DivReach.new m0 h1)).1]
    norm_num

/-- C50: observations without rows or columns, and observations of another dimension, are rejected without effect. -/
theorem C50_rejects (m : Diversity) (x : List (List ℝ)) (cols : ℕ) (h : x = [] ∨ cols = 0 ∨ (m.cols ≠ 0 ∧ cols ≠ m.cols)) :
    m.fit x cols = (.error .valueError, m) := by
  unfold Diversity.fit
  by_cases h1 : x = [] ∨ cols = 0
  · rw [if_pos h1]
  · rw [if_neg h1]
    obtain ⟨h0, hc⟩ : m.cols ≠ 0 ∧ cols ≠ m.cols := by tauto
    simp only [Diversity.sized, if_neg h0]
    rw [if_pos hc]

example := C50_rejects ⟨DivStyle.manhattan.distance, 0, 2, [[0, 1], [2, 3], [4, 9]]⟩ [[1, 2, 3]] 3 (.inr (.inr (by norm_num)))

/-- C50: the constructor accepts the styles of the table and orders that are not negative. -/
theorem C50_new (style : Option (List ℝ → List ℝ → WithTop ℝ)) (order : ℤ) : (∃ m, Diversity.new style order = .ok m) ↔ style ≠ none ∧ 0 ≤ order := by
  unfold Diversity.new
  cases style with
  | none => simp
  | some d =>
    by_cases h : order < 0
    · simp [h]
    · simp [h]; omega

/-- The hypotheses of `C50_monotone`, `C50_filling`, `C51_rows`, `C51_greedy_partial`, `C51_batches`, `C52_clear_partial` and `C50_rejects` hold: a model of
order one which has observed 0 and 10, those of `C50_separated` and `C51_increases` when it has observed 1, too. -/
example : ∃ m0 y m m', Diversity.new (some DivStyle.manhattan.distance) 1 = .ok m0 ∧ m0.fit [[0], [10]] 1 = (.ok y, m) ∧
    DivReach DivStyle.manhattan.distance 1 [[0], [10]] m ∧ m.cols = 1 ∧ m.fit [[1]] 1 = (.ok [m'.diversity], m') ∧
    DivReach DivStyle.manhattan.distance 1 [[0], [10], [1]] m' ∧ m'.diversity ≠ 0 := by
  obtain ⟨m0, y, m, h1, h2, hr, hc⟩ := div_fit_ok DivStyle.manhattan.distance 1 [[0], [10]] 1 (by simp) (by simp) (by
    intro r hr
    simp only [List.mem_cons, List.not_mem_nil, or_false] at hr
    rcases hr with rfl | rfl <;> exact observation_one _ (by norm_num))
  obtain ⟨m', e, g⟩ := C51_greedy_partial _ _ _ _ hr (by simp) [1] 1 hc.symm
  obtain ⟨r1, -, r3⟩ := C51_rows _ _ _ _ hr
  have hs : m.s = [[0], [10]] := by
    have := r3 (by simp)
    rwa [List.take_of_length_le (by simp [r1])] at this
  have hd : m.diversity = 0 := C50_filling _ _ _ _ hr (by simp)
  refine ⟨m0, y, m, m', h1, h2, hr, hc, e, ?_, ?_⟩
  · refine DivReach.fit [[0], [10]] [[1]] 1 m m' _ hr (fun r hr => ?_) e
    rw [List.mem_singleton.mp hr]
    exact observation_one _ (by norm_num)
  · rcases g with ⟨-, g⟩ | ⟨k, hk, -, g, -⟩
    · have p0 := isMinDistance_pair DivStyle.manhattan.distance [1] [10]
      rw [manhattan_one] at p0
      have := g 0 (by omega) _ (by rw [hs]; exact p0)
      rw [hd] at this
      exact absurd (WithTop.coe_le_coe.mp (show ((|1 - 10| : ℝ) : WithTop ℝ) ≤ ((0 : ℝ) : WithTop ℝ) from this)) (by norm_num)
    · rw [hd] at g
      exact g.ne'

end Verif.Props
