import Verif.Model.Threads
import Verif.Spec.Sequential

namespace Verif

open Spec

variable {S R : Type}

/-- The rest of a call which holds the lock `d` times: steps only with the lock held, balanced, and nothing but the return after the last release. -/
inductive Crit : ℕ → Prog S R → Prop
  | act {d f k} : (∀ s, Crit (d + 1) (k s)) → Crit (d + 1) (.act f k)
  | acq {d k} : Crit (d + 2) k → Crit (d + 1) (.acq k)
  | rel {d k} : Crit (d + 1) k → Crit (d + 2) (.rel k)
  | out {r} : Crit 1 (.rel (.ret r))

/-- A call whose body is `with lock`. -/
def Guarded (p : Prog S R) : Prop := ∃ k, p = .acq k ∧ Crit 1 k

theorem sequential_append (s : S) (o : List (ℕ × Prog S R)) (t : ℕ) (p : Prog S R) : sequential s (o ++ [(t, p)]) =
    ((p.run (sequential s o).1).1, Function.update (sequential s o).2 t ((sequential s o).2 t ++ [(p.run (sequential s o).1).2])) := by
  simp [sequential, List.foldl_append]

theorem callsOf_append (o : List (ℕ × Prog S R)) (t t' : ℕ) (p : Prog S R) : callsOf (o ++ [(t, p)]) t' = callsOf o t' ++ if t = t' then [p] else [] := by
  by_cases h : t = t' <;> simp [callsOf, h]

/-- A thread outside of the lock, whose calls were `calls`, those made so far `made` with results `res`. -/
def Idle (calls made : List (Prog S R)) (res : List R) (h : Thread S R) : Prop :=
  (h.cur = none ∧ h.done = res ∧ calls = made ++ h.todo) ∨
  (∃ k, h.cur = some (.acq k) ∧ Crit 1 k ∧ h.done = res ∧ calls = made ++ .acq k :: h.todo) ∨
  (∃ r, h.cur = some (.ret r) ∧ h.done ++ [r] = res ∧ calls = made ++ h.todo)

/-- The invariant of all executions of guarded calls. -/
def Inv (s0 : S) (calls : ℕ → List (Prog S R)) (c : Conf S R) : Prop :=
  (∀ t p, p ∈ calls t → Guarded p) ∧
  match c.lock with
  | none => c.shared = (sequential s0 c.order).1 ∧ ∀ t, Idle (calls t) (callsOf c.order t) ((sequential s0 c.order).2 t) (c.threads t)
  | some (t0, d) => ∃ pre q p, c.order = pre ++ [(t0, .acq q)] ∧ (c.threads t0).cur = some p ∧ Crit d p ∧ p.run c.shared = q.run (sequential s0 pre).1 ∧
      (c.threads t0).done = (sequential s0 pre).2 t0 ∧ calls t0 = callsOf c.order t0 ++ (c.threads t0).todo ∧
      ∀ t, t ≠ t0 → Idle (calls t) (callsOf pre t) ((sequential s0 pre).2 t) (c.threads t)

theorem Inv.init (s0 : S) (calls : ℕ → List (Prog S R)) (h : ∀ t p, p ∈ calls t → Guarded p) : Inv s0 calls (Conf.init s0 calls) :=
  ⟨h, rfl, fun t => .inl ⟨rfl, rfl, by simp [callsOf, Conf.init]⟩⟩

theorem Idle.not_act {calls made : List (Prog S R)} {res : List R} {h : Thread S R} (i : Idle calls made res h) : (∀ f k, h.cur ≠ some (.act f k)) ∧ ∀ k, h.cur ≠ some (.rel k) := by
  rcases i with ⟨h1, _⟩ | ⟨k, h1, _⟩ | ⟨r, h1, _⟩ <;> simp [h1]

theorem Idle.invoke {calls made : List (Prog S R)} {res : List R} {h : Thread S R} (hg : ∀ p ∈ calls, Guarded p) (i : Idle calls made res h) {p : Prog S R} {todo} (hc : h.cur = none) (ht : h.todo = p :: todo) :
    Idle calls made res { h with todo := todo, cur := some p } := by
  rcases i with ⟨h1, h2, h3⟩ | ⟨k, h1, _⟩ | ⟨r, h1, _⟩
  · obtain ⟨k, rfl, hk⟩ := hg p (by rw [h3, ht]; simp)
    exact .inr (.inl ⟨k, rfl, hk, h2, by rw [h3, ht]⟩)
  · simp [h1] at hc
  · simp [h1] at hc

theorem Idle.return {calls made : List (Prog S R)} {res : List R} {h : Thread S R} (i : Idle calls made res h) {r : R} (hc : h.cur = some (.ret r)) :
    Idle calls made res { h with cur := none, done := h.done ++ [r] } := by
  rcases i with ⟨h1, h2, h3⟩ | ⟨k, h1, _⟩ | ⟨r', h1, h2, h3⟩
  · simp [h1] at hc
  · simp [h1] at hc
  · rw [h1] at hc
    obtain rfl : r' = r := by simpa using hc
    exact .inl ⟨rfl, h2, h3⟩

theorem Inv.step {s0 : S} {calls : ℕ → List (Prog S R)} {c c' : Conf S R} (h : Inv s0 calls c) (st : Step c c') : Inv s0 calls c' := by
  obtain ⟨hg, h⟩ := h
  refine ⟨hg, ?_⟩
  rcases hl : c.lock with _ | ⟨t0, d⟩
  · -- the lock is free
    rw [hl] at h
    obtain ⟨h1, h2⟩ := h
    cases st with
    | invoke t p todo hc ht =>
      simp only [Conf.put, hl]
      refine ⟨h1, fun t' => ?_⟩
      by_cases e : t' = t
      · subst e
        rw [Function.update_self]
        exact (h2 t').invoke (hg t') hc ht
      · rw [Function.update_of_ne e]
        exact h2 t'
    | act t f k hc => exact absurd hc ((h2 t).not_act.1 f k)
    | acquire t k hc hl' =>
      simp only [Conf.put]
      rcases h2 t with ⟨e1, _⟩ | ⟨k', e1, e2, e3, e4⟩ | ⟨r, e1, _⟩
      · simp [e1] at hc
      · obtain rfl : k' = k := by rw [e1] at hc; simpa using hc
        refine ⟨c.order, k', k', rfl, by simp, e2, by rw [h1], by simpa using e3, ?_, ?_⟩
        · rw [callsOf_append, if_pos rfl, Function.update_self, e4]
          simp
        · intro t' ne
          rw [Function.update_of_ne ne]
          exact h2 t'
      · simp [e1] at hc
    | again t d k hc hl' => simp [hl] at hl'
    | release t d k hc hl' => simp [hl] at hl'
    | «return» t r hc =>
      simp only [Conf.put, hl]
      refine ⟨h1, fun t' => ?_⟩
      by_cases e : t' = t
      · subst e
        rw [Function.update_self]
        exact (h2 t').return hc
      · rw [Function.update_of_ne e]
        exact h2 t'
  · -- the lock is held
    rw [hl] at h
    obtain ⟨pre, q, p, h1, h2, h3, h4, h5, h6, h7⟩ := h
    cases st with
    | invoke t p' todo hc ht =>
      have ne : t0 ≠ t := by rintro rfl; simp [h2] at hc
      simp only [Conf.put, hl]
      refine ⟨pre, q, p, h1, by rw [Function.update_of_ne ne]; exact h2, h3, h4, by rw [Function.update_of_ne ne]; exact h5, by rw [Function.update_of_ne ne]; exact h6, fun t' ne' => ?_⟩
      by_cases e : t' = t
      · subst e
        rw [Function.update_self]
        exact (h7 t' ne').invoke (hg t') hc ht
      · rw [Function.update_of_ne e]
        exact h7 t' ne'
    | act t f k hc =>
      by_cases e : t = t0
      · subst e
        simp only [Conf.put, hl]
        obtain rfl : p = .act f k := by rw [h2] at hc; simpa using hc
        refine ⟨pre, q, k c.shared, h1, by simp, ?_, ?_, by simpa using h5, by simpa using h6, fun t' ne' => ?_⟩
        · cases h3 with
          | act h => exact h _
        · rw [← h4]; rfl
        · rw [Function.update_of_ne ne']
          exact h7 t' ne'
      · exact absurd hc ((h7 t e).not_act.1 f k)
    | acquire t k hc hl' => simp [hl] at hl'
    | again t d' k hc hl' =>
      obtain ⟨rfl, rfl⟩ : t0 = t ∧ d = d' := by rw [hl] at hl'; simpa using hl'
      simp only [Conf.put]
      obtain rfl : p = .acq k := by rw [h2] at hc; simpa using hc
      refine ⟨pre, q, k, h1, by simp, ?_, ?_, by simpa using h5, by simpa using h6, fun t' ne' => ?_⟩
      · cases h3 with
        | acq h => exact h
      · rw [← h4]; rfl
      · rw [Function.update_of_ne ne']
        exact h7 t' ne'
    | release t d' k hc hl' =>
      obtain ⟨rfl, rfl⟩ : t0 = t ∧ d = d' + 1 := by rw [hl] at hl'; simpa using hl'
      obtain rfl : p = .rel k := by rw [h2] at hc; simpa using hc
      simp only [Conf.put]
      generalize hd : d' + 1 = d at h3
      cases h3 with
      | rel h =>
        rename_i d2
        obtain rfl : d' = d2 + 1 := by omega
        rw [if_neg (Nat.succ_ne_zero d2)]
        refine ⟨pre, q, k, h1, by simp, h, by rw [← h4]; rfl, by simpa using h5, by simpa using h6, fun t' ne' => ?_⟩
        rw [Function.update_of_ne ne']
        exact h7 t' ne'
      | out =>
        rename_i r
        obtain rfl : d' = 0 := by omega
        simp only [if_true]
        have hq : q.run (sequential s0 pre).1 = (c.shared, r) := by rw [← h4]; rfl
        have hs : sequential s0 c.order = (c.shared, Function.update (sequential s0 pre).2 t0 ((sequential s0 pre).2 t0 ++ [r])) := by
          rw [h1, sequential_append]
          have : (Prog.acq q).run (sequential s0 pre).1 = (c.shared, r) := hq
          rw [this]
        refine ⟨by rw [hs], fun t' => ?_⟩
        simp only [hs]
        by_cases e : t' = t0
        · subst e
          rw [Function.update_self, Function.update_self]
          exact .inr (.inr ⟨r, rfl, by simp [h5], by simpa using h6⟩)
        · rw [Function.update_of_ne e, Function.update_of_ne e, h1, callsOf_append, if_neg (Ne.symm e), List.append_nil]
          exact h7 t' e
    | «return» t r hc =>
      have ne : t0 ≠ t := by
        rintro rfl
        rw [h2] at hc
        obtain rfl : p = .ret r := by simpa using hc
        cases h3
      simp only [Conf.put, hl]
      refine ⟨pre, q, p, h1, by rw [Function.update_of_ne ne]; exact h2, h3, h4, by rw [Function.update_of_ne ne]; exact h5, by rw [Function.update_of_ne ne]; exact h6, fun t' ne' => ?_⟩
      by_cases e : t' = t
      · subst e
        rw [Function.update_self]
        exact (h7 t' ne').return hc
      · rw [Function.update_of_ne e]
        exact h7 t' ne'

theorem Inv.reach {s0 : S} {calls : ℕ → List (Prog S R)} (hg : ∀ t p, p ∈ calls t → Guarded p) {c : Conf S R} (h : Reach (fun _ _ => False) (Conf.init s0 calls) c) : Inv s0 calls c := by
  induction h with
  | refl => exact Inv.init s0 calls hg
  | step _ h ih => exact ih.step h
  | env _ h => exact h.elim

/-! ### Rely and guarantee: other parties may change the shared state as `env` allows -/

/-- The rest of a call which holds the lock `d` times is safe from states in `P`: each of its steps keeps `G` and leads to states in `J`, whatever `env` does in between,
and the lock is released in states in `I`. -/
inductive Safe (env : S → S → Prop) (I J : S → Prop) (G : S → S → Prop) : ℕ → (S → Prop) → Prog S R → Prop
  | act {d P f k} (Q : S → S → Prop) : (∀ s a b, Q s a → env a b → Q s b) → (∀ s, P s → Q s (f s) ∧ G s (f s) ∧ J (f s)) →
      (∀ s, P s → Safe env I J G (d + 1) (Q s) (k s)) → Safe env I J G (d + 1) P (.act f k)
  | acq {d P k} : Safe env I J G (d + 2) P k → Safe env I J G (d + 1) P (.acq k)
  | rel {d P k} : Safe env I J G (d + 1) P k → Safe env I J G (d + 2) P (.rel k)
  | out {P r} : (∀ s, P s → I s) → Safe env I J G 1 P (.rel (.ret r))

/-- A call whose body is `with lock` and safe. -/
def SafeCall (env : S → S → Prop) (I J : S → Prop) (G : S → S → Prop) (p : Prog S R) : Prop := ∃ k, p = .acq k ∧ Safe env I J G 1 I k

/-- A thread outside of the lock. -/
def Away (env : S → S → Prop) (I J : S → Prop) (G : S → S → Prop) (h : Thread S R) : Prop :=
  (∀ p ∈ h.todo, SafeCall env I J G p) ∧ (h.cur = none ∨ (∃ p, h.cur = some p ∧ SafeCall env I J G p) ∨ ∃ r, h.cur = some (.ret r))

/-- The invariant of all executions of safe calls. -/
def SafeConf (env : S → S → Prop) (I J : S → Prop) (G : S → S → Prop) (c : Conf S R) : Prop :=
  J c.shared ∧
  match c.lock with
  | none => I c.shared ∧ ∀ t, Away env I J G (c.threads t)
  | some (t0, d) => (∃ P p, (∀ a b, P a → env a b → P b) ∧ P c.shared ∧ (c.threads t0).cur = some p ∧ Safe env I J G d P p) ∧ (∀ p ∈ (c.threads t0).todo, SafeCall env I J G p) ∧
      ∀ t, t ≠ t0 → Away env I J G (c.threads t)

variable {env : S → S → Prop} {I J : S → Prop} {G : S → S → Prop}

theorem Safe.weaken {d : ℕ} {P : S → Prop} {p : Prog S R} (h : Safe env I J G d P p) : ∀ {P' : S → Prop}, (∀ s, P' s → P s) → Safe env I J G d P' p := by
  induction h with
  | act Q h1 h2 h3 _ => intro P' hp; exact .act Q h1 (fun s h => h2 s (hp s h)) fun s h => h3 s (hp s h)
  | acq _ ih => intro P' hp; exact .acq (ih hp)
  | rel _ ih => intro P' hp; exact .rel (ih hp)
  | out h => intro P' hp; exact .out fun s hs => h s (hp s hs)

theorem Away.not_act {h : Thread S R} (a : Away env I J G h) : (∀ f k, h.cur ≠ some (.act f k)) ∧ ∀ k, h.cur ≠ some (.rel k) := by
  rcases a.2 with h1 | ⟨p, h1, k, rfl, _⟩ | ⟨r, h1⟩ <;> simp [h1]

theorem Away.invoke {h : Thread S R} (a : Away env I J G h) {p : Prog S R} {todo} (ht : h.todo = p :: todo) : Away env I J G { h with todo := todo, cur := some p } :=
  ⟨fun q hq => a.1 q (by rw [ht]; exact List.mem_cons_of_mem _ hq), .inr (.inl ⟨p, rfl, a.1 p (by rw [ht]; simp)⟩)⟩

theorem Away.return {h : Thread S R} (a : Away env I J G h) (l : List R) : Away env I J G { h with cur := none, done := l } := ⟨a.1, .inl rfl⟩

theorem SafeConf.step {c c' : Conf S R} (hI : ∀ a b, I a → env a b → I b) (h : SafeConf env I J G c) (st : Step c c') : SafeConf env I J G c' ∧ (c'.shared = c.shared ∨ G c.shared c'.shared) := by
  obtain ⟨hJ, h⟩ := h
  rcases hl : c.lock with _ | ⟨t0, d⟩
  · rw [hl] at h
    obtain ⟨h1, h2⟩ := h
    cases st with
    | invoke t p todo hc ht =>
      refine ⟨⟨hJ, ?_⟩, .inl rfl⟩
      simp only [Conf.put, hl]
      refine ⟨h1, fun t' => ?_⟩
      by_cases e : t' = t
      · subst e
        rw [Function.update_self]
        exact (h2 t').invoke ht
      · rw [Function.update_of_ne e]
        exact h2 t'
    | act t f k hc => exact absurd hc ((h2 t).not_act.1 f k)
    | acquire t k hc hl' =>
      refine ⟨⟨hJ, ?_⟩, .inl rfl⟩
      simp only [Conf.put]
      rcases (h2 t).2 with e1 | ⟨p, e1, k', rfl, e2⟩ | ⟨r, e1⟩
      · simp [e1] at hc
      · obtain rfl : k' = k := by rw [e1] at hc; simpa using hc
        refine ⟨⟨I, k', hI, h1, by simp, e2⟩, by simpa using (h2 t).1, fun t' ne => ?_⟩
        rw [Function.update_of_ne ne]
        exact h2 t'
      · simp [e1] at hc
    | again t d k hc hl' => simp [hl] at hl'
    | release t d k hc hl' => simp [hl] at hl'
    | «return» t r hc =>
      refine ⟨⟨hJ, ?_⟩, .inl rfl⟩
      simp only [Conf.put, hl]
      refine ⟨h1, fun t' => ?_⟩
      by_cases e : t' = t
      · subst e
        rw [Function.update_self]
        exact (h2 t').return _
      · rw [Function.update_of_ne e]
        exact h2 t'
  · rw [hl] at h
    obtain ⟨⟨P, p, h1, h2, h3, h4⟩, h5, h6⟩ := h
    cases st with
    | invoke t p' todo hc ht =>
      have ne : t0 ≠ t := by rintro rfl; simp [h3] at hc
      refine ⟨⟨hJ, ?_⟩, .inl rfl⟩
      simp only [Conf.put, hl]
      refine ⟨⟨P, p, h1, h2, by rw [Function.update_of_ne ne]; exact h3, h4⟩, by rw [Function.update_of_ne ne]; exact h5, fun t' ne' => ?_⟩
      by_cases e : t' = t
      · subst e
        rw [Function.update_self]
        exact (h6 t' ne').invoke ht
      · rw [Function.update_of_ne e]
        exact h6 t' ne'
    | act t f k hc =>
      by_cases e : t = t0
      · subst e
        obtain rfl : p = .act f k := by rw [h3] at hc; simpa using hc
        cases h4 with
        | act Q q1 q2 q3 =>
          obtain ⟨a1, a2, a3⟩ := q2 _ h2
          refine ⟨⟨a3, ?_⟩, .inr a2⟩
          simp only [Conf.put, hl]
          refine ⟨⟨Q c.shared, k c.shared, q1 _, a1, by simp, q3 _ h2⟩, by simpa using h5, fun t' ne' => ?_⟩
          rw [Function.update_of_ne ne']
          exact h6 t' ne'
      · exact absurd hc ((h6 t e).not_act.1 f k)
    | acquire t k hc hl' => simp [hl] at hl'
    | again t d' k hc hl' =>
      obtain ⟨rfl, rfl⟩ : t0 = t ∧ d = d' := by rw [hl] at hl'; simpa using hl'
      obtain rfl : p = .acq k := by rw [h3] at hc; simpa using hc
      refine ⟨⟨hJ, ?_⟩, .inl rfl⟩
      simp only [Conf.put]
      refine ⟨⟨P, k, h1, h2, by simp, ?_⟩, by simpa using h5, fun t' ne' => ?_⟩
      · cases h4 with
        | acq h => exact h
      · rw [Function.update_of_ne ne']
        exact h6 t' ne'
    | release t d' k hc hl' =>
      obtain ⟨rfl, rfl⟩ : t0 = t ∧ d = d' + 1 := by rw [hl] at hl'; simpa using hl'
      obtain rfl : p = .rel k := by rw [h3] at hc; simpa using hc
      refine ⟨⟨hJ, ?_⟩, .inl rfl⟩
      simp only [Conf.put]
      generalize hd : d' + 1 = d at h4
      cases h4 with
      | rel h =>
        rename_i d2
        obtain rfl : d' = d2 + 1 := by omega
        rw [if_neg (Nat.succ_ne_zero d2)]
        refine ⟨⟨P, k, h1, h2, by simp, h⟩, by simpa using h5, fun t' ne' => ?_⟩
        rw [Function.update_of_ne ne']
        exact h6 t' ne'
      | out hP =>
        rename_i r
        obtain rfl : d' = 0 := by omega
        rw [if_pos rfl]
        refine ⟨hP _ h2, fun t' => ?_⟩
        by_cases e : t' = t0
        · subst e
          rw [Function.update_self]
          exact ⟨h5, .inr (.inr ⟨r, rfl⟩)⟩
        · rw [Function.update_of_ne e]
          exact h6 t' e
    | «return» t r hc =>
      have ne : t0 ≠ t := by
        rintro rfl
        rw [h3] at hc
        obtain rfl : p = .ret r := by simpa using hc
        cases h4
      refine ⟨⟨hJ, ?_⟩, .inl rfl⟩
      simp only [Conf.put, hl]
      refine ⟨⟨P, p, h1, h2, by rw [Function.update_of_ne ne]; exact h3, h4⟩, by rw [Function.update_of_ne ne]; exact h5, fun t' ne' => ?_⟩
      by_cases e : t' = t
      · subst e
        rw [Function.update_self]
        exact (h6 t' ne').return _
      · rw [Function.update_of_ne e]
        exact h6 t' ne'

theorem SafeConf.env_step {c : Conf S R} {s : S} (hI : ∀ a b, I a → env a b → I b) (hJ : ∀ a b, J a → env a b → J b) (h : SafeConf env I J G c) (he : env c.shared s) :
    SafeConf env I J G { c with shared := s } := by
  obtain ⟨h0, h⟩ := h
  refine ⟨hJ _ _ h0 he, ?_⟩
  rcases hl : c.lock with _ | ⟨t0, d⟩
  · simp only [hl] at h ⊢
    exact ⟨hI _ _ h.1 he, h.2⟩
  · simp only [hl] at h ⊢
    obtain ⟨⟨P, p, h1, h2, h3, h4⟩, h5⟩ := h
    exact ⟨⟨P, p, h1, h1 _ _ h2 he, h3, h4⟩, h5⟩

theorem SafeConf.reach (hI : ∀ a b, I a → env a b → I b) (hJ : ∀ a b, J a → env a b → J b) {s0 : S} (h0 : I s0) (h0' : J s0) {calls : ℕ → List (Prog S R)} (hc : ∀ t p, p ∈ calls t → SafeCall env I J G p)
    {c : Conf S R} (h : Reach env (Conf.init s0 calls) c) : SafeConf env I J G c := by
  induction h with
  | refl => exact ⟨h0', h0, fun t => ⟨hc t, .inl rfl⟩⟩
  | step _ st ih => exact (ih.step hI st).1
  | env _ he ih => exact ih.env_step hI hJ he

end Verif
