import Verif.Model.Log
import Verif.Spec.Logging
import Verif.Lemmas.Threads
import Mathlib.Data.List.Nodup
import Mathlib.Tactic.Basic

namespace Verif

open Spec

/-! ### The methods hold the lock -/

theorem Log.writeThen_crit (level : Option Text) (entry : Entry) (frames : List (Text × ℕ)) : Crit 1 (Log.writeThen level entry frames) := by
  unfold Log.writeThen
  split
  · exact .out
  · refine .act fun s => ?_
    split
    · exact .out
    · refine .act fun s => ?_
      split
      · split
        · exact .out
        · exact .act fun s => .out
      · exact .out

theorem Log.streamThen_crit (st : StreamArg) (k : Res Unit → LogProg) (d : ℕ) (hk : ∀ r, Crit (d + 1) (.rel (k r))) : ∃ q, Log.streamThen st k = .acq q ∧ Crit (d + 1) q := by
  refine ⟨_, rfl, ?_⟩
  split
  · exact hk _
  · refine .act fun s => .act fun s' => .act fun s'' => ?_
    split
    · exact hk _
    · exact .act fun s => .act fun s' => hk _

theorem Log.guarded {stdout : StreamArg} {p : LogProg} (h : LogCall stdout p) : Guarded p := by
  cases h with
  | level l =>
    refine ⟨_, rfl, ?_⟩
    split
    · exact .out
    · refine .act fun s => ?_
      split
      · exact .out
      · exact .act fun s => .out
  | stream st => exact Log.streamThen_crit st .ret 0 fun r => .out
  | write l e frames =>
    refine ⟨_, rfl, .act fun s => ?_⟩
    split
    · obtain ⟨q, h1, h2⟩ := Log.streamThen_crit stdout (Log.writeAfter l e frames) 1 (fun r => by
        refine .rel ?_
        cases r with
        | error x => exact .out
        | ok x => exact Log.writeThen_crit l e frames)
      rw [h1]
      exact .acq h2
    · exact Log.writeThen_crit l e frames

/-! ### Ownership of handlers -/

/-- The owner of an identity. -/
def LogState.owner (s : LogState) (id : ℕ) : Option Owner := s.owners[id]?

/-- What holds while the lock is free. -/
structure LogInv (s : LogState) : Prop where
  zero : s.owner 0 = some .default
  identity : s.identity = 0 ∨ s.owner s.identity = some .log
  own : ∀ h ∈ s.handlers, s.owner h.id = some .log → h.id = s.identity
  nodup : (s.handlers.map Handler.id).Nodup
  taken : ∀ h ∈ s.handlers, h.id < s.owners.length
  out : ∀ d ∈ s.out, d.id < s.owners.length

/-- At most one handler belongs to Log. -/
def OneHandler (s : LogState) : Prop := (s.handlers.filter fun h => s.owner h.id = some .log).length ≤ 1

/-- A step removes only handlers of Log, and the handler 0 of loguru; identities keep their owners. -/
def KeepsApp (s s' : LogState) : Prop := (∀ h ∈ s.handlers, s.owner h.id = some .app → h ∈ s'.handlers) ∧ (∀ id o, s.owner id = some o → s'.owner id = some o) ∧
  ∀ h ∈ s'.handlers, s.owner h.id = some .app → h ∈ s.handlers

theorem owner_take {s : LogState} {o : Owner} {id : ℕ} : (loguru.take s o).owner id = if id < s.owners.length then s.owner id else if id = s.owners.length then some o else none := by
  simp only [LogState.owner, loguru.take]
  rw [List.getElem?_append]
  split
  · rfl
  · rename_i h
    split
    · rename_i e; simp [e]
    · rename_i e
      rw [List.getElem?_eq_none]
      simp; omega

theorem owner_lt {s : LogState} {id : ℕ} {o : Owner} (h : s.owner id = some o) : id < s.owners.length := by
  simp only [LogState.owner] at h
  exact (List.getElem?_eq_some_iff.mp h).1

theorem owner_take_mono {s : LogState} {o o' : Owner} {id : ℕ} (h : s.owner id = some o) : (loguru.take s o').owner id = some o := by
  rw [owner_take, if_pos (owner_lt h), h]

theorem one_of_own {s : LogState} (i : ℕ) (hn : (s.handlers.map Handler.id).Nodup) (h : ∀ h ∈ s.handlers, s.owner h.id = some .log → h.id = i) : OneHandler s := by
  unfold OneHandler
  have hs : ((s.handlers.filter fun h => s.owner h.id = some .log).map Handler.id).Nodup := hn.sublist (List.filter_sublist.map _)
  have ha : ∀ x ∈ (s.handlers.filter fun h => s.owner h.id = some .log).map Handler.id, x = i := by
    intro x hx
    obtain ⟨g, hg, rfl⟩ := List.mem_map.mp hx
    rw [List.mem_filter] at hg
    exact h g hg.1 (by simpa using hg.2)
  rw [← List.length_map (f := Handler.id)]
  generalize (s.handlers.filter fun h => s.owner h.id = some .log).map Handler.id = l at hs ha
  match l, hs, ha with
  | [], _, _ => simp
  | [_], _, _ => simp
  | a :: b :: t, hs, ha =>
    exfalso
    have h1 := ha a (by simp)
    have h2 := ha b (by simp)
    rw [h1, h2] at hs
    simp at hs

theorem KeepsApp.refl (s : LogState) : KeepsApp s s := ⟨fun _ h _ => h, fun _ _ h => h, fun _ h _ => h⟩

/-- What holds inside Log.stream, after the handler was removed. -/
structure LogMid (i : ℕ) (s : LogState) : Prop where
  zero : s.owner 0 = some .default
  identity : s.identity = i ∧ (i = 0 ∨ s.owner i = some .log)
  own : ∀ h ∈ s.handlers, s.owner h.id ≠ some .log
  nodup : (s.handlers.map Handler.id).Nodup
  taken : ∀ h ∈ s.handlers, h.id < s.owners.length
  out : ∀ d ∈ s.out, d.id < s.owners.length

/-- Inside Log.stream, after the handler with the new identity `n` was inserted. -/
structure LogNew (n : ℕ) (s : LogState) : Prop where
  zero : s.owner 0 = some .default
  new : s.owner n = some .log
  own : ∀ h ∈ s.handlers, s.owner h.id = some .log → h.id = n
  nodup : (s.handlers.map Handler.id).Nodup
  taken : ∀ h ∈ s.handlers, h.id < s.owners.length
  out : ∀ d ∈ s.out, d.id < s.owners.length

theorem nodup_remove {s : LogState} (id : ℕ) (h : (s.handlers.map Handler.id).Nodup) : ((loguru.remove s id).handlers.map Handler.id).Nodup := h.sublist (List.filter_sublist.map _)

theorem nodup_insert {s : LogState} {g : Handler} (h : (s.handlers.map Handler.id).Nodup) (hn : ∀ f ∈ s.handlers, f.id ≠ g.id) : ((loguru.insert s g).handlers.map Handler.id).Nodup := by
  simp only [loguru.insert, List.map_append, List.map_cons, List.map_nil]
  rw [List.nodup_append]
  refine ⟨h, by simp, ?_⟩
  intro a ha b hb
  obtain ⟨f, hf, rfl⟩ := List.mem_map.mp ha
  obtain rfl : b = g.id := by simpa using hb
  exact hn f hf

/-- The facts on which ownership depends, for any step of the application. -/
theorem App.facts {a b : LogState} (h : App a b) :
    b.identity = a.identity ∧ b.level = a.level ∧ (∀ id o, a.owner id = some o → b.owner id = some o) ∧ a.owners.length ≤ b.owners.length ∧
    (∀ id, b.owner id = some .log → a.owner id = some .log) ∧
    (∀ h ∈ b.handlers, h ∈ a.handlers ∨ b.owner h.id = some .app) ∧
    ((a.handlers.map Handler.id).Nodup → (b.handlers.map Handler.id).Nodup) ∧
    ((∀ h ∈ a.handlers, h.id < a.owners.length) → (∀ d ∈ a.out, d.id < a.owners.length) → ∀ d ∈ b.out, d.id < b.owners.length) := by
  cases h with
  | take =>
    refine ⟨rfl, rfl, fun id o h => owner_take_mono h, by simp [loguru.take], ?_, fun h hh => .inl hh, fun h => h, ?_⟩
    · intro id h
      rw [owner_take] at h
      split at h
      · exact h
      · split at h <;> simp at h
    · intro _ h d hd
      have := h d hd
      simp only [loguru.take, List.length_append]
      omega
  | insert g ho hn =>
    refine ⟨rfl, rfl, fun id o h => h, Nat.le_refl _, fun id h => h, ?_, fun h => nodup_insert h hn, fun _ h => h⟩
    intro h hh
    simp only [loguru.insert, List.mem_append, List.mem_singleton] at hh
    rcases hh with hh | rfl
    · exact .inl hh
    · exact .inr ho
  | remove id =>
    exact ⟨rfl, rfl, fun id o h => h, Nat.le_refl _, fun id h => h, fun h hh => .inl (List.mem_filter.mp hh).1, fun h => nodup_remove id h, fun _ h => h⟩
  | define n no hn => exact ⟨rfl, rfl, fun id o h => h, Nat.le_refl _, fun id h => h, fun h hh => .inl hh, fun h => h, fun _ h => h⟩
  | log no text =>
    refine ⟨rfl, rfl, fun id o h => h, Nat.le_refl _, fun id h => h, fun h hh => .inl hh, fun h => h, ?_⟩
    intro h1 h2 d hd
    simp only [loguru.deliver, List.mem_append, List.mem_map] at hd
    rcases hd with hd | ⟨g, hg, rfl⟩
    · exact h2 d hd
    · exact h1 g (List.mem_filter.mp hg).1

theorem LogInv.app {a b : LogState} (h : LogInv a) (ab : App a b) : LogInv b := by
  obtain ⟨f1, _, f2, f3, f4, f5, f6, f7⟩ := ab.facts
  refine ⟨f2 _ _ h.zero, ?_, ?_, f6 h.nodup, ?_, f7 h.taken h.out⟩
  · rw [f1]
    rcases h.identity with e | e
    · exact .inl e
    · exact .inr (f2 _ _ e)
  · intro g hg ho
    rw [f1]
    rcases f5 g hg with hg' | hg'
    · exact h.own g hg' (f4 _ ho)
    · rw [ho] at hg'; simp at hg'
  · intro g hg
    rcases f5 g hg with hg' | hg'
    · have := h.taken g hg'; omega
    · exact owner_lt hg'

theorem LogMid.app {i : ℕ} {a b : LogState} (h : LogMid i a) (ab : App a b) : LogMid i b := by
  obtain ⟨f1, _, f2, f3, f4, f5, f6, f7⟩ := ab.facts
  refine ⟨f2 _ _ h.zero, ⟨f1.trans h.identity.1, h.identity.2.imp id (f2 _ _)⟩, ?_, f6 h.nodup, ?_, f7 h.taken h.out⟩
  · intro g hg ho
    rcases f5 g hg with hg' | hg'
    · exact h.own g hg' (f4 _ ho)
    · rw [ho] at hg'; simp at hg'
  · intro g hg
    rcases f5 g hg with hg' | hg'
    · have := h.taken g hg'; omega
    · exact owner_lt hg'

theorem LogNew.app {n : ℕ} {a b : LogState} (h : LogNew n a) (ab : App a b) : LogNew n b := by
  obtain ⟨f1, _, f2, f3, f4, f5, f6, f7⟩ := ab.facts
  refine ⟨f2 _ _ h.zero, f2 _ _ h.new, ?_, f6 h.nodup, ?_, f7 h.taken h.out⟩
  · intro g hg ho
    rcases f5 g hg with hg' | hg'
    · exact h.own g hg' (f4 _ ho)
    · rw [ho] at hg'; simp at hg'
  · intro g hg
    rcases f5 g hg with hg' | hg'
    · have := h.taken g hg'; omega
    · exact owner_lt hg'

theorem OneHandler.app {a b : LogState} (h : OneHandler a ∧ (a.handlers.map Handler.id).Nodup) (ab : App a b) : OneHandler b ∧ (b.handlers.map Handler.id).Nodup := by
  obtain ⟨f1, _, f2, f3, f4, f5, f6, f7⟩ := ab.facts
  refine ⟨?_, f6 h.2⟩
  -- at most one identity of Log was live
  have key : ∃ i, ∀ g ∈ a.handlers, a.owner g.id = some .log → g.id = i := by
    have h1 := h.1
    unfold OneHandler at h1
    match e : a.handlers.filter fun h => a.owner h.id = some .log with
    | [] =>
      refine ⟨0, fun g hg ho => ?_⟩
      have : g ∈ a.handlers.filter fun h => a.owner h.id = some .log := List.mem_filter.mpr ⟨hg, by simpa using ho⟩
      rw [e] at this
      simp at this
    | [x] =>
      refine ⟨x.id, fun g hg ho => ?_⟩
      have : g ∈ a.handlers.filter fun h => a.owner h.id = some .log := List.mem_filter.mpr ⟨hg, by simpa using ho⟩
      rw [e] at this
      simp at this
      rw [this]
    | x :: y :: t =>
      rw [e] at h1
      simp at h1
  obtain ⟨i, hi⟩ := key
  refine one_of_own i (f6 h.2) fun g hg ho => ?_
  rcases f5 g hg with hg' | hg'
  · exact hi g hg' (f4 _ ho)
  · rw [ho] at hg'; simp at hg'

/-- What holds at any moment. -/
def LogAlways (s : LogState) : Prop := OneHandler s ∧ (s.handlers.map Handler.id).Nodup

theorem LogInv.always {s : LogState} (h : LogInv s) : LogAlways s := ⟨one_of_own s.identity h.nodup h.own, h.nodup⟩
theorem LogMid.always {i : ℕ} {s : LogState} (h : LogMid i s) : LogAlways s := ⟨one_of_own i h.nodup fun g hg ho => absurd ho (h.own g hg), h.nodup⟩
theorem LogNew.always {n : ℕ} {s : LogState} (h : LogNew n s) : LogAlways s := ⟨one_of_own n h.nodup h.own, h.nodup⟩

theorem LogMid.inv {i : ℕ} {s : LogState} (h : LogMid i s) : LogInv s :=
  ⟨h.zero, by rw [h.identity.1]; exact h.identity.2, fun g hg ho => absurd ho (h.own g hg), h.nodup, h.taken, h.out⟩

theorem LogInv.remove {s : LogState} (h : LogInv s) : LogMid s.identity (loguru.remove s s.identity) ∧ KeepsApp s (loguru.remove s s.identity) := by
  refine ⟨⟨h.zero, ⟨rfl, h.identity⟩, ?_, nodup_remove _ h.nodup, fun g hg => h.taken g (List.mem_filter.mp hg).1, h.out⟩, ?_, fun _ _ h => h, fun g hg _ => (List.mem_filter.mp hg).1⟩
  · intro g hg ho
    obtain ⟨h1, h2⟩ := List.mem_filter.mp hg
    exact absurd (h.own g h1 ho) (by simpa using h2)
  · intro g hg ho
    refine List.mem_filter.mpr ⟨hg, ?_⟩
    rcases h.identity with e | e
    · have : g.id ≠ 0 := by intro e'; rw [e', h.zero] at ho; simp at ho
      simpa [e] using this
    · have : g.id ≠ s.identity := by intro e'; rw [e', e] at ho; simp at ho
      simpa using this

theorem LogMid.take {i : ℕ} {s : LogState} (h : LogMid i s) : LogMid i (loguru.take s .log) ∧ KeepsApp s (loguru.take s .log) := by
  refine ⟨⟨owner_take_mono h.zero, ⟨h.identity.1, h.identity.2.imp id owner_take_mono⟩, ?_, h.nodup, ?_, ?_⟩, fun _ h _ => h, fun _ _ h => owner_take_mono h, fun _ h _ => h⟩
  · intro g hg
    rw [owner_take, if_pos (h.taken g hg)]
    exact h.own g hg
  · intro g hg
    have := h.taken g hg
    simp only [loguru.take, List.length_append]; omega
  · intro g hg
    have := h.out g hg
    simp only [loguru.take, List.length_append]; omega

theorem LogMid.insert {i n k : ℕ} {s : LogState} (h : LogMid i s) (hn : s.owner n = some .log) : LogNew n (loguru.insert s { id := n, sink := k, level := 0 }) ∧ KeepsApp s (loguru.insert s { id := n, sink := k, level := 0 }) := by
  refine ⟨⟨h.zero, hn, ?_, nodup_insert h.nodup fun f hf e => h.own f hf (by rw [e]; exact hn), ?_, h.out⟩, ?_, fun _ _ h => h, ?_⟩
  · intro g hg ho
    simp only [loguru.insert, List.mem_append, List.mem_singleton] at hg
    rcases hg with hg | rfl
    · exact absurd ho (h.own g hg)
    · rfl
  · intro g hg
    simp only [loguru.insert, List.mem_append, List.mem_singleton] at hg
    rcases hg with hg | rfl
    · exact h.taken g hg
    · exact owner_lt hn
  · intro g hg _
    simp only [loguru.insert, List.mem_append]
    exact .inl hg
  · intro g hg ho
    simp only [loguru.insert, List.mem_append, List.mem_singleton] at hg
    rcases hg with hg | rfl
    · exact hg
    · have : s.owner n = some .app := ho
      rw [hn] at this; simp at this

theorem LogInv.setLevel {s : LogState} (h : LogInv s) (no : ℕ) : LogInv { s with level := no } := ⟨h.zero, h.identity, h.own, h.nodup, h.taken, h.out⟩

theorem LogNew.set {n : ℕ} {s : LogState} (h : LogNew n s) : LogInv { s with identity := n } := ⟨h.zero, .inr h.new, h.own, h.nodup, h.taken, h.out⟩

abbrev LogSafe (d : ℕ) (P : LogState → Prop) (p : LogProg) : Prop := Safe App LogInv LogAlways KeepsApp d P p

/-- A step which changes nothing. -/
theorem LogSafe.read {d : ℕ} {k : LogState → LogProg} (h : ∀ s, LogInv s → LogSafe (d + 1) LogInv (k s)) : LogSafe (d + 1) LogInv (.act id k) :=
  .act (fun _ => LogInv) (fun _ _ _ h ab => h.app ab) (fun s h => ⟨h, .refl s, h.always⟩) h

theorem Log.streamThen_safe (st : StreamArg) (k : Res Unit → LogProg) (d : ℕ) (hk : ∀ r, LogSafe (d + 1) LogInv (.rel (k r))) (hm : ∀ r i, LogSafe (d + 1) (LogMid i) (.rel (k r))) :
    ∃ q, Log.streamThen st k = .acq q ∧ LogSafe (d + 1) LogInv q := by
  refine ⟨_, rfl, ?_⟩
  split
  · exact hk _
  · refine .act (fun s a => LogInv a ∧ a.identity = s.identity) (fun s a b h ab => ⟨h.1.app ab, ab.facts.1.trans h.2⟩) (fun s h => ⟨⟨h, rfl⟩, .refl s, h.always⟩) fun s hs => ?_
    refine .act (fun _ => LogMid s.identity) (fun _ a b h ab => h.app ab) ?_ fun s' hs' => ?_
    · rintro a ⟨h1, h2⟩
      rw [← h2]
      exact ⟨h1.remove.1, h1.remove.2, h1.remove.1.always⟩
    · refine .act (fun s'' a => LogMid s.identity a ∧ a.owner s''.owners.length = some .log) (fun s'' a b h ab => ⟨h.1.app ab, ab.facts.2.2.1 _ _ h.2⟩) ?_ fun s'' hs'' => ?_
      · intro a h
        refine ⟨⟨h.take.1, ?_⟩, h.take.2, h.take.1.always⟩
        rw [owner_take, if_neg (by omega), if_pos rfl]
      · split
        · exact (hm _ s.identity).weaken fun a h => h.1
        · refine .act (fun _ => LogNew s''.owners.length) (fun _ a b h ab => h.app ab) ?_ fun _ _ => ?_
          · rintro a ⟨h1, h2⟩
            exact ⟨(h1.insert h2).1, (h1.insert h2).2, (h1.insert h2).1.always⟩
          · exact .act (fun _ => LogInv) (fun _ a b h ab => h.app ab) (fun a h => ⟨h.set, ⟨fun _ h _ => h, fun _ _ h => h, fun _ h _ => h⟩, h.set.always⟩) fun _ _ => hk _

theorem Log.writeThen_safe (level : Option Text) (entry : Entry) (frames : List (Text × ℕ)) : LogSafe 1 LogInv (Log.writeThen level entry frames) := by
  unfold Log.writeThen
  split
  · exact .out fun s h => h
  · refine .read fun s hs => ?_
    split
    · exact .out fun s h => h
    · refine .read fun s hs => ?_
      split
      · split
        · exact .out fun s h => h
        · refine .act (fun _ => LogInv) (fun _ a b h ab => h.app ab) (fun a h => ?_) fun _ _ => .out fun s h => h
          exact ⟨h.app (.log a _ _), ⟨fun _ h _ => h, fun _ _ h => h, fun _ h _ => h⟩, (h.app (.log a _ _)).always⟩
      · exact .out fun s h => h

theorem Log.safe {stdout : StreamArg} {p : LogProg} (h : LogCall stdout p) : SafeCall App LogInv LogAlways KeepsApp p := by
  cases h with
  | level l =>
    refine ⟨_, rfl, ?_⟩
    split
    · exact .out fun s h => h
    · refine LogSafe.read fun s hs => ?_
      split
      · exact .out fun s h => h
      · refine .act (fun _ => LogInv) (fun _ a b h ab => h.app ab) (fun a h => ?_) fun _ _ => .out fun s h => h
        exact ⟨h.setLevel _, ⟨fun _ h _ => h, fun _ _ h => h, fun _ h _ => h⟩, (h.setLevel _).always⟩
  | stream st => exact Log.streamThen_safe st .ret 0 (fun r => .out fun s h => h) fun r i => .out fun s h => h.inv
  | write l e frames =>
    refine ⟨_, rfl, LogSafe.read fun s hs => ?_⟩
    split
    · obtain ⟨q, h1, h2⟩ := Log.streamThen_safe stdout (Log.writeAfter l e frames) 1 (fun r => by
        refine .rel ?_
        cases r with
        | error x => exact .out fun s h => h
        | ok x => exact Log.writeThen_safe l e frames) (fun r i => by
        refine .rel ?_
        cases r with
        | error x => exact .out fun s h => h.inv
        | ok x => exact (Log.writeThen_safe l e frames).weaken fun s h => h.inv)
      rw [h1]
      exact .acq h2
    · exact Log.writeThen_safe l e frames

theorem LogInv.init (stderr : ℕ) : LogInv (LogState.init stderr) := by
  refine ⟨rfl, .inl rfl, ?_, by simp [LogState.init], by simp [LogState.init], by simp [LogState.init]⟩
  intro h hh ho
  simp only [LogState.init, List.mem_singleton] at hh
  subst hh
  rfl

/-! ### Histories of one thread -/

/-- What an event does. -/
def LogState.event (stdout : StreamArg) (s : LogState) : LogEvent → LogState × Res Unit
  | .level l => (Log.level l).run s
  | .stream st => (Log.stream st).run s
  | .write l e frames => (Log.write stdout l e frames).run s
  | .take => (loguru.take s .app, .ok ())
  | .insert h => (if s.owners[h.id]? = some .app ∧ ∀ g ∈ s.handlers, g.id ≠ h.id then loguru.insert s h else s, .ok ())
  | .remove id => (loguru.remove s id, .ok ())
  | .define n no => (if s.levels n = none then { s with levels := fun m => if m = n then some no else s.levels m } else s, .ok ())
  | .log no text => (loguru.deliver s no text, .ok ())

/-- What was written by handlers of Log. -/
def LogState.written (s : LogState) : List (ℕ × Text) := (s.out.filter fun d => s.owner d.id = some .log).map fun d => (d.sink, d.text)

/-- The state of the specification which a state stands for. -/
structure Stands (s : LogState) (a : Ideal) : Prop where
  inv : LogInv s
  levels : s.levels = a.levels
  threshold : s.level = a.threshold
  taken : s.owners.length = a.taken
  written : s.written = a.written
  current : match a.current with
    | .lazy => s.identity = 0
    | .at id sink true => s.identity = id ∧ id ≠ 0 ∧ { id, sink, level := 0 } ∈ s.handlers
    | .at id _ false => s.identity = id ∧ id ≠ 0 ∧ ∀ h ∈ s.handlers, h.id ≠ id

theorem Stands.init (stderr : ℕ) : Stands (LogState.init stderr) Ideal.init := ⟨.init stderr, rfl, rfl, rfl, rfl, rfl⟩

theorem filter_unique {l : List Handler} (hn : (l.map Handler.id).Nodup) {g : Handler} (hg : g ∈ l) : l.filter (fun h => h.id = g.id) = [g] := by
  induction l with
  | nil => simp at hg
  | cons x t ih =>
    rw [List.map_cons, List.nodup_cons] at hn
    rcases List.mem_cons.mp hg with rfl | hg
    · rw [List.filter_cons_of_pos (by simp)]
      congr 1
      rw [List.filter_eq_nil_iff]
      intro a ha e
      exact hn.1 (by rw [← (by simpa using e : a.id = g.id)]; exact List.mem_map_of_mem ha)
    · rw [List.filter_cons_of_neg, ih hn.2 hg]
      intro e
      exact hn.1 (by rw [(by simpa using e : x.id = g.id)]; exact List.mem_map_of_mem hg)

theorem written_deliver {s : LogState} {a : Ideal} (h : Stands s a) (no : ℕ) (text : Text) : (loguru.deliver s no text).written = (a.put text).written := by
  have e : (loguru.deliver s no text).written = s.written ++ (((s.handlers.filter fun g => g.level ≤ no).filter fun g => s.owner g.id = some .log).map fun g => (g.sink, text)) := by
    unfold LogState.written loguru.deliver
    simp only [List.filter_append, List.map_append, List.filter_map, List.map_map]
    rfl
  rw [e, h.written]
  have hc := h.current
  unfold Ideal.put
  rcases hcur : a.current with _ | ⟨id, sink, _ | _⟩
  · rw [hcur] at hc
    have : (s.handlers.filter fun g => g.level ≤ no).filter (fun g => s.owner g.id = some .log) = [] := by
      rw [List.filter_eq_nil_iff]
      intro g hg ho
      have ho' : s.owner g.id = some .log := by simpa using ho
      have := h.inv.own g (List.mem_filter.mp hg).1 ho'
      rw [hc] at this
      rw [this, h.inv.zero] at ho'
      simp at ho'
    simp [this]
  · rw [hcur] at hc
    have : (s.handlers.filter fun g => g.level ≤ no).filter (fun g => s.owner g.id = some .log) = [] := by
      rw [List.filter_eq_nil_iff]
      intro g hg ho
      have ho' : s.owner g.id = some .log := by simpa using ho
      have h1 := (List.mem_filter.mp hg).1
      have := h.inv.own g h1 ho'
      rw [hc.1] at this
      exact hc.2.2 g h1 this
    simp [this]
  · rw [hcur] at hc
    obtain ⟨h1, h2, h3⟩ := hc
    have ho : s.owner id = some .log := by
      rcases h.inv.identity with e | e
      · exact absurd (h1.symm.trans e) h2
      · rwa [h1] at e
    have : (s.handlers.filter fun g => g.level ≤ no).filter (fun g => s.owner g.id = some .log) = [{ id, sink, level := 0 }] := by
      rw [List.filter_filter, ← filter_unique h.inv.nodup h3]
      apply List.filter_congr
      intro g hg
      by_cases e : g.id = id
      · have : g = { id, sink, level := 0 } := by
          have hg' : g ∈ s.handlers.filter (fun f => f.id = ({ id, sink, level := 0 } : Handler).id) := List.mem_filter.mpr ⟨hg, by simpa using e⟩
          rw [filter_unique h.inv.nodup h3] at hg'
          simpa using hg'
        simp [this, ho]
      · have : s.owner g.id ≠ some .log := fun ho' => e ((h.inv.own g hg ho').trans h1)
        simp [e, this]
    simp [this]

theorem Stands.deliver {s : LogState} {a : Ideal} (h : Stands s a) (no : ℕ) (text : Text) : Stands (loguru.deliver s no text) (a.put text) := by
  have hp : (a.put text).levels = a.levels ∧ (a.put text).threshold = a.threshold ∧ (a.put text).taken = a.taken ∧ (a.put text).current = a.current := by
    unfold Ideal.put
    split <;> simp
  refine ⟨h.inv.app (.log s no text), h.levels.trans hp.1.symm, h.threshold.trans hp.2.1.symm, h.taken.trans hp.2.2.1.symm, written_deliver h no text, ?_⟩
  rw [hp.2.2.2]
  exact h.current

/-- Written texts do not depend on identities taken later. -/
theorem written_take {s : LogState} (h : ∀ d ∈ s.out, d.id < s.owners.length) (o : Owner) : (loguru.take s o).written = s.written := by
  unfold LogState.written
  congr 1
  apply List.filter_congr
  intro d hd
  rw [owner_take, if_pos (h d hd)]

theorem Log.level_run (l : Option Text) (s : LogState) : (Log.level l).run s = match l.bind fun l => s.levels (upper l) with
    | none => (s, .error .valueError)
    | some no => ({ s with level := no }, .ok ()) := by
  cases l with
  | none => rfl
  | some l =>
    simp only [Log.level, Prog.run, id, Option.bind_some]
    split <;> simp_all [Prog.run]

theorem Log.writeThen_run (l : Option Text) (e : Entry) (frames : List (Text × ℕ)) (s : LogState) : (Log.writeThen l e frames).run s = match l.bind fun l => s.levels (upper l) with
    | none => (s, .error .valueError)
    | some no => if s.level ≤ no then match entryText e frames with
        | .error x => (s, .error x)
        | .ok text => (loguru.deliver s no text, .ok ()) else (s, .ok ()) := by
  cases l with
  | none => rfl
  | some l =>
    simp only [Log.writeThen, Prog.run, id, Option.bind_some]
    rcases s.levels (upper l) with _ | no
    · rfl
    · simp only [Prog.run, id, ge_iff_le]
      by_cases h : s.level ≤ no
      · simp only [h, if_true]
        rcases entryText e frames with x | text <;> rfl
      · simp only [h, if_false]
        rfl

/-- The state after a successful stream. -/
def newStream (s : LogState) (st : StreamArg) : LogState :=
  { loguru.insert (loguru.take (loguru.remove s s.identity) .log) { id := s.owners.length, sink := st.sink, level := 0 } with identity := s.owners.length }

theorem Log.streamThen_run (st : StreamArg) (k : Res Unit → LogProg) (s : LogState) : (Log.streamThen st k).run s =
    if st.truthy = false ∨ st.hasWrite = false then (k (.error .valueError)).run s
    else if st.callable = false then (k (.error .typeError)).run (loguru.take (loguru.remove s s.identity) .log)
    else (k (.ok ())).run (newStream s st) := by
  unfold Log.streamThen
  simp only [Prog.run]
  by_cases h : st.truthy = false ∨ st.hasWrite = false
  · simp only [if_pos h, Prog.run]
  · simp only [if_neg h, Prog.run, id]
    by_cases h' : st.callable = false
    · simp only [if_pos h', Prog.run]
    · simp only [if_neg h', Prog.run]
      rfl

theorem Stands.failed {s : LogState} {a : Ideal} (h : Stands s a) : Stands (loguru.take (loguru.remove s s.identity) .log) { a with taken := a.taken + 1, current := a.current.drop } := by
  have hm := h.inv.remove.1.take.1
  refine ⟨hm.inv, h.levels, h.threshold, by simp [loguru.take, loguru.remove, h.taken], ?_, ?_⟩
  · rw [written_take]
    · exact h.written
    · exact h.inv.out
  · have hc := h.current
    simp only [Current.drop]
    rcases hcur : a.current with _ | ⟨id, sink, _ | _⟩
    · rw [hcur] at hc; exact hc
    · rw [hcur] at hc
      exact ⟨hc.1, hc.2.1, fun g hg => hc.2.2 g (List.mem_filter.mp hg).1⟩
    · rw [hcur] at hc
      refine ⟨hc.1, hc.2.1, fun g hg => ?_⟩
      have := (List.mem_filter.mp hg).2
      rw [hc.1] at this
      simpa using this

theorem Stands.renewed {s : LogState} {a : Ideal} (h : Stands s a) (st : StreamArg) : Stands (newStream s st) { a with taken := a.taken + 1, current := .at a.taken st.sink true } := by
  have hm := h.inv.remove.1.take.1
  have ho : (loguru.take (loguru.remove s s.identity) .log).owner s.owners.length = some .log := by
    rw [owner_take]
    simp [loguru.remove]
  have hi := (hm.insert (k := st.sink) ho).1.set
  refine ⟨hi, h.levels, h.threshold, by simp [newStream, loguru.insert, loguru.take, loguru.remove, h.taken], ?_, ?_⟩
  · have := written_take (s := loguru.remove s s.identity) h.inv.out .log
    exact this.trans h.written
  · refine ⟨h.taken, ?_, ?_⟩
    · rw [← h.taken]
      have := owner_lt h.inv.zero
      omega
    · simp only [newStream, loguru.insert, h.taken]
      simp

theorem Stands.entry {s : LogState} {a : Ideal} (h : Stands s a) (l : Option Text) (e : Entry) (frames : List (Text × ℕ)) :
    Stands ((Log.writeThen l e frames).run s).1 (a.entry l e frames).1 ∧ ((Log.writeThen l e frames).run s).2 = (a.entry l e frames).2 := by
  rw [Log.writeThen_run, Ideal.entry, h.levels, h.threshold]
  rcases l.bind fun l => a.levels (upper l) with _ | no
  · exact ⟨h, rfl⟩
  · by_cases h' : a.threshold ≤ no
    · simp only [h', if_true]
      rcases entryText e frames with x | text
      · exact ⟨h, rfl⟩
      · exact ⟨h.deliver no text, rfl⟩
    · simp only [h', if_false]
      exact ⟨h, by simp⟩

theorem Stands.step {s : LogState} {a : Ideal} (stdout : StreamArg) (h : Stands s a) (e : LogEvent) : Stands (s.event stdout e).1 (a.step stdout e).1 ∧ (s.event stdout e).2 = (a.step stdout e).2 := by
  cases e with
  | level l =>
    simp only [LogState.event, Ideal.step, Log.level_run, ← h.levels]
    rcases l.bind fun l => s.levels (upper l) with _ | no
    · exact ⟨h, rfl⟩
    · exact ⟨⟨h.inv.setLevel no, rfl, rfl, h.taken, h.written, h.current⟩, rfl⟩
  | stream st =>
    simp only [LogState.event, Ideal.step, Log.stream, Log.streamThen_run, Ideal.stream, Prog.run]
    split
    · exact ⟨h, rfl⟩
    · split
      · exact ⟨h.failed, rfl⟩
      · exact ⟨h.renewed st, rfl⟩
  | write l e frames =>
    simp only [LogState.event, Ideal.step, Log.write, Prog.run, id]
    have hc := h.current
    rcases hcur : a.current with _ | ⟨id, sink, live⟩
    · rw [hcur] at hc
      simp only [hc, if_true, Log.streamThen_run, Ideal.stream]
      by_cases h1 : stdout.truthy = false ∨ stdout.hasWrite = false
      · simp only [h1, if_true, Log.writeAfter, Prog.run]
        exact ⟨h, by first | rfl | trivial⟩
      · simp only [h1, if_false]
        by_cases h2 : stdout.callable = false
        · simp only [h2, if_true, Log.writeAfter, Prog.run]
          have := h.failed
          rw [hc] at this
          exact ⟨this, by simp⟩
        · simp only [h2, Log.writeAfter]
          exact (h.renewed stdout).entry l e frames
    · have hne : s.identity ≠ 0 := by
        rw [hcur] at hc
        rcases live with _ | _
        · rw [hc.1]; exact hc.2.1
        · rw [hc.1]; exact hc.2.1
      simp only [hne, if_false]
      exact h.entry l e frames
  | take =>
    refine ⟨⟨h.inv.app (.take s), h.levels, h.threshold, by simp [LogState.event, Ideal.step, loguru.take, h.taken], ?_, h.current⟩, rfl⟩
    exact (written_take h.inv.out .app).trans h.written
  | insert g =>
    simp only [LogState.event, Ideal.step]
    split
    · rename_i hg
      refine ⟨⟨h.inv.app (.insert s g hg.1 hg.2), h.levels, h.threshold, h.taken, h.written, ?_⟩, by first | rfl | trivial⟩
      have hc := h.current
      rcases hcur : a.current with _ | ⟨id, sink, _ | _⟩
      · rw [hcur] at hc; exact hc
      · rw [hcur] at hc
        refine ⟨hc.1, hc.2.1, fun f hf e => ?_⟩
        simp only [loguru.insert, List.mem_append, List.mem_singleton] at hf
        rcases hf with hf | rfl
        · exact hc.2.2 f hf e
        · have h1 := hg.1
          rcases h.inv.identity with e' | e'
          · exact hc.2.1 (hc.1.symm.trans e')
          · rw [hc.1, ← e] at e'
            simp only [LogState.owner] at e'
            rw [e'] at h1; simp at h1
      · rw [hcur] at hc
        exact ⟨hc.1, hc.2.1, by simp only [loguru.insert, List.mem_append]; exact .inl hc.2.2⟩
    · exact ⟨h, by first | rfl | trivial⟩
  | remove id =>
    simp only [LogState.event, Ideal.step]
    have hi := h.inv.app (.remove s id)
    have hc := h.current
    rcases hcur : a.current with _ | ⟨id', sink, _ | _⟩
    · rw [hcur] at hc
      refine ⟨⟨hi, h.levels, h.threshold, h.taken, h.written, ?_⟩, rfl⟩
      rw [hcur]; exact hc
    · rw [hcur] at hc
      refine ⟨⟨hi, h.levels, h.threshold, h.taken, h.written, ?_⟩, rfl⟩
      exact ⟨hc.1, hc.2.1, fun f hf => hc.2.2 f (List.mem_filter.mp hf).1⟩
    · rw [hcur] at hc
      refine ⟨⟨hi, h.levels, h.threshold, h.taken, h.written, ?_⟩, rfl⟩
      by_cases e : id = id'
      · simp only [e, ne_eq, not_true_eq_false, decide_false, Bool.and_false]
        exact ⟨hc.1, hc.2.1, fun f hf => by simpa using (List.mem_filter.mp hf).2⟩
      · simp only [ne_eq, e, not_false_eq_true, decide_true, Bool.and_true]
        refine ⟨hc.1, hc.2.1, List.mem_filter.mpr ⟨hc.2.2, ?_⟩⟩
        simpa using Ne.symm e
  | define n no =>
    simp only [LogState.event, Ideal.step, ← h.levels]
    split
    · rename_i hn
      exact ⟨⟨h.inv.app (.define s n no hn), rfl, h.threshold, h.taken, h.written, h.current⟩, by first | rfl | trivial⟩
    · exact ⟨h, by first | rfl | trivial⟩
  | log no text => exact ⟨h.deliver no text, rfl⟩

end Verif
