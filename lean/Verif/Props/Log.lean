import Verif.Lemmas.Log
import Verif.Lemmas.Rest

/-
Properties C57, C58 and C59: Log.
-/

namespace Verif.Props

open Verif Verif.Spec

/-- The events of a history one after another: the last state, and the results. -/
def history (stdout : StreamArg) (s : LogState) (events : List LogEvent) : LogState × List (Res Unit) :=
  events.foldl (fun r e => ((r.1.event stdout e).1, r.2 ++ [(r.1.event stdout e).2])) (s, [])

theorem history_stands (stdout : StreamArg) (stderr : ℕ) (events : List LogEvent) : Stands (history stdout (LogState.init stderr) events).1 (Ideal.init.run stdout events).1 ∧
    (history stdout (LogState.init stderr) events).2 = (Ideal.init.run stdout events).2 := by
  have key : ∀ (events : List LogEvent) (s : LogState) (a : Ideal) (l : List (Res Unit)), Stands s a →
      Stands (events.foldl (fun r e => ((r.1.event stdout e).1, r.2 ++ [(r.1.event stdout e).2])) (s, l)).1 (events.foldl (fun r e => ((r.1.step stdout e).1, r.2 ++ [(r.1.step stdout e).2])) (a, l)).1 ∧
      (events.foldl (fun r e => ((r.1.event stdout e).1, r.2 ++ [(r.1.event stdout e).2])) (s, l)).2 = (events.foldl (fun r e => ((r.1.step stdout e).1, r.2 ++ [(r.1.step stdout e).2])) (a, l)).2 := by
    intro events
    induction events with
    | nil => intro s a l h; exact ⟨h, rfl⟩
    | cons e t ih =>
      intro s a l h
      obtain ⟨h1, h2⟩ := h.step stdout e
      rw [List.foldl_cons, List.foldl_cons]
      simp only [h2]
      exact ih _ _ _ h1
  exact key events (LogState.init stderr) Ideal.init [] (.init stderr)

/-- C57: after any history of calls of Log and of direct uses of loguru by the application, the results of the calls, and what handlers of Log wrote to which streams, are those of the specification:
an entry is written exactly once to the current stream if its level is at least the current one, and not at all otherwise. -/
theorem C57_history (stdout : StreamArg) (stderr : ℕ) (events : List LogEvent) :
    (history stdout (LogState.init stderr) events).2 = (Ideal.init.run stdout events).2 ∧ (history stdout (LogState.init stderr) events).1.written = (Ideal.init.run stdout events).1.written :=
  ⟨(history_stands stdout stderr events).2, (history_stands stdout stderr events).1.written⟩

/-- A stream which Log accepts. -/
def goodStream (sink : ℕ) : StreamArg := { sink, truthy := true, hasWrite := true, callable := true }

/-- The specification at work: an entry below the level is not written, the others are written once to the stream of the moment. -/
example : (Ideal.init.run (goodStream 1) [.write (some "info".toList) (.text "a".toList) [], .write (some "Debug".toList) (.text "b".toList) [], .level (some "Debug".toList), .stream (goodStream 7),
    .write (some "debug".toList) (.text "c".toList) []]).1.written = [(1, "a".toList), (7, "c".toList)] := by decide +kernel

/-- C57, one entry, in the words of the property: while a handler of Log is there, a write of a level defined in loguru adds exactly one line, to the current stream, or none. -/
theorem C57_once (stdout : StreamArg) (stderr : ℕ) (events : List LogEvent) (id sink : ℕ) (hc : (Ideal.init.run stdout events).1.current = .at id sink true)
    (l text : Text) (no : ℕ) (hl : (Ideal.init.run stdout events).1.levels (upper l) = some no) :
    (history stdout (LogState.init stderr) (events ++ [.write (some l) (.text text) []])).1.written =
      (history stdout (LogState.init stderr) events).1.written ++ if (Ideal.init.run stdout events).1.threshold ≤ no then [(sink, text)] else [] := by
  rw [(C57_history stdout stderr _).2, (C57_history stdout stderr _).2]
  have e : Ideal.init.run stdout (events ++ [.write (some l) (.text text) []]) = ((Ideal.step stdout (Ideal.init.run stdout events).1 (.write (some l) (.text text) [])).1,
      (Ideal.init.run stdout events).2 ++ [(Ideal.step stdout (Ideal.init.run stdout events).1 (.write (some l) (.text text) [])).2]) := by
    simp [Ideal.run, List.foldl_append]
  rw [e]
  simp only [Ideal.step, hc, Ideal.entry, Option.bind_some, hl]
  by_cases h : (Ideal.init.run stdout events).1.threshold ≤ no
  · simp only [h, if_true, entryText, Ideal.put, hc]
  · simp only [h, if_false, List.append_nil]

example : (history (goodStream 1) (LogState.init 0) ([.stream (goodStream 7)] ++ [.write (some "Error".toList) (.text "a".toList) []])).1.written =
    (history (goodStream 1) (LogState.init 0) [.stream (goodStream 7)]).1.written ++ [(7, "a".toList)] := by
  have h := C57_once (goodStream 1) 0 [.stream (goodStream 7)] 1 7 rfl "Error".toList "a".toList 40 (by decide +kernel)
  rw [if_pos (by decide +kernel)] at h
  exact h

/-- C57, the first entry before any stream was chosen goes to standard output. -/
theorem C57_lazy (stdout : StreamArg) (ht : stdout.truthy = true) (hw : stdout.hasWrite = true) (hk : stdout.callable = true) (stderr : ℕ) (l text : Text) (no : ℕ) (hl : loguru.levels.lookup (upper l) = some no) (hn : 20 ≤ no) :
    (history stdout (LogState.init stderr) [.write (some l) (.text text) []]).1.written = [(stdout.sink, text)] := by
  rw [(C57_history stdout stderr _).2]
  simp only [Ideal.run, List.foldl_cons, List.foldl_nil, Ideal.step, Ideal.init, Ideal.stream, ht, hw, hk, Ideal.entry, Option.bind_some, entryText, Ideal.put]
  simp [hl, hn]

example : (history (goodStream 1) (LogState.init 0) [.write (some "wArNiNg".toList) (.text "a".toList) []]).1.written = [(1, "a".toList)] :=
  C57_lazy (goodStream 1) rfl rfl rfl 0 "wArNiNg".toList "a".toList 30 (by decide +kernel) (by decide)

/-- C57: an entry is lost without an exception if the application removed the handler of Log, or if a stream without a callable `write` was refused. -/
theorem C57_lost (stdout : StreamArg) (stderr : ℕ) (events : List LogEvent) (id sink : ℕ) (hc : (Ideal.init.run stdout events).1.current = .at id sink false)
    (l text : Text) (no : ℕ) (hl : (Ideal.init.run stdout events).1.levels (upper l) = some no) :
    ((history stdout (LogState.init stderr) events).1.event stdout (.write (some l) (.text text) [])).2 = .ok () ∧
    (history stdout (LogState.init stderr) (events ++ [.write (some l) (.text text) []])).1.written = (history stdout (LogState.init stderr) events).1.written := by
  have e : Ideal.init.run stdout (events ++ [.write (some l) (.text text) []]) = ((Ideal.step stdout (Ideal.init.run stdout events).1 (.write (some l) (.text text) [])).1,
      (Ideal.init.run stdout events).2 ++ [(Ideal.step stdout (Ideal.init.run stdout events).1 (.write (some l) (.text text) [])).2]) := by
    simp [Ideal.run, List.foldl_append]
  have e' : history stdout (LogState.init stderr) (events ++ [.write (some l) (.text text) []]) = (((history stdout (LogState.init stderr) events).1.event stdout (.write (some l) (.text text) [])).1,
      (history stdout (LogState.init stderr) events).2 ++ [((history stdout (LogState.init stderr) events).1.event stdout (.write (some l) (.text text) [])).2]) := by
    simp [history, List.foldl_append]
  have step : Ideal.step stdout (Ideal.init.run stdout events).1 (.write (some l) (.text text) []) = ((Ideal.init.run stdout events).1, .ok ()) := by
    simp only [Ideal.step, hc, Ideal.entry, Option.bind_some, hl, entryText, Ideal.put, ite_self]
  constructor
  · have h1 := (C57_history stdout stderr (events ++ [.write (some l) (.text text) []])).1
    rw [e, e', (C57_history stdout stderr events).1, step] at h1
    simpa using h1
  · rw [(C57_history stdout stderr _).2, (C57_history stdout stderr _).2, e, step]

/-- The hypothesis of C57_lost after the application removed all handlers. -/
example : (Ideal.init.run (goodStream 1) [.stream (goodStream 7), .remove 0, .remove 1]).1.current = .at 1 7 false := rfl

/-- The documented names of levels (log.py:93). -/
def documentedLevels : List Text := ["Critical".toList, "Error".toList, "Warning".toList, "Success".toList, "Info".toList, "Debug".toList, "Trace".toList]

/-- The documented levels are in decreasing order. -/
theorem C57_level_order : documentedLevels.map (fun l => (LogState.init 0).levels (upper l)) = [some 50, some 40, some 30, some 25, some 20, some 10, some 5] := by decide +kernel

theorem upper_same {s t : Text} (h : SameLetters s t) : upper s = upper t := by
  have key : ∀ c : Char, c.toUpper = c.toLower.toUpper := by
    intro c
    rw [char_eq_iff, toUpper_toNat, toUpper_toNat, toLower_toNat]
    split_ifs <;> omega
  have e : ∀ t : Text, upper t = upper (t.map Char.toLower) := by
    intro t
    unfold upper
    rw [List.map_map]
    exact List.map_congr_left fun c _ => key c
  rw [e s, e t, h]

/-- A level which is known stays known. -/
theorem levels_kept (stdout : StreamArg) (events : List LogEvent) (n : Text) (no : ℕ) (h0 : Ideal.init.levels n = some no) :
    (Ideal.init.run stdout events).1.levels n = some no := by
  have mono : ∀ (a : Ideal) (e : LogEvent) (n : Text) (no : ℕ), a.levels n = some no → (a.step stdout e).1.levels n = some no := by
    have hput : ∀ (a : Ideal) (t : Text), (a.put t).levels = a.levels := fun a t => by unfold Ideal.put; split <;> rfl
    have hent : ∀ (a : Ideal) l e f, (a.entry l e f).1.levels = a.levels := fun a l e f => by
      unfold Ideal.entry
      split
      · rfl
      · split
        · split
          · rfl
          · exact hput _ _
        · rfl
    have hstr : ∀ (a : Ideal) st, (a.stream st).1.levels = a.levels := fun a st => by
      unfold Ideal.stream
      split
      · rfl
      · split <;> rfl
    intro a e n no h
    cases e with
    | level l => simp only [Ideal.step]; split <;> exact h
    | stream st => rw [Ideal.step, hstr]; exact h
    | write l e f =>
      simp only [Ideal.step]
      split
      · rw [hent]; exact h
      · have hs := hstr a stdout
        split
        · rename_i a' x hx
          rw [hx] at hs
          rw [hs]; exact h
        · rename_i a' hx
          rw [hx] at hs
          rw [hent, hs]; exact h
    | take => exact h
    | insert g => exact h
    | remove id => simp only [Ideal.step]; split <;> exact h
    | define m k =>
      simp only [Ideal.step]
      split
      · rename_i hm
        have : n ≠ m := by rintro rfl; rw [h] at hm; simp at hm
        simp only [this, if_false]
        exact h
      · exact h
    | log k t => rw [Ideal.step, hput]; exact h
  have key : ∀ (events : List LogEvent) (a : Ideal) (r : List (Res Unit)) (no : ℕ), a.levels n = some no →
      (events.foldl (fun r e => ((r.1.step stdout e).1, r.2 ++ [(r.1.step stdout e).2])) (a, r)).1.levels n = some no := by
    intro events
    induction events with
    | nil => intro a r no h; exact h
    | cons e t ih => intro a r no h; exact ih _ _ no (mono a e _ no h)
  exact key events Ideal.init [] no h0

/-- The number of a documented level. -/
theorem documented_number (i : ℕ) (hi : i < documentedLevels.length) (l : Text) (hl : SameLetters l documentedLevels[i]) :
    ∃ no, Ideal.init.levels (upper l) = some no ∧ [50, 40, 30, 25, 20, 10, 5][i]? = some no := by
  rw [upper_same hl]
  have : ∀ i : Fin 7, ∃ no ∈ [50, 40, 30, 25, 20, 10, 5], loguru.levels.lookup (upper (documentedLevels.getD i [])) = some no ∧ [50, 40, 30, 25, 20, 10, 5][i.1]? = some no := by
    decide +kernel
  obtain ⟨no, -, h1, h2⟩ := this ⟨i, hi⟩
  refine ⟨no, ?_, h2⟩
  rw [List.getD_eq_getElem?_getD, List.getElem?_eq_getElem hi] at h1
  exact h1

/-- C57: the documented levels are accepted in upper and lower case, after any history. -/
theorem C57_levels (stdout : StreamArg) (stderr : ℕ) (events : List LogEvent) (l : Text) (hl : ∃ d ∈ documentedLevels, SameLetters l d) :
    ((history stdout (LogState.init stderr) events).1.event stdout (.level (some l))).2 = .ok () := by
  obtain ⟨d, hd, hs⟩ := hl
  obtain ⟨i, hi, rfl⟩ := List.mem_iff_getElem.mp hd
  obtain ⟨no, h, -⟩ := documented_number i hi l hs
  have h' := levels_kept stdout events _ _ h
  rw [((history_stands stdout stderr events).1.step stdout _).2]
  simp only [Ideal.step, Option.bind_some, h']

example : ∃ d ∈ documentedLevels, SameLetters "wArNiNg".toList d := ⟨"Warning".toList, by decide +kernel, by unfold SameLetters; decide +kernel⟩

/-- C57: after a level was set, in any case and after any history in which a stream is in place, an entry is written, once and to that stream, exactly if its level is the one
set or stands before it in the documented order (from Critical to Trace). -/
theorem C57_threshold (stdout : StreamArg) (stderr : ℕ) (events : List LogEvent) (id sink : ℕ) (hc : (Ideal.init.run stdout events).1.current = .at id sink true)
    (i j : ℕ) (hi : i < documentedLevels.length) (hj : j < documentedLevels.length) (l m text : Text) (hl : SameLetters l documentedLevels[i])
    (hm : SameLetters m documentedLevels[j]) :
    (history stdout (LogState.init stderr) (events ++ [.level (some l), .write (some m) (.text text) []])).1.written =
      (history stdout (LogState.init stderr) events).1.written ++ if j ≤ i then [(sink, text)] else [] := by
  obtain ⟨u, hu, hu'⟩ := documented_number i hi l hl
  obtain ⟨v, hv, hv'⟩ := documented_number j hj m hm
  have hc1 : Ideal.init.run stdout (events ++ [.level (some l)]) = (({ (Ideal.init.run stdout events).1 with threshold := u } : Ideal), (Ideal.init.run stdout events).2 ++ [.ok ()]) := by
    have h' := levels_kept stdout events _ _ hu
    have e : Ideal.init.run stdout (events ++ [.level (some l)]) = ((Ideal.step stdout (Ideal.init.run stdout events).1 (.level (some l))).1,
        (Ideal.init.run stdout events).2 ++ [(Ideal.step stdout (Ideal.init.run stdout events).1 (.level (some l))).2]) := by
      simp [Ideal.run, List.foldl_append]
    rw [e]
    simp only [Ideal.step, Option.bind_some, h']
  have hcur : (Ideal.init.run stdout (events ++ [.level (some l)])).1.current = .at id sink true := by rw [hc1]; exact hc
  have := C57_once stdout stderr (events ++ [.level (some l)]) id sink hcur m text v (levels_kept stdout _ _ _ hv)
  rw [List.append_assoc, List.singleton_append] at this
  rw [this]
  have hw : (history stdout (LogState.init stderr) (events ++ [.level (some l)])).1.written = (history stdout (LogState.init stderr) events).1.written := by
    rw [(C57_history stdout stderr _).2, (C57_history stdout stderr _).2, hc1]
  rw [hw, hc1]
  have hord : ∀ i j : Fin 7, ∀ u ∈ [50, 40, 30, 25, 20, 10, 5], ∀ v ∈ [50, 40, 30, 25, 20, 10, 5], [50, 40, 30, 25, 20, 10, 5][i.1]? = some u →
      [50, 40, 30, 25, 20, 10, 5][j.1]? = some v → (u ≤ v ↔ j.1 ≤ i.1) := by decide +kernel
  have := hord ⟨i, hi⟩ ⟨j, hj⟩ u (List.mem_of_getElem? hu') v (List.mem_of_getElem? hv') hu' hv'
  simp only [this]

/-- With a stream and the level "warning", an entry of level "ERROR" is written: it stands before. -/
example : (Ideal.init.run (goodStream 1) [.stream (goodStream 7)]).1.current = .at 1 7 true ∧ SameLetters "ERROR".toList (documentedLevels[1]'(by decide)) ∧
    SameLetters "warning".toList (documentedLevels[2]'(by decide)) ∧ 1 ≤ 2 := by
  refine ⟨rfl, ?_, ?_, by decide⟩ <;> unfold SameLetters <;> decide +kernel

/-! ### C58: handlers -/

/-- C58: whatever the calls of any number of threads, and whatever the application does with loguru between any two of their steps, at every moment at most one handler belongs to Log. -/
theorem C58_one_handler (stdout : StreamArg) (stderr : ℕ) (calls : ℕ → List LogProg) (hc : ∀ t p, p ∈ calls t → LogCall stdout p) (c : Conf LogState (Res Unit))
    (h : Reach App (Conf.init (LogState.init stderr) calls) c) : (c.shared.handlers.filter fun g => c.shared.owner g.id = some .log).length ≤ 1 :=
  (SafeConf.reach (env := App) (I := LogInv) (J := LogAlways) (G := KeepsApp) (fun _ _ h ab => LogInv.app h ab) (fun _ _ h ab => OneHandler.app h ab) (.init stderr) (LogInv.init stderr).always (fun t p hp => Log.safe (hc t p hp)) h).1.1

/-- One thread sets the stream and then the level, others do nothing; the application takes an identity before the first step. -/
example : ∃ c, Reach App (Conf.init (LogState.init 0) fun t => if t = 0 then [Log.stream (goodStream 7), Log.level none] else []) c ∧ c.shared.owners = [.default, .app] ∧
    (c.shared.handlers.filter fun g => c.shared.owner g.id = some .log).length ≤ 1 := by
  have r : Reach App (Conf.init (LogState.init 0) fun t => if t = 0 then [Log.stream (goodStream 7), Log.level none] else []) _ := Reach.refl.env (.take _)
  refine ⟨_, r, rfl, C58_one_handler (goodStream 1) 0 _ (fun t p hp => ?_) _ r⟩
  split at hp
  · simp at hp
    rcases hp with rfl | rfl
    · exact .stream _
    · exact .level _
  · simp at hp

/-- C58: no step of Log removes or adds a handler of the application. -/
theorem C58_keeps_app (stdout : StreamArg) (stderr : ℕ) (calls : ℕ → List LogProg) (hc : ∀ t p, p ∈ calls t → LogCall stdout p) (c c' : Conf LogState (Res Unit))
    (h : Reach App (Conf.init (LogState.init stderr) calls) c) (st : Step c c') (g : Handler) (hg : c.shared.owner g.id = some .app) : g ∈ c.shared.handlers ↔ g ∈ c'.shared.handlers := by
  have hs := SafeConf.reach (env := App) (I := LogInv) (J := LogAlways) (G := KeepsApp) (fun _ _ h ab => LogInv.app h ab) (fun _ _ h ab => OneHandler.app h ab) (.init stderr) (LogInv.init stderr).always (fun t p hp => Log.safe (hc t p hp)) h
  rcases (hs.step (fun _ _ h ab => LogInv.app h ab) st).2 with e | e
  · rw [e]
  · exact ⟨fun h => e.1 g h hg, fun h => e.2.2 g h hg⟩

/-- The hypotheses are met by executions which do something: a thread in the middle of a stream call, and the application taking an identity. -/
example : ∃ c c', Reach App (Conf.init (LogState.init 0) fun t => if t = 0 then [Log.stream (goodStream 7)] else []) c ∧ Step c c' ∧ c'.lock = some (0, 1) ∧ c'.shared.owners = [.default, .app] := by
  have r0 : Reach App (Conf.init (LogState.init 0) fun t => if t = 0 then [Log.stream (goodStream 7)] else []) (Conf.init (LogState.init 0) fun t => if t = 0 then [Log.stream (goodStream 7)] else []) := .refl
  have r1 := r0.step (.invoke _ 0 (Log.stream (goodStream 7)) [] rfl rfl)
  have r2 := r1.env (.take _)
  exact ⟨_, _, r2, .acquire _ 0 _ rfl rfl, rfl, rfl⟩

/-- C58: Log.level touches no handler, nor does a refused stream. -/
theorem C58_level (l : Option Text) (s : LogState) : ((Log.level l).run s).1.handlers = s.handlers ∧ ((Log.level l).run s).1.identity = s.identity := by
  rw [Log.level_run]
  split <;> exact ⟨rfl, rfl⟩

example := C58_level (some "DEBUG".toList) (LogState.init 0)

/-- C58: a stream which is false or has no `write` raises ValueError, and nothing changes; one which is accepted replaces the handler of Log. -/
theorem C58_stream (st : StreamArg) (s : LogState) : ((st.truthy = false ∨ st.hasWrite = false) → (Log.stream st).run s = (s, .error .valueError)) ∧
    (st.truthy = true → st.hasWrite = true → st.callable = true → ((Log.stream st).run s).2 = .ok () ∧
      ((Log.stream st).run s).1.handlers = (s.handlers.filter fun h => h.id ≠ s.identity) ++ [{ id := s.owners.length, sink := st.sink, level := 0 }]) := by
  rw [Log.stream, Log.streamThen_run]
  constructor
  · intro h
    rw [if_pos h]
    rfl
  · intro h1 h2 h3
    rw [if_neg (by simp [h1, h2]), if_neg (by simp [h3])]
    exact ⟨rfl, rfl⟩

/-- C58, defect: a stream whose `write` cannot be called raises TypeError after the handler of Log was removed; from then on entries are lost (C57_lost). -/
theorem C58_refused (st : StreamArg) (ht : st.truthy = true) (hw : st.hasWrite = true) (hk : st.callable = false) (s : LogState) :
    ((Log.stream st).run s).2 = .error .typeError ∧ ((Log.stream st).run s).1.handlers = s.handlers.filter (fun h => h.id ≠ s.identity) ∧ ((Log.stream st).run s).1.identity = s.identity := by
  rw [Log.stream, Log.streamThen_run, if_neg (by simp [ht, hw]), if_pos hk]
  exact ⟨rfl, rfl, rfl⟩

example : ((Log.stream { sink := 3, truthy := true, hasWrite := true, callable := false }).run (LogState.init 0)).2 = .error .typeError := (C58_refused _ rfl rfl rfl _).1

/-! ### C59: threads -/

/-- C59: when all threads have made their calls, in whatever interleaving of their steps, the state and the results are those of the calls one after another in some order which keeps the order of each thread. -/
theorem C59_serializable (stdout : StreamArg) (s : LogState) (calls : ℕ → List LogProg) (hc : ∀ t p, p ∈ calls t → LogCall stdout p) (c : Conf LogState (Res Unit))
    (h : Reach (fun _ _ => False) (Conf.init s calls) c) (hf : Finished c) :
    ∃ order, (∀ t, callsOf order t = calls t) ∧ c.shared = (sequential s order).1 ∧ ∀ t, (c.threads t).done = (sequential s order).2 t := by
  obtain ⟨_, hi⟩ := Inv.reach (fun t p hp => Log.guarded (hc t p hp)) h
  rcases hl : c.lock with _ | ⟨t0, d⟩
  · rw [hl] at hi
    obtain ⟨h1, h2⟩ := hi
    have key : ∀ t, callsOf c.order t = calls t ∧ (c.threads t).done = (sequential s c.order).2 t := by
      intro t
      obtain ⟨f1, f2⟩ := hf t
      rcases h2 t with ⟨_, e2, e3⟩ | ⟨k, e1, _⟩ | ⟨r, e1, _⟩
      · rw [f1, List.append_nil] at e3
        exact ⟨e3.symm, e2⟩
      · simp [f2] at e1
      · simp [f2] at e1
    exact ⟨c.order, fun t => (key t).1, h1, fun t => (key t).2⟩
  · rw [hl] at hi
    obtain ⟨_, _, p, _, hp, _⟩ := hi
    simp [(hf t0).2] at hp

/-- C59: at any moment of any execution at which no thread is in Log, the state is that of calls one after another, and the results which the threads have are theirs
(but the last of a thread which is about to return). -/
theorem C59_moments (stdout : StreamArg) (s : LogState) (calls : ℕ → List LogProg) (hc : ∀ t p, p ∈ calls t → LogCall stdout p) (c : Conf LogState (Res Unit))
    (h : Reach (fun _ _ => False) (Conf.init s calls) c) (hl : c.lock = none) :
    c.shared = (sequential s c.order).1 ∧ ∀ t, callsOf c.order t <+: calls t ∧ (c.threads t).done <+: (sequential s c.order).2 t ∧ ((c.threads t).cur = none → (c.threads t).done = (sequential s c.order).2 t) := by
  obtain ⟨_, hi⟩ := Inv.reach (fun t p hp => Log.guarded (hc t p hp)) h
  rw [hl] at hi
  obtain ⟨h1, h2⟩ := hi
  refine ⟨h1, fun t => ?_⟩
  rcases h2 t with ⟨_, e2, e3⟩ | ⟨k, e1, _, e2, e3⟩ | ⟨r, e1, e2, e3⟩
  · exact ⟨⟨_, e3.symm⟩, ⟨[], by simp [e2]⟩, fun _ => e2⟩
  · exact ⟨⟨_, e3.symm⟩, ⟨[], by simp [e2]⟩, fun _ => e2⟩
  · exact ⟨⟨_, e3.symm⟩, ⟨[r], e2⟩, fun h => by simp [h] at e1⟩

/-- C59: the order of the calls is decided as they are made: what has been decided is not changed later, so that a call which returned before another was made comes before it. -/
theorem C59_real_time {env : LogState → LogState → Prop} (c c' : Conf LogState (Res Unit)) (h : Reach env c c') : c.order <+: c'.order := by
  induction h with
  | refl => exact List.prefix_rfl
  | step _ st ih =>
    refine ih.trans ?_
    cases st with
    | acquire t k hc hl => exact List.prefix_append _ _
    | _ => exact List.prefix_rfl
  | env _ _ ih => exact ih

/-- An execution which finishes, of one thread which makes a refused call: the hypotheses of `C59_serializable`, `C59_moments` and `C59_real_time` hold. -/
example : ∃ c, Reach (fun _ _ => False) (Conf.init (LogState.init 0) fun t => if t = 0 then [Log.level none] else []) c ∧ Finished c ∧ c.lock = none ∧ (c.threads 0).done = [.error .valueError] := by
  have r0 : Reach (fun _ _ => False) (Conf.init (LogState.init 0) fun t => if t = 0 then [Log.level none] else []) (Conf.init (LogState.init 0) fun t => if t = 0 then [Log.level none] else []) := .refl
  have r1 := r0.step (.invoke _ 0 (Log.level none) [] rfl rfl)
  have r2 := r1.step (.acquire _ 0 _ rfl rfl)
  have r3 := r2.step (.release _ 0 0 _ rfl rfl)
  have r4 := r3.step (.return _ 0 _ rfl)
  refine ⟨_, r4, fun t => ?_, rfl, rfl⟩
  by_cases h : t = 0 <;> simp [Conf.put, Conf.init, Function.update, h]

/-- C59: no deadlock: in every state of every execution, a thread which has something to do can do it, or it waits for another thread which can. -/
theorem C59_no_deadlock (stdout : StreamArg) (s : LogState) (calls : ℕ → List LogProg) (hc : ∀ t p, p ∈ calls t → LogCall stdout p) (c : Conf LogState (Res Unit))
    (h : Reach (fun _ _ => False) (Conf.init s calls) c) (t : ℕ) (ht : (c.threads t).todo ≠ [] ∨ (c.threads t).cur ≠ none) :
    (∃ c', Step c c' ∧ ∀ u, u ≠ t → c'.threads u = c.threads u) ∨
      ∃ t0 d, t0 ≠ t ∧ c.lock = some (t0, d) ∧ (∃ k, (c.threads t).cur = some (.acq k)) ∧ ∃ c', Step c c' ∧ ∀ u, u ≠ t0 → c'.threads u = c.threads u := by
  obtain ⟨_, hi⟩ := Inv.reach (fun t p hp => Log.guarded (hc t p hp)) h
  have upd : ∀ (t : ℕ) (x : Thread LogState (Res Unit)) (u : ℕ), u ≠ t → Function.update c.threads t x u = c.threads u := fun t x u hu => Function.update_of_ne hu _ _
  have owner : ∀ t0 d p, c.lock = some (t0, d) → (c.threads t0).cur = some p → Crit d p → ∃ c', Step c c' ∧ ∀ u, u ≠ t0 → c'.threads u = c.threads u := by
    intro t0 d p hl hp hk
    cases hk with
    | act _ => exact ⟨_, .act c t0 _ _ hp, upd t0 _⟩
    | acq _ => exact ⟨_, .again c t0 _ _ hp hl, upd t0 _⟩
    | rel _ => exact ⟨_, .release c t0 _ _ hp hl, upd t0 _⟩
    | out => exact ⟨_, .release c t0 0 _ hp hl, upd t0 _⟩
  have idle : ∀ {made res}, Idle (calls t) made res (c.threads t) → (∃ c', Step c c' ∧ ∀ u, u ≠ t → c'.threads u = c.threads u) ∨ ∃ k, (c.threads t).cur = some (.acq k) := by
    intro made res hi
    rcases hi with ⟨e1, _, _⟩ | ⟨k, e1, _⟩ | ⟨r, e1, _⟩
    · rcases htd : (c.threads t).todo with _ | ⟨p, l⟩
      · simp [htd, e1] at ht
      · exact .inl ⟨_, .invoke c t p l e1 htd, upd t _⟩
    · exact .inr ⟨k, e1⟩
    · exact .inl ⟨_, .return c t r e1, upd t _⟩
  rcases hl : c.lock with _ | ⟨t0, d⟩
  · rw [hl] at hi
    rcases idle (hi.2 t) with h | ⟨k, hk⟩
    · exact .inl h
    · exact .inl ⟨_, .acquire c t k hk hl, upd t _⟩
  · rw [hl] at hi
    obtain ⟨pre, q, p, _, h2, h3, _, _, _, h7⟩ := hi
    by_cases e : t = t0
    · subst e
      exact .inl (owner t d p hl h2 h3)
    · rcases idle (h7 t e) with h | hk
      · exact .inl h
      · exact .inr ⟨t0, d, Ne.symm e, rfl, hk, owner t0 d p hl h2 h3⟩

/-- The hypotheses of C59_no_deadlock with a wait: thread 1 waits for thread 0. -/
example : ∃ c, Reach (fun _ _ => False) (Conf.init (LogState.init 0) fun _ => [Log.level none]) c ∧ c.lock = some (0, 1) ∧ (c.threads 1).cur ≠ none := by
  have r0 : Reach (fun _ _ => False) (Conf.init (LogState.init 0) fun _ => [Log.level none]) (Conf.init (LogState.init 0) fun _ => [Log.level none]) := .refl
  have r1 := r0.step (.invoke _ 1 (Log.level none) [] rfl rfl)
  have r2 := r1.step (.invoke _ 0 (Log.level none) [] rfl rfl)
  have r3 := r2.step (.acquire _ 0 _ rfl rfl)
  exact ⟨_, r3, rfl, by simp [Conf.put, Conf.init, Function.update]⟩

end Verif.Props
