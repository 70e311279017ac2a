import Verif.Props.Log

/- Property C98: the text which Log writes for an exception. -/

namespace Verif.Props

open Verif Verif.Spec

/-- A frame of a traceback: directory (with its final slash, or empty), file name, line. -/
structure Place where
  directory : Text
  file : Text
  line : ℕ

/-- A directory is empty or ends with a slash, a file name is a component of a path. -/
def Place.Valid (p : Place) : Prop := (p.directory = [] ∨ ∃ d, p.directory = d ++ ['/']) ∧ p.file ≠ [] ∧ p.file ≠ ['.'] ∧ '/' ∉ p.file

/-- What one frame adds to the message. -/
def Place.text (p : Place) : Text := " @ File = ".toList ++ p.file ++ " Line = ".toList ++ (toString p.line).toList

theorem splitOn_slash (d n : Text) (hn : '/' ∉ n) : (d ++ '/' :: n).splitOn '/' = d.splitOn '/' ++ [n] := by
  rw [List.splitOn_append_cons_self, List.splitOn_eq_singleton hn]

theorem lastPart_place (p : Place) (h : p.Valid) : lastPart (p.directory ++ p.file) = .ok p.file := by
  obtain ⟨hd, h1, h2, h3⟩ := h
  have : (pathComponents (p.directory ++ p.file)).getLast? = some p.file := by
    rcases hd with hd | ⟨d, hd⟩
    · rw [hd, List.nil_append, pathComponents, List.splitOn_eq_singleton h3]
      simp [h1, h2]
    · rw [hd, List.append_assoc, List.singleton_append, pathComponents, splitOn_slash _ _ h3]
      simp [h1, h2]
  rw [lastPart, this]

theorem frameText_cons (acc n : Text) (f : Text × ℕ) (r : List (Text × ℕ)) (hn : lastPart f.1 = .ok n) :
    frameText acc (f :: r) = frameText (acc ++ " @ File = ".toList ++ n ++ " Line = ".toList ++ (toString f.2).toList) r := by
  rw [frameText.eq_def]
  dsimp only
  split
  · rename_i e h; rw [hn] at h; cases h
  · rename_i m h; rw [hn] at h; cases h; rfl

theorem append_six (a b c d e f : Text) : a ++ b ++ c ++ d ++ e ++ f = a ++ ((b ++ c ++ d ++ e) ++ f) := by simp only [List.append_assoc]

theorem frameText_places (places : List Place) (h : ∀ p ∈ places, p.Valid) : ∀ acc, frameText acc (places.map fun p => (p.directory ++ p.file, p.line)) = .ok (acc ++ (places.map Place.text).flatten) := by
  induction places with
  | nil => intro acc; rw [List.map_nil, List.map_nil, List.flatten_nil, List.append_nil]; rfl
  | cons p t ih =>
    intro acc
    have e1 := frameText_cons acc p.file (p.directory ++ p.file, p.line) (t.map fun p => (p.directory ++ p.file, p.line)) (lastPart_place p (h p List.mem_cons_self))
    have e2 := ih (fun q hq => h q (List.mem_cons_of_mem _ hq)) (acc ++ " @ File = ".toList ++ p.file ++ " Line = ".toList ++ (toString p.line).toList)
    have e3 : acc ++ " @ File = ".toList ++ p.file ++ " Line = ".toList ++ (toString p.line).toList ++ (t.map Place.text).flatten = acc ++ (p.text ++ (t.map Place.text).flatten) := append_six _ _ _ _ _ _
    rw [e3] at e2
    exact e1.trans e2

/-- C98: an exception at or above the level writes one line: the name of its type, its message, and for each frame of the handled exception the file name without directory and the line, outermost first. -/
theorem C98_exception (stdout : StreamArg) (stderr : ℕ) (events : List LogEvent) (id sink : ℕ) (hc : (Ideal.init.run stdout events).1.current = .at id sink true)
    (l name message : Text) (no : ℕ) (hl : (Ideal.init.run stdout events).1.levels (upper l) = some no) (hn : (Ideal.init.run stdout events).1.threshold ≤ no) (places : List Place) (hp : ∀ p ∈ places, p.Valid) :
    (history stdout (LogState.init stderr) (events ++ [.write (some l) (.exception name message) (places.map fun p => (p.directory ++ p.file, p.line))])).1.written =
      (history stdout (LogState.init stderr) events).1.written ++ [(sink, "Exception = ".toList ++ name ++ [' '] ++ message ++ (places.map Place.text).flatten)] := by
  rw [(C57_history stdout stderr _).2, (C57_history stdout stderr _).2]
  set w := LogEvent.write (some l) (.exception name message) (places.map fun p => (p.directory ++ p.file, p.line)) with hw
  have e : Ideal.init.run stdout (events ++ [w]) = ((Ideal.step stdout (Ideal.init.run stdout events).1 w).1, (Ideal.init.run stdout events).2 ++ [(Ideal.step stdout (Ideal.init.run stdout events).1 w).2]) := by
    simp [Ideal.run, List.foldl_append]
  rw [e, hw]
  simp only [Ideal.step, hc, Ideal.entry, Option.bind_some, hl, hn, if_true, entryText, frameText_places places hp, Ideal.put]
  rfl

/-- C98: outside an exception handler there are no frames. -/
theorem C98_unhandled (name message : Text) : entryText (.exception name message) [] = .ok ("Exception = ".toList ++ name ++ [' '] ++ message) := by
  have := frameText_places [] (by simp) ("Exception = ".toList ++ name ++ [' '] ++ message)
  rw [List.map_nil, List.map_nil, List.flatten_nil, List.append_nil] at this
  exact this

example := C98_unhandled "ValueError".toList "x = 3".toList

/-- C98, a defect: code compiled with an empty file name makes Log.write raise IndexError, whatever the other frames are, and nothing is written. -/
theorem C98_no_file (stdout : StreamArg) (stderr : ℕ) (events : List LogEvent) (id sink : ℕ) (hc : (Ideal.init.run stdout events).1.current = .at id sink true)
    (l name message : Text) (no line : ℕ) (hl : (Ideal.init.run stdout events).1.levels (upper l) = some no) (hn : (Ideal.init.run stdout events).1.threshold ≤ no) (places : List Place) (hp : ∀ p ∈ places, p.Valid) (rest : List (Text × ℕ)) :
    ((history stdout (LogState.init stderr) (events ++ [.write (some l) (.exception name message) ((places.map fun p => (p.directory ++ p.file, p.line)) ++ ([], line) :: rest)])).2.getLast? = some (.error .indexError)) ∧
    (history stdout (LogState.init stderr) (events ++ [.write (some l) (.exception name message) ((places.map fun p => (p.directory ++ p.file, p.line)) ++ ([], line) :: rest)])).1.written =
      (history stdout (LogState.init stderr) events).1.written := by
  have f : ∀ acc, frameText acc ((places.map fun p => (p.directory ++ p.file, p.line)) ++ ([], line) :: rest) = .error .indexError := by
    induction places with
    | nil => intro acc; rfl
    | cons p t ih =>
      intro acc
      have e1 := frameText_cons acc p.file (p.directory ++ p.file, p.line) ((t.map fun p => (p.directory ++ p.file, p.line)) ++ ([], line) :: rest) (lastPart_place p (hp p List.mem_cons_self))
      exact e1.trans (ih (fun q hq => hp q (List.mem_cons_of_mem _ hq)) _)
  rw [(C57_history stdout stderr _).2, (C57_history stdout stderr _).2, (C57_history stdout stderr _).1]
  set w := LogEvent.write (some l) (.exception name message) ((places.map fun p => (p.directory ++ p.file, p.line)) ++ ([], line) :: rest) with hw
  have e : Ideal.init.run stdout (events ++ [w]) = ((Ideal.step stdout (Ideal.init.run stdout events).1 w).1, (Ideal.init.run stdout events).2 ++ [(Ideal.step stdout (Ideal.init.run stdout events).1 w).2]) := by
    simp [Ideal.run, List.foldl_append]
  rw [e, hw]
  simp only [Ideal.step, hc, Ideal.entry, Option.bind_some, hl, hn, if_true, entryText, f]
  simp

/-- The message at work. -/
example : (history (goodStream 1) (LogState.init 0) [.write (some "Error".toList) (.exception "ValueError".toList "bad".toList) [("/a/b/main.py".toList, 12), ("util.py".toList, 7)]]).1.written =
    [(1, "Exception = ValueError bad @ File = main.py Line = 12 @ File = util.py Line = 7".toList)] := by
  decide +kernel

/-- Places with the properties asked for. -/
example : (⟨"/a/b/".toList, "main.py".toList, 12⟩ : Place).Valid ∧ (⟨[], "util.py".toList, 7⟩ : Place).Valid :=
  ⟨⟨.inr ⟨"/a/b".toList, rfl⟩, by decide, by decide, by decide⟩, ⟨.inl rfl, by decide, by decide, by decide⟩⟩

/-- The hypotheses of C98_exception at work: after the first write the handler of Log is there. -/
example (places : List Place) (hp : ∀ p ∈ places, p.Valid) :
    (history (goodStream 1) (LogState.init 0) ([.stream (goodStream 7)] ++ [.write (some "Error".toList) (.exception "KeyError".toList "k".toList) (places.map fun p => (p.directory ++ p.file, p.line))])).1.written =
      (history (goodStream 1) (LogState.init 0) [.stream (goodStream 7)]).1.written ++ [(7, "Exception = ".toList ++ "KeyError".toList ++ [' '] ++ "k".toList ++ (places.map Place.text).flatten)] :=
  C98_exception (goodStream 1) 0 [.stream (goodStream 7)] _ 7 rfl "Error".toList "KeyError".toList "k".toList 40 (by decide +kernel) (by decide +kernel) places hp

/-- The IndexError at work. -/
example : (history (goodStream 1) (LogState.init 0) [.stream (goodStream 7), .write (some "Error".toList) (.exception "KeyError".toList "k".toList) [("a.py".toList, 1), ([], 1)]]).2 = [.ok (), .error .indexError] := by
  decide +kernel

end Verif.Props
