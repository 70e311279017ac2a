import Verif.Model.Py
import Verif.Model.Threads

/-
Model of diamondback/commons/log.py and of the part of loguru which it uses: handlers with identities which are never used twice, levels, `remove`, `add`, `log`.
Simplifications: `str.upper` on ASCII only; times, colours and exceptions raised by a stream while it writes (loguru catches them) are not modelled;
`logger.disable` and filters of the application are not modelled; paths of source files are POSIX paths.
The methods are programs of atomic steps (Verif/Model/Threads.lean): each access to a class attribute and each loguru call is one step, `logger.add` two
(the identity is taken before the sink is examined and the handler inserted).
-/

namespace Verif

/-- A Python text (log.py:100, 135). -/
abbrev Text := List Char

/-- Who took a handler identity: loguru itself at import, the application, or Log.  Not part of the program (log.py:95, 127-132). -/
inductive Owner where
  | default
  | app
  | log
  deriving DecidableEq

/-- A loguru handler; sinks are numbered (log.py:128-132). -/
structure Handler where
  id : ℕ
  sink : ℕ
  level : ℕ
  deriving DecidableEq

/-- A message written by a handler to its sink (log.py:159). -/
structure Delivery where
  id : ℕ
  sink : ℕ
  text : Text
  deriving DecidableEq

/-- The state of loguru and of class Log.  `owners` has one entry for each identity taken so far, so that its length is the next identity
(log.py:93-97). -/
structure LogState where
  owners : List Owner
  handlers : List Handler
  levels : Text → Option ℕ
  out : List Delivery
  identity : ℕ
  level : ℕ

/-- The levels of loguru (log.py:96, 110, 149). -/
def loguru.levels : List (Text × ℕ) :=
  [("TRACE".toList, 5), ("DEBUG".toList, 10), ("INFO".toList, 20), ("SUCCESS".toList, 25), ("WARNING".toList, 30), ("ERROR".toList, 40), ("CRITICAL".toList, 50)]

/-- After import: the handler 0 of loguru writes to sink `stderr` at level DEBUG; `_identity` is 0, `_level` is Info (log.py:95-96). -/
def LogState.init (stderr : ℕ) : LogState :=
  { owners := [.default], handlers := [{ id := 0, sink := stderr, level := 10 }], levels := fun n => loguru.levels.lookup n, out := [], identity := 0, level := 20 }

/-- `logger.remove(id)`; ValueError if there is no such handler, in which case nothing changes (log.py:127). -/
def loguru.remove (s : LogState) (id : ℕ) : LogState := { s with handlers := s.handlers.filter fun h => h.id ≠ id }

/-- The first part of `logger.add`: an identity (log.py:128-132). -/
def loguru.take (s : LogState) (o : Owner) : LogState := { s with owners := s.owners ++ [o] }

/-- The second part of `logger.add`: the handler (log.py:128-132). -/
def loguru.insert (s : LogState) (h : Handler) : LogState := { s with handlers := s.handlers ++ [h] }

/-- The handlers which write a message of level number `no` (log.py:159). -/
def loguru.deliver (s : LogState) (no : ℕ) (text : Text) : LogState :=
  { s with out := s.out ++ (s.handlers.filter fun h => h.level ≤ no).map fun h => { id := h.id, sink := h.sink, text } }

/-- `str.upper` (log.py:96, 110, 149). -/
def upper (t : Text) : Text := t.map Char.toUpper

/-- A stream passed to Log.stream: whether it is true, has an attribute `write`, and is accepted by `logger.add` (its `write` can be called)
(log.py:124, 128-132). -/
structure StreamArg where
  sink : ℕ
  truthy : Bool
  hasWrite : Bool
  callable : Bool

/-- An entry passed to Log.write: a text, or an exception with the name of its type and its message (log.py:153-154). -/
inductive Entry where
  | text (t : Text)
  | exception (name message : Text)

/-- The components of a POSIX path (log.py:157). -/
def pathComponents (p : Text) : List Text := (p.splitOn '/').filter fun c => c ≠ [] ∧ c ≠ ['.']

/-- `pathlib.Path(p).parts[-1]` (log.py:157): IndexError for the empty path. -/
def lastPart (p : Text) : Res Text :=
  match (pathComponents p).getLast? with
  | some c => .ok c
  | none => if p.head? = some '/' then .ok ['/'] else .error .indexError

/-- The loop of log.py:156-158 over the traceback frames of `sys.exc_info()`: file and line. -/
def frameText : Text → List (Text × ℕ) → Res Text
  | acc, [] => .ok acc
  | acc, f :: t =>
    match lastPart f.1 with
    | .error e => .error e
    | .ok n => frameText (acc ++ " @ File = ".toList ++ n ++ " Line = ".toList ++ (toString f.2).toList) t

/-- The message of an entry (log.py:153-159); `frames` is the traceback of the exception which the calling thread handles. -/
def entryText (e : Entry) (frames : List (Text × ℕ)) : Res Text :=
  match e with
  | .text t => .ok t
  | .exception n m => frameText ("Exception = ".toList ++ n ++ " ".toList ++ m) frames

/-- A call of Log as a program of atomic steps (log.py:108, 123, 145). -/
abbrev LogProg := Prog LogState (Res Unit)

/-- Log.level (log.py:99-112); `none` is a level which is not a string, for which `level.upper()` raises. -/
def Log.level (level : Option Text) : LogProg :=
  .acq <| match level with
    | none => .rel (.ret (.error .valueError))
    | some l => .act id fun s =>
      match s.levels (upper l) with
      | none => .rel (.ret (.error .valueError))
      | some no => .act (fun s => { s with level := no }) fun _ => .rel (.ret (.ok ()))

/-- Log.stream (log.py:114-132), continued by `k`. -/
def Log.streamThen (st : StreamArg) (k : Res Unit → LogProg) : LogProg :=
  .acq <| if st.truthy = false ∨ st.hasWrite = false then .rel (k (.error .valueError))
    else .act id fun s => .act (fun s' => loguru.remove s' s.identity) fun _ =>
      .act (fun s' => loguru.take s' .log) fun s =>
        if st.callable = false then .rel (k (.error .typeError))
        else .act (fun s' => loguru.insert s' { id := s.owners.length, sink := st.sink, level := 0 }) fun _ =>
          .act (fun s' => { s' with identity := s.owners.length }) fun _ => .rel (k (.ok ()))

/-- Log.stream (log.py:114-132). -/
def Log.stream (st : StreamArg) : LogProg := Log.streamThen st .ret

/-- The part of Log.write after the lazy stream (log.py:148-159). -/
def Log.writeThen (level : Option Text) (entry : Entry) (frames : List (Text × ℕ)) : LogProg :=
  match level with
  | none => .rel (.ret (.error .valueError))
  | some l => .act id fun s =>
    match s.levels (upper l) with
    | none => .rel (.ret (.error .valueError))
    | some no => .act id fun s =>
      if no ≥ s.level then
        match entryText entry frames with
        | .error e => .rel (.ret (.error e))
        | .ok text => .act (fun s => loguru.deliver s no text) fun _ => .rel (.ret (.ok ()))
      else .rel (.ret (.ok ()))

/-- What follows `Log.stream(sys.stdout)` in Log.write (log.py:147): an exception leaves the method. -/
def Log.writeAfter (level : Option Text) (entry : Entry) (frames : List (Text × ℕ)) : Res Unit → LogProg
  | .error e => .rel (.ret (.error e))
  | .ok () => Log.writeThen level entry frames

/-- Log.write (log.py:134-159); `stdout` is `sys.stdout`.  `logger.log(v.name, entry)` finds the number of the level again: it cannot have changed. -/
def Log.write (stdout : StreamArg) (level : Option Text) (entry : Entry) (frames : List (Text × ℕ)) : LogProg :=
  .acq <| .act id fun s =>
    if s.identity = 0 then Log.streamThen stdout (Log.writeAfter level entry frames)
    else Log.writeThen level entry frames

/-- What the application may do with loguru directly, at any moment: take an identity, insert a handler with an identity it took, remove any handler,
define a level, log (no counterpart in /repo: calls of loguru by others between those of log.py). -/
inductive App : LogState → LogState → Prop
  | take (s : LogState) : App s (loguru.take s .app)
  | insert (s : LogState) (h : Handler) (ho : s.owners[h.id]? = some .app) (hn : ∀ g ∈ s.handlers, g.id ≠ h.id) : App s (loguru.insert s h)
  | remove (s : LogState) (id : ℕ) : App s (loguru.remove s id)
  | define (s : LogState) (n : Text) (no : ℕ) (hn : s.levels n = none) : App s { s with levels := fun m => if m = n then some no else s.levels m }
  | log (s : LogState) (no : ℕ) (text : Text) : App s (loguru.deliver s no text)

/-- The calls of Log (log.py:100, 115, 135). -/
inductive LogCall (stdout : StreamArg) : LogProg → Prop
  | level (l : Option Text) : LogCall stdout (Log.level l)
  | stream (st : StreamArg) : LogCall stdout (Log.stream st)
  | write (l : Option Text) (e : Entry) (frames : List (Text × ℕ)) : LogCall stdout (Log.write stdout l e frames)

end Verif
