import Mathlib.Logic.Function.Basic
import Mathlib.Data.List.Basic

/-
Threads which call functions guarded by one reentrant lock (threading.RLock), as the class methods of diamondback/commons/log.py:99-159 are by `with Log._rlock`.
A call is a program of atomic steps; between two steps any other thread may run.
-/

namespace Verif

/-- A call: it returns, or performs an atomic step on the shared state (what follows may depend on the state before the step), or acquires or
releases the lock (log.py:99-159). -/
inductive Prog (S R : Type) where
  | ret (r : R)
  | act (f : S → S) (k : S → Prog S R)
  | acq (k : Prog S R)
  | rel (k : Prog S R)

/-- The call without any other thread (log.py:99-159). -/
def Prog.run {S R : Type} : Prog S R → S → S × R
  | .ret r, s => (s, r)
  | .act f k, s => (k s).run (f s)
  | .acq k, s => k.run s
  | .rel k, s => k.run s

/-- A thread: the calls it still has to make, the rest of the one it is in, the results of those it made (log.py:97). -/
structure Thread (S R : Type) where
  todo : List (Prog S R)
  cur : Option (Prog S R)
  done : List R

/-- All threads; `lock` is the owner of the lock and the number of times it holds it; `order` (not part of the program) records the calls in the
order in which they took the free lock (log.py:97). -/
structure Conf (S R : Type) where
  shared : S
  lock : Option (ℕ × ℕ)
  threads : ℕ → Thread S R
  order : List (ℕ × Prog S R)

/-- Replaces thread `t` (log.py:97). -/
def Conf.put {S R : Type} (c : Conf S R) (t : ℕ) (h : Thread S R) : Conf S R := { c with threads := Function.update c.threads t h }

/-- One step of one thread.  `acquire` of threading.RLock succeeds if the lock is free or held by the same thread; otherwise the thread has no step
(log.py:97, 108, 123, 145). -/
inductive Step {S R : Type} : Conf S R → Conf S R → Prop
  | invoke (c : Conf S R) (t : ℕ) (p : Prog S R) (todo : List (Prog S R)) (hc : (c.threads t).cur = none) (ht : (c.threads t).todo = p :: todo) :
      Step c (c.put t { c.threads t with todo := todo, cur := some p })
  | act (c : Conf S R) (t : ℕ) (f : S → S) (k : S → Prog S R) (hc : (c.threads t).cur = some (.act f k)) :
      Step c { c.put t { c.threads t with cur := some (k c.shared) } with shared := f c.shared }
  | acquire (c : Conf S R) (t : ℕ) (k : Prog S R) (hc : (c.threads t).cur = some (.acq k)) (hl : c.lock = none) :
      Step c { c.put t { c.threads t with cur := some k } with lock := some (t, 1), order := c.order ++ [(t, .acq k)] }
  | again (c : Conf S R) (t d : ℕ) (k : Prog S R) (hc : (c.threads t).cur = some (.acq k)) (hl : c.lock = some (t, d)) :
      Step c { c.put t { c.threads t with cur := some k } with lock := some (t, d + 1) }
  | release (c : Conf S R) (t d : ℕ) (k : Prog S R) (hc : (c.threads t).cur = some (.rel k)) (hl : c.lock = some (t, d + 1)) :
      Step c { c.put t { c.threads t with cur := some k } with lock := if d = 0 then none else some (t, d) }
  | return (c : Conf S R) (t : ℕ) (r : R) (hc : (c.threads t).cur = some (.ret r)) :
      Step c (c.put t { c.threads t with cur := none, done := (c.threads t).done ++ [r] })

/-- The threads before they start (log.py:97). -/
def Conf.init {S R : Type} (s : S) (calls : ℕ → List (Prog S R)) : Conf S R :=
  { shared := s, lock := none, threads := fun t => { todo := calls t, cur := none, done := [] }, order := [] }

/-- The executions of the threads, interleaved with steps `env` of others on the shared state (log.py:97, 108, 123, 145). -/
inductive Reach {S R : Type} (env : S → S → Prop) (c : Conf S R) : Conf S R → Prop
  | refl : Reach env c c
  | step {c' c'' : Conf S R} : Reach env c c' → Step c' c'' → Reach env c c''
  | env {c' : Conf S R} {s : S} : Reach env c c' → env c'.shared s → Reach env c { c' with shared := s }

end Verif
