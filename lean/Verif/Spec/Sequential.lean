import Verif.Model.Threads

/-
Specification of atomicity: calls one after another, each without any other thread.
-/

namespace Verif.Spec

open Verif

/-- The state, and the results of each thread, of calls made one after another in the given order. -/
def sequential {S R : Type} (s : S) (order : List (ℕ × Prog S R)) : S × (ℕ → List R) :=
  order.foldl (fun a c => ((c.2.run a.1).1, Function.update a.2 c.1 (a.2 c.1 ++ [(c.2.run a.1).2]))) (s, fun _ => [])

/-- The calls of thread `t`, in order. -/
def callsOf {S R : Type} (order : List (ℕ × Prog S R)) (t : ℕ) : List (Prog S R) := (order.filter fun c => c.1 = t).map Prod.snd

/-- All threads have made all their calls. -/
def Finished {S R : Type} (c : Conf S R) : Prop := ∀ t, (c.threads t).todo = [] ∧ (c.threads t).cur = none

end Verif.Spec
