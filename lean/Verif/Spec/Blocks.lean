/-
Consecutive full blocks of a signal.
-/

namespace Verif.Spec

/-- The consecutive full blocks of length `N` of a signal; an incomplete rest is dropped. -/
def blocks {R : Type _} (N : Nat) (l : List R) : List (List R) :=
  (List.range (l.length / N)).map (fun m => (l.drop (m * N)).take N)

/-- What remains after the full blocks. -/
def rest {R : Type _} (N : Nat) (l : List R) : List R := l.drop (l.length / N * N)

end Verif.Spec
