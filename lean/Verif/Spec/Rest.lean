import Verif.Model.Rest

/-
Specification vocabulary for RestClient.
-/

namespace Verif.Spec

/-- `t` is `s` without its leading and trailing slashes. -/
def IsStripped (s t : Text) : Prop :=
  ∃ a b : ℕ, s = List.replicate a '/' ++ t ++ List.replicate b '/' ∧ t.head? ≠ some '/' ∧ t.getLast? ≠ some '/'

/-- The address of an API below a base. -/
def IsAddress (base api w : Text) : Prop :=
  ∃ u p, IsStripped base u ∧ IsStripped api p ∧ ((p = [] ∧ w = u) ∨ (p ≠ [] ∧ w = u ++ "/".toList ++ p))

/-- The documented methods. -/
def restNames : List Text := ["delete".toList, "get".toList, "head".toList, "options".toList, "patch".toList, "post".toList, "put".toList]

/-- Equal but for case. -/
def SameLetters (s t : Text) : Prop := s.map Char.toLower = t.map Char.toLower

/-- A documented method, in any case. -/
def IsMethod (method : Text) : Prop := ∃ n ∈ restNames, SameLetters method n

/-- The responses closed. -/
def closed (l : List NetEvent) : List HttpResponse :=
  l.filterMap fun e => match e with
    | .close v => some v
    | .issue _ => none

/-- The requests issued. -/
def issued (l : List NetEvent) : List HttpRequest :=
  l.filterMap fun e => match e with
    | .issue r => some r
    | .close _ => none

end Verif.Spec
