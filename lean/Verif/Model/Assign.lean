import Verif.Model.Rank
import Verif.Model.Heap

/-!
The setters of `a`, `b` and `s` (fir_filter.py:112-122, iir_filter.py:115-117), which store what they are given without a check or a copy.

Simplifications.  The arrays assigned have the type of number of the filter.  Lists may be assigned too, but have no method `dot`; only arrays are modelled.
-/

namespace Verif

variable {R : Type _}

/-- IirFilter.a setter (iir_filter.py:115-117). -/
def Iir.setA (f : Iir R) (a : List R) : Iir R := { f with a := a }

/-- The inherited setter of `b` (fir_filter.py:112-114). -/
def Iir.setB (f : Iir R) (b : List R) : Iir R := { f with b := b }

/-- The inherited setter of `s` (fir_filter.py:120-122) of a RankFilter. -/
def Rank.setS (f : Rank R) (s : List R) : Rank R := { f with s := s }

/-- The setter of `s` with references (fir_filter.py:120-122): the array is not copied. -/
def FirRef.setS (f : FirRef R) (l : Nat) : FirRef R := { f with s := l }

/-- The inherited setter of `s` with references (fir_filter.py:120-122). -/
def IirRef.setS (f : IirRef R) (l : Nat) : IirRef R := { f with s := l }

end Verif
