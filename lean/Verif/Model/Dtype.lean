import Verif.Model.Iir
import Verif.Model.Pid
import Verif.Model.Exact

/-
The type of the arrays of a filter whose forward coefficients are given as integers (fir_filter.py:200-211, iir_filter.py:192-204, pid_filter.py:59-64):
int64, unless the coefficients are padded with `numpy.zeros`, which makes them float64.  Conversions are those of `Fir.cast`.
Simplification: integers are unbounded (Verif/Model/Int64.lean has them wrap around).
-/

namespace Verif

variable {K : Type*} [Field K] [LinearOrder K] [FloorRing K]

/-- FirFilter(b=b, s=s) for integers `b` (fir_filter.py:200-211); padding is in lines 206-207. -/
def Fir.newInts (b : List ℤ) (s : Option (List K)) : Res (Fir K) :=
  Fir.new (if b.length < (s.getD []).length then id else truncInt) (b.map fun v : ℤ => (v : K)) s

/-- IirFilter(a=a, b=b, s=s) for integers `b` and real `a` (iir_filter.py:192-205); padding is in line 199, and in fir_filter.py:206-207. -/
def Iir.newInts (a : List K) (b : List ℤ) (s : Option (List K)) : Res (Iir K) :=
  Iir.new (if b.length < max a.length (s.getD []).length then id else truncInt) (some a) (some (b.map fun v : ℤ => (v : K))) s

/-- PidFilter(b) for integers (pid_filter.py:59-64). -/
def Pid.newInts (b : List ℤ) : Res (Pid K K) := Pid.new truncInt (b.map fun v : ℤ => (v : K))

end Verif
