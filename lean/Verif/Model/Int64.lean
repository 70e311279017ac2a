import Verif.Model.Iir
import Verif.Model.Exact
import Mathlib.Data.BitVec

/-
FirFilter and IirFilter (fir_filter.py:200-211 and 254-264, iir_filter.py:192-205 and 300-312) when coefficients, state and signal are all arrays of
int64: numpy adds and multiplies such arrays modulo 2^64.  That is so for integers `b` at least as long as the state given (fir_filter.py:206-207 pad with
floating point zeros otherwise), and for integers `a` and `b` of equal lengths (iir_filter.py:196-199 likewise).
Simplifications: the warning of an overflow is not modelled; integers which int64 cannot hold are not converted here (numpy makes arrays of other types of them).
-/

namespace Verif

/-- A number held in an int64 array (fir_filter.py:201, 205, 255, iir_filter.py:193, 301). -/
abbrev I64 := BitVec 64

/-- `numpy.array(list(v))` for integers (fir_filter.py:201 and 255, iir_filter.py:193 and 301). -/
def i64 (v : List ℤ) : List I64 := v.map (BitVec.ofInt 64)

/-- The integers which an int64 array holds (fir_filter.py:264, iir_filter.py:312). -/
def unI64 (v : List I64) : List ℤ := v.map BitVec.toInt

/-- FirFilter(b=b, s=s) (fir_filter.py:200-211) for integers. -/
def Fir.newI64 (b : List ℤ) (s : Option (List ℤ)) : Res (Fir I64) := Fir.new id (i64 b) (s.map i64)

/-- IirFilter(a=a, b=b) (iir_filter.py:192-205) for integers. -/
def Iir.newI64 (a b : List ℤ) : Res (Iir I64) := Iir.new id (some (i64 a)) (some (i64 b)) none

end Verif
