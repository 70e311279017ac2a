import Verif.Model.Heap
import Verif.Model.Tables
import Verif.Model.Wavelet

/-
The class attributes `B` of DerivativeFilter, IntegralFilter and WaveletTransform on the heap of `Verif/Model/Heap.lean`: each entry is one array, made when
the class is defined and shared by all instances.  The setters of FirFilter and IirFilter store references.  Simplifications: arrays of real numbers; a setter
is given an array and not a list.
-/

namespace Verif

/-- The places of the arrays of the class attributes `B` (derivative_filter.py:103-120, integral_filter.py:82-88, wavelet_transform.py:90-478). -/
structure ClassTables where
  derivative : ℤ → ℤ → Option ℕ
  integral : ℤ → Option ℕ
  wavelet : WaveStyle → ℤ → Option ℕ

/-- DerivativeFilter.__init__ (derivative_filter.py:122-135). -/
noncomputable def DerivativeRef.new (t : ClassTables) (h : Heap ℝ) (derivative order : ℤ) : Res (FirRef ℝ) × Heap ℝ :=
  match t.derivative derivative order with
  | none => (.error .valueError, h)
  | some p => FirRef.new id h (.array p) none

/-- IntegralFilter.__init__ (integral_filter.py:90-100). -/
noncomputable def IntegralRef.new (t : ClassTables) (h : Heap ℝ) (order : ℤ) : Res (IirRef ℝ) × Heap ℝ :=
  match t.integral order with
  | none => (.error .valueError, h)
  | some p =>
    let a := h.alloc [0, 1]
    IirRef.new id a.2 (some (.array a.1)) (some (.array p)) none

/-- A WaveletTransform instance (wavelet_transform.py:509): `self._b = ((b, numpy.array(b)), (v, numpy.array(v)))`.  `v` is `numpy.flip(b, 0)` (line 504), a
view, that is the array `b` read backwards; the other three are arrays. -/
structure WaveRef where
  low : ℕ
  high : ℕ
  high' : ℕ

/-- WaveletTransform.__init__ (wavelet_transform.py:485-513).  `b / sum(b)` (line 503) makes a new array; lines 511 and 513 write to the two copies of line 509. -/
noncomputable def WaveRef.new (t : ClassTables) (h : Heap ℝ) (style : Option WaveStyle) (order : ℤ) : Res WaveRef × Heap ℝ :=
  match style with
  | none => (.error .valueError, h)
  | some style =>
    match t.wavelet style order with
    | none => (.error .valueError, h)
    | some p =>
      let f := wav.filters (h.read p)
      let b := h.alloc f.analysis.1
      let c := b.2.alloc f.analysis.2
      let d := c.2.alloc f.synthesis.2
      (.ok { low := b.1, high := c.1, high' := d.1 }, d.2)

/-- The property `b` (wavelet_transform.py:481-483), with the view read backwards. -/
def WaveRef.b (h : Heap ℝ) (w : WaveRef) : Wavelet :=
  { analysis := (h.read w.low, h.read w.high), synthesis := ((h.read w.low).reverse, h.read w.high') }

/-- An array of the property `b`: `b[inverse][kk]` (wavelet_transform.py:509). -/
inductive WaveArray where
  | analysisLow
  | analysisHigh
  | synthesisLow
  | synthesisHigh

/-- `w.b[inverse][kk][:] = v` by the caller (wavelet_transform.py:481-483, 509); a write through the view fills the array backwards. -/
def WaveRef.write (h : Heap ℝ) (w : WaveRef) : WaveArray → List ℝ → Heap ℝ
  | .analysisLow, v => h.store w.low v
  | .analysisHigh, v => h.store w.high v
  | .synthesisLow, v => h.store w.low v.reverse
  | .synthesisHigh, v => h.store w.high' v

/-- The setters of FirFilter and IirFilter given an array: `b` and `s` (fir_filter.py:112-122), `a` (iir_filter.py:115-117). -/
inductive Attribute where
  | recursive
  | forward
  | state

/-- Assignment to `b` or `s` of a FirFilter (fir_filter.py:112-122); it has no `a`. -/
def FirRef.assign (f : FirRef ℝ) : Attribute → ℕ → FirRef ℝ
  | .recursive, _ => f
  | .forward, l => { f with b := l }
  | .state, l => { f with s := l }

/-- Assignment to an attribute of an IirFilter (iir_filter.py:115-117, fir_filter.py:112-122). -/
def IirRef.assign (f : IirRef ℝ) : Attribute → ℕ → IirRef ℝ
  | .recursive, l => { f with a := l }
  | .forward, l => { f with b := l }
  | .state, l => { f with s := l }

end Verif
