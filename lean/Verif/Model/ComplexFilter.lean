import Verif.Model.Response

/-
Filters with complex coefficients: the element types of the coefficient arrays in the constructor of IirFilter (iir_filter.py:192-205) and the
methods response, roots and delay (fir_filter.py:213-240, 279-318, iir_filter.py:329-373) for complex coefficients.
Simplifications: exact arithmetic, in particular no rounding to single precision; an infinite or undefined sample is `none`.
-/

namespace Verif

open Complex

/-- Element types of a coefficient array: real floating point, complex64 (`single`), complex128 (`double`) (fir_filter.py:211,
iir_filter.py:200-201). -/
inductive ElemType where
  | real
  | single
  | double
  deriving DecidableEq

/-- `numpy.concatenate((a, numpy.zeros(k)))`: the zeros are float64, so complex64 becomes complex128 (iir_filter.py:196-199). -/
def ElemType.padded : ElemType → ElemType
  | .real => .real
  | .single => .double
  | .double => .double

/-- `isinstance(a[0], complex)`: numpy.complex128 is a subclass of complex, numpy.complex64 is not (iir_filter.py:200). -/
def ElemType.isComplex (t : ElemType) : Bool := t = .double

/-- Storing a number in an array: a real array keeps the real part (with a warning) (fir_filter.py:258, 263). -/
noncomputable def ElemType.store : ElemType → ℂ → ℂ
  | .real, z => (z.re : ℂ)
  | .single, z => z
  | .double, z => z

/-- The element type of `b` in IirFilter.__init__ after padding (iir_filter.py:196-199) and promotion (lines 200-201). -/
def ElemType.ofForward (ta tb : ElemType) (a b : List ℂ) : ElemType :=
  let ta' := if a.length < b.length then ta.padded else ta
  let tb' := if b.length < a.length then tb.padded else tb
  if ta'.isComplex || tb'.isComplex then .double else tb'

open scoped Classical in
/-- IirFilter.__init__ with arrays of the types `ta` and `tb` (iir_filter.py:192-205).  State and output have the type of `b`
(fir_filter.py:211, iir_filter.py:304). -/
noncomputable def Iir.newTyped (ta tb : ElemType) (a b : List ℂ) : Res (Iir ℂ) :=
  Iir.new (ElemType.ofForward ta tb a b).store (some a) (some b) none

/-- scipy.signal.freqz(b, a, length, True)[1] for complex coefficients, as `np.freqz` (fir_filter.py:298, iir_filter.py:350). -/
noncomputable def np.freqzC (b a : List ℂ) (length : ℕ) : List (Option ℂ) := open scoped Classical in
  (List.range length).map fun k : ℕ =>
    let z := cexp (-(I * (2 * Real.pi * k / length)))
    let num := np.polyval b.reverse z
    let den := np.polyval a.reverse z
    if den = 0 then none else some (num / den)

/-- The common body of the two response methods (fir_filter.py:293-302, iir_filter.py:343-354). -/
noncomputable def np.responseC (b a : List ℂ) (length count : ℤ) : Res (List (Option ℂ) × List ℝ) :=
  if length ≤ 0 then .error .valueError
  else if count ≤ 0 then .error .valueError
  else
    let y := np.freqzC b a length.toNat
    .ok ((np.rotate y).map (Option.map (· ^ count.toNat)), np.linspace (-1) (1 - 2 / (length : ℝ)) length.toNat)

/-- FirFilter.response (fir_filter.py:279-302). -/
noncomputable def Fir.responseC (f : Fir ℂ) (length count : ℤ) : Res (List (Option ℂ) × List ℝ) := np.responseC f.b [1, 0] length count

/-- IirFilter.response (iir_filter.py:329-354). -/
noncomputable def Iir.responseC (f : Iir ℂ) (length count : ℤ) : Res (List (Option ℂ) × List ℝ) :=
  np.responseC f.b (1 :: f.a.tail.map (- ·)) length count

/-- FirFilter.roots (fir_filter.py:304-318); a negative count is not modelled. -/
noncomputable def Fir.rootsC (f : Fir ℂ) (count : ℕ) : List ℂ × List ℂ :=
  (List.replicate (count * (f.b.length - 1)) 0, np.sortAbs (np.tile (np.roots f.b) count))

/-- IirFilter.roots (iir_filter.py:356-373); a negative count is not modelled. -/
noncomputable def Iir.rootsC (f : Iir ℂ) (count : ℕ) : List ℂ × List ℂ :=
  (np.sortAbs (np.tile (np.roots (1 :: f.a.tail.map (- ·))) count), np.sortAbs (np.tile (np.roots f.b) count))

/-- scipy.signal.group_delay((b, [1.0]), length, True)[1] for complex coefficients, as `np.groupDelay` (fir_filter.py:234). -/
noncomputable def np.groupDelayC (b : List ℂ) (length : ℕ) : List ℝ := open scoped Classical in
  (List.range length).map fun k : ℕ =>
    let z := cexp (-(I * (2 * Real.pi * k / length)))
    let num := np.polyval (b.zipIdx.map fun p => p.1 * (p.2 : ℂ)).reverse z
    let den := np.polyval b.reverse z
    if den = 0 then 0 else (num / den).re

/-- FirFilter.delay (fir_filter.py:213-240). -/
noncomputable def Fir.delayC (f : Fir ℂ) (length count : ℤ) : Res (List ℝ × List ℝ) :=
  if length ≤ 0 then .error .valueError
  else if count ≤ 0 then .error .valueError
  else
    let y := (np.rotate (np.groupDelayC f.b length.toNat)).map (· * (count : ℝ))
    let y := if length > 2 then y.set 0 (y.getD 1 0 * 2 - y.getD 2 0) else y
    .ok (y, np.linspace (-1) (1 - 2 / (length : ℝ)) length.toNat)

end Verif
