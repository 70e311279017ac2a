import Verif.Model.Fir
import Verif.Model.Iir
import Verif.Model.ZTransform
import Mathlib.Analysis.Complex.Exponential

/-
Models of the response and roots methods of FirFilter and IirFilter (fir_filter.py:279-318, iir_filter.py:329-373), of
FirFilter.delay (fir_filter.py:213-240), and of scipy.signal.freqz and group_delay with a whole circle (library code, not in /repo).  Simplifications: exact arithmetic, real coefficients; an
infinite or undefined sample is `none`.
-/

namespace Verif

open Complex

/-- scipy.signal.freqz(b, a, length, True)[1]: the quotient of the polynomials in `e^{-jw}` at `w = 2πk/length`; a zero denominator gives
inf or nan (fir_filter.py:298, iir_filter.py:350). -/
noncomputable def np.freqz (b a : List ℝ) (length : ℕ) : List (Option ℂ) := open scoped Classical in
  (List.range length).map fun k : ℕ =>
    let z := cexp (-(I * (2 * Real.pi * k / length)))
    let num := np.polyval (np.complexOf b).reverse z
    let den := np.polyval (np.complexOf a).reverse z
    if den = 0 then none else some (num / den)

/-- numpy.linspace(start, stop, num) (fir_filter.py:235, 299, iir_filter.py:278, 351). -/
noncomputable def np.linspace (start stop : ℝ) (num : ℕ) : List ℝ :=
  (List.range num).map fun k : ℕ => start + k * ((stop - start) / (num - 1 : ℝ))

/-- `numpy.concatenate((y[len(y)//2:], y[:len(y)//2]))` (fir_filter.py:237, 301, iir_filter.py:280, 353). -/
def np.rotate {α : Type _} (y : List α) : List α := y.drop (y.length / 2) ++ y.take (y.length / 2)

/-- The common body of the two response methods (fir_filter.py:293-302, iir_filter.py:343-354). -/
noncomputable def np.response (b a : List ℝ) (length count : ℤ) : Res (List (Option ℂ) × List ℝ) :=
  if length ≤ 0 then .error .valueError
  else if count ≤ 0 then .error .valueError
  else
    let y := np.freqz b a length.toNat
    .ok ((np.rotate y).map (Option.map (· ^ count.toNat)), np.linspace (-1) (1 - 2 / (length : ℝ)) length.toNat)

/-- FirFilter.response (fir_filter.py:279-302). -/
noncomputable def Fir.response (f : Fir ℝ) (length count : ℤ) : Res (List (Option ℂ) × List ℝ) := np.response f.b [1, 0] length count

/-- IirFilter.response (iir_filter.py:329-354). -/
noncomputable def Iir.response (f : Iir ℝ) (length count : ℤ) : Res (List (Option ℂ) × List ℝ) :=
  np.response f.b (1 :: f.a.tail.map (- ·)) length count

/-- `z[numpy.argsort(abs(z))]` (fir_filter.py:318, iir_filter.py:373). -/
noncomputable def np.sortAbs (z : List ℂ) : List ℂ := open scoped Classical in z.mergeSort fun u v => decide (‖u‖ ≤ ‖v‖)

/-- numpy.tile(z, count) (fir_filter.py:317, iir_filter.py:370-371). -/
def np.tile {α : Type _} (z : List α) (count : ℕ) : List α := (List.replicate count z).flatten

/-- FirFilter.roots (fir_filter.py:304-318) for a count that is not negative. -/
noncomputable def Fir.roots (f : Fir ℝ) (count : ℕ) : List ℂ × List ℂ :=
  (List.replicate (count * (f.b.length - 1)) 0, np.sortAbs (np.tile (np.roots (np.complexOf f.b)) count))

/-- IirFilter.roots (iir_filter.py:356-373) for a count that is not negative. -/
noncomputable def Iir.roots (f : Iir ℝ) (count : ℕ) : List ℂ × List ℂ :=
  (np.sortAbs (np.tile (np.roots (np.complexOf (1 :: f.a.tail.map (- ·)))) count),
    np.sortAbs (np.tile (np.roots (np.complexOf f.b)) count))

/-- numpy.tile(z, count) for any integer: a negative count raises unless there is nothing to repeat (fir_filter.py:317, iir_filter.py:370-371). -/
def np.tileZ {α : Type _} (z : List α) (count : ℤ) : Res (List α) :=
  if count < 0 ∧ 0 < z.length then .error .valueError else .ok (np.tile z count.toNat)

/-- numpy.zeros(n) for any integer (fir_filter.py:318). -/
def np.zerosZ (n : ℤ) : Res (List ℂ) := if n < 0 then .error .valueError else .ok (List.replicate n.toNat 0)

/-- FirFilter.roots (fir_filter.py:304-318) for any count. -/
noncomputable def Fir.rootsZ (f : Fir ℝ) (count : ℤ) : Res (List ℂ × List ℂ) := do
  let z ← np.tileZ (np.roots (np.complexOf f.b)) count
  let p ← np.zerosZ (count * ((f.b.length : ℤ) - 1))
  .ok (p, np.sortAbs z)

/-- IirFilter.roots (iir_filter.py:356-373) for any count. -/
noncomputable def Iir.rootsZ (f : Iir ℝ) (count : ℤ) : Res (List ℂ × List ℂ) := do
  let p ← np.tileZ (np.roots (np.complexOf (1 :: f.a.tail.map (- ·)))) count
  let z ← np.tileZ (np.roots (np.complexOf f.b)) count
  .ok (np.sortAbs p, np.sortAbs z)

/-- scipy.signal.group_delay((b, [1.0]), length, True)[1]: `Re(∑ n b_n z^n / ∑ b_n z^n)` at `z = e^{-jw}`, and zero where the denominator
vanishes (fir_filter.py:234). -/
noncomputable def np.groupDelay (b : List ℝ) (length : ℕ) : List ℝ := open scoped Classical in
  (List.range length).map fun k : ℕ =>
    let z := cexp (-(I * (2 * Real.pi * k / length)))
    let num := np.polyval (np.complexOf (b.zipIdx.map fun p => p.1 * (p.2 : ℝ))).reverse z
    let den := np.polyval (np.complexOf b).reverse z
    if den = 0 then 0 else (num / den).re

/-- FirFilter.delay (fir_filter.py:213-240). -/
noncomputable def Fir.delay (f : Fir ℝ) (length count : ℤ) : Res (List ℝ × List ℝ) :=
  if length ≤ 0 then .error .valueError
  else if count ≤ 0 then .error .valueError
  else
    let y := (np.rotate (np.groupDelay f.b length.toNat)).map (· * (count : ℝ))
    let y := if length > 2 then y.set 0 (y.getD 1 0 * 2 - y.getD 2 0) else y
    .ok (y, np.linspace (-1) (1 - 2 / (length : ℝ)) length.toNat)

end Verif
