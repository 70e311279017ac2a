import Verif.Model.Py
import Verif.Model.GoertzelC
import Verif.Spec.Signal
import Mathlib.Analysis.SpecialFunctions.Complex.Circle

/-
Model of diamondback/transforms/fourier_transform.py (class FourierTransform) and
diamondback/transforms/psd_transform.py (class PsdTransform).
Simplification: exact complex arithmetic; a numpy division by zero (inf/nan and a warning) is a Lean division by zero
(zero), which the theorems exclude.
-/

namespace Verif

open Complex Finset Spec

/-- `numpy.fft.fft` (fourier_transform.py:96, psd_transform.py:102): the discrete Fourier transform. -/
noncomputable def fft (l : List ℂ) : List ℂ :=
  (List.range l.length).map fun k : ℕ =>
    ∑ n ∈ range l.length, at0 l n * cexp (-(2 * Real.pi * I * (k : ℂ) * (n : ℂ) / (l.length : ℂ)))

/-- `numpy.fft.ifft` (fourier_transform.py:93). -/
noncomputable def ifft (l : List ℂ) : List ℂ :=
  (List.range l.length).map fun n : ℕ =>
    (∑ k ∈ range l.length, at0 l k * cexp (2 * Real.pi * I * (k : ℂ) * (n : ℂ) / (l.length : ℂ))) / (l.length : ℂ)

/-- `numpy.linspace(start, stop, num)` (fourier_transform.py:93 and 97, psd_transform.py:105-107). -/
noncomputable def linspace (start stop : ℝ) (num : ℕ) : List ℝ :=
  (List.range num).map fun k : ℕ => start + (k : ℝ) * ((stop - start) / ((num : ℝ) - 1))

/-- `numpy.concatenate((y[len(y) // 2 :], y[: len(y) // 2]))` (fourier_transform.py:92, 99). -/
def halfRotate (y : List ℂ) : List ℂ := y.drop (y.length / 2) ++ y.take (y.length / 2)

/-- `numpy.isclose(v, 0.0)` for a complex number: `abs(v) <= 1e-8` (fourier_transform.py:85, 90, psd_transform.py:97). -/
def isClose0 (v : ℂ) : Prop := ‖v‖ ≤ 1e-8

/-- `v[0], v[-1] = v[1], v[-2]` (fourier_transform.py:90-91) for an array of length at least two; a shorter one raises
IndexError.  The right-hand side is evaluated first. -/
def patchEnds (v : List ℂ) : Res (List ℂ) :=
  if v.length < 2 then .error .indexError
  else .ok ((v.set 0 (at0 v 1)).set (v.length - 1) (at0 v (v.length - 2)))

open scoped Classical in
/-- FourierTransform.transform (fourier_transform.py:57-100). -/
noncomputable def fourier (x b : List ℂ) (inverse : Bool) : Res (List ℂ × List ℝ) :=
  if x.length = 0 then .error .valueError
  else if b.length > x.length ∨ ∀ v ∈ b, isClose0 v then .error .valueError
  else
    let u := x.take b.length
    if inverse then
      let patched : Res (List ℂ) :=
        if isClose0 (at0 b 0) ∨ isClose0 (at0 b (b.length - 1)) then patchEnds b else .ok b
      match patched with
      | .error e => .error e
      | .ok v =>
        let y := halfRotate u
        .ok (List.zipWith (fun p q => p * (y.length : ℂ) / q) (ifft y) v, linspace 0 ((y.length : ℝ) - 1) y.length)
    else
      let y := (fft (List.zipWith (· * ·) b u)).map (· / (u.length : ℂ))
      .ok (halfRotate y, linspace (-1) (1 - 2 / (u.length : ℝ)) u.length)

/-- The two shapes PsdTransform.transform returns (psd_transform.py:105-107). -/
inductive PsdOut where
  | mean (y : List ℝ)
  | spectrogram (y : List (List ℝ))

/-- One entry of the comprehension of psd_transform.py:101-104. -/
noncomputable def psdFrame (x b : List ℂ) (ii : ℕ) : List ℝ :=
  ((fft (List.zipWith (· * ·) ((x.drop ii).take b.length) b)).take (b.length / 2)).map fun v => ‖v / (b.length : ℂ)‖ ^ 2

/-- `range(0, n, index)` for a positive index (psd_transform.py:103). -/
def stride (n index : ℕ) : List ℕ := (List.range ((n + index - 1) / index)).map (· * index)

/-- `numpy.sum(y, axis=0)` for rows of length `m` (psd_transform.py:105). -/
noncomputable def columnSums (m : ℕ) (y : List (List ℝ)) : List ℝ :=
  (List.range m).map fun k => (y.map fun r => at0 r k).sum

open scoped Classical in
/-- PsdTransform.transform (psd_transform.py:68-107).  Simplification: `index` is a natural number; zero makes `range` raise
ValueError.  (A negative index gives no frames: the mean is nan, the spectrogram raises ValueError.) -/
noncomputable def psd (x b : List ℂ) (index : ℕ) (spectrogram : Bool) : Res (PsdOut × List ℝ) :=
  if x.length = 0 then .error .valueError
  else if b.length = 0 ∨ ∀ v ∈ b, isClose0 v then .error .valueError
  else if x.length < b.length then .error .valueError
  else if index = 0 then .error .valueError
  else
    let y := (stride (x.length - b.length + 1) index).map (psdFrame x b)
    let f := linspace 0 (1 - 2 / (b.length : ℝ)) (b.length / 2)
    if spectrogram then .ok (.spectrogram y, f)
    else .ok (.mean ((columnSums (b.length / 2) y).map (· / (y.length : ℝ))), f)

end Verif
