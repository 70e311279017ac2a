import Verif.Model.Fourier

/-
PsdTransform.transform (diamondback/transforms/psd_transform.py:68-107) with any integer as index.
-/

namespace Verif

/-- `range(0, stop, step)` (psd_transform.py:103): a step of zero raises ValueError; a negative step counts down from zero. -/
def pyRange (stop step : ℤ) : Res (List ℤ) :=
  if step = 0 then .error .valueError
  else if 0 < step then .ok ((List.range ((stop + step - 1) / step).toNat).map fun k : ℕ => (k : ℤ) * step)
  else .ok ((List.range ((-stop + -step - 1) / -step).toNat).map fun k : ℕ => (k : ℤ) * step)

/-- What PsdTransform.transform returns beside the axis: `nan` is the mean of no frames (`numpy.sum([], axis=0) / 0`, with a
warning) (psd_transform.py:105). -/
inductive PsdAny where
  | mean (y : List ℝ)
  | spectrogram (y : List (List ℝ))
  | nan

open scoped Classical in
/-- PsdTransform.transform (psd_transform.py:68-107) with an integer index.  `numpy.stack` of no frames raises ValueError.
Simplification: a slice from a negative position is not modelled; the range has no negative element (a stop of at least one and a
negative step give no element). -/
noncomputable def psdInt (x b : List ℂ) (index : ℤ) (spectrogram : Bool) : Res (PsdAny × List ℝ) :=
  if x.length = 0 then .error .valueError
  else if b.length = 0 ∨ ∀ v ∈ b, isClose0 v then .error .valueError
  else if x.length < b.length then .error .valueError
  else
    match pyRange ((x.length : ℤ) - b.length + 1) index with
    | .error e => .error e
    | .ok is =>
      let y := is.map fun ii => psdFrame x b ii.toNat
      let f := linspace 0 (1 - 2 / (b.length : ℝ)) (b.length / 2)
      if spectrogram then (if y = [] then .error .valueError else .ok (.spectrogram y, f))
      else if y = [] then .ok (.nan, f)
      else .ok (.mean ((columnSums (b.length / 2) y).map (· / (y.length : ℝ))), f)

end Verif
