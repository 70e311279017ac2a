import Verif.Model.Adaptive

/-
The three complex filters for signals whose arrays are of complex type (complex_exponential_filter.py:68-93, complex_bandpass_filter.py:98-133,
complex_frequency_filter.py:101-139), and the check of `scipy.signal.hilbert` (library code, not in /repo): `if numpy.iscomplexobj(x): raise
ValueError("x must be real.")`.  `numpy.iscomplex(x).any()` asks whether some imaginary part is not zero; `iscomplexobj` asks for the type of the
array.  Simplifications: those of Verif/Model/Adaptive.lean.
-/

namespace Verif

open Complex Classical

/-- A signal: the type of its array, and its samples.  Arrays of real type have imaginary parts zero (complex_exponential_filter.py:80-81,
complex_bandpass_filter.py:116-117, complex_frequency_filter.py:119-120). -/
structure Signal where
  isComplex : Bool
  x : List ℂ

/-- `scipy.signal.hilbert` with its check of the type (complex_bandpass_filter.py:121, complex_frequency_filter.py:124). -/
noncomputable def hilbertChecked (hilbert : List ℂ → List ℂ) (d : Signal) : Res Signal :=
  if d.isComplex then .error .valueError else .ok ⟨true, hilbert d.x⟩

/-- `if not numpy.iscomplex(d).any(): d = hilbert(d)` (complex_bandpass_filter.py:120-121, complex_frequency_filter.py:123-124). -/
noncomputable def prepareTyped (hilbert : List ℂ → List ℂ) (d : Signal) : Res Signal :=
  if ∃ v ∈ d.x, v.im ≠ 0 then .ok d else hilbertChecked hilbert d

/-- ComplexBandpassFilter.filter (complex_bandpass_filter.py:98-133). -/
noncomputable def Bandpass.filterTyped (hilbert : List ℂ → List ℂ) (f : Bandpass) (d : Signal) : Res (List (ℂ × ℂ × ℂ)) × Bandpass :=
  if d.x.length = 0 then (.error .valueError, f)
  else
    match prepareTyped hilbert d with
    | .error e => (.error e, f)
    | .ok d' =>
      match f.osc.filter (List.replicate d'.x.length f.frequency) with
      | (.error e, osc') => (.error e, { f with osc := osc' })
      | (.ok x, osc') =>
        let r := Bandpass.loop f.rate f.b (x.zip d'.x)
        (.ok r.1, { f with osc := osc', b := r.2 })

/-- ComplexFrequencyFilter.filter (complex_frequency_filter.py:101-139). -/
noncomputable def FreqF.filterTyped (hilbert : List ℂ → List ℂ) (f : FreqF) (d : Signal) : Res (List (ℝ × ℂ × ℂ)) × FreqF :=
  if d.x.length = 0 then (.error .valueError, f)
  else
    match prepareTyped hilbert d with
    | .error e => (.error e, f)
    | .ok d' => runLoop FreqF.step f (d'.x.map normalise)

/-- ComplexExponentialFilter.filter (complex_exponential_filter.py:68-93).  The phase added up from an array of complex type is a complex number,
which `numpy.fmod` (line 89) refuses with TypeError. -/
noncomputable def CExp.filterTyped (f : CExp) (x : Signal) : Res Signal × CExp :=
  if (∃ v ∈ x.x, v.im ≠ 0) ∨ x.x.length = 0 ∨ ∃ v ∈ x.x, ‖v‖ > 1 then (.error .valueError, f)
  else if x.isComplex then (.error .typeError, f)
  else
    match f.filter (x.x.map re) with
    | (.error e, f') => (.error e, f')
    | (.ok y, f') => (.ok ⟨true, y⟩, f')

end Verif
