import Verif.Model.Py
import Verif.Model.Fir
import Mathlib.Analysis.SpecialFunctions.Complex.Arg
import Mathlib.Analysis.SpecialFunctions.Trigonometric.Basic
import Mathlib.Algebra.Order.Floor.Ring

/-
Models of diamondback/filters/complex_exponential_filter.py, complex_bandpass_filter.py and
complex_frequency_filter.py, over `ℝ` and `ℂ` (no rounding, no NaN).
-/

namespace Verif

open Complex Classical

/-- Truncation toward zero (complex_exponential_filter.py:89, in `numpy.fmod`). -/
noncomputable def truncZ (v : ℝ) : ℤ := if 0 ≤ v then ⌊v⌋ else ⌈v⌉

/-- `numpy.fmod(v, 2.0)`: remainder of the division truncated toward zero (complex_exponential_filter.py:89). -/
noncomputable def fmod2 (v : ℝ) : ℝ := v - 2 * truncZ (v / 2)

/-- A ComplexExponentialFilter instance (complex_exponential_filter.py:42-66). -/
structure CExp where
  phase : ℝ

/-- Constructor (complex_exponential_filter.py:55-66). -/
noncomputable def CExp.new (phase : ℝ) : Res CExp :=
  if phase < -1 ∨ phase > 1 then .error .valueError else .ok ⟨phase⟩

/-- phase setter (complex_exponential_filter.py:49-53). -/
noncomputable def CExp.setPhase (f : CExp) (phase : ℝ) : Res Unit × CExp :=
  if phase < -1 ∨ phase > 1 then (.error .valueError, f) else (.ok (), ⟨phase⟩)

/-- The loop (complex_exponential_filter.py:85-88): outputs and the running phase. -/
noncomputable def CExp.loop : ℝ → List ℝ → List ℂ × ℝ
  | phase, [] => ([], phase)
  | phase, x :: xs => ((cexp (I * Real.pi * phase)) :: (CExp.loop (phase + x) xs).1, (CExp.loop (phase + x) xs).2)

/-- Phase wrapping (complex_exponential_filter.py:89-91). -/
noncomputable def wrapPhase (phase : ℝ) : ℝ :=
  let p := fmod2 phase
  if |p| > 1 then p - SignType.sign p * 2 else p

/-- filter (complex_exponential_filter.py:68-93), for real signals.  Simplification: a signal of complex *dtype* is
outside the model: with a nonzero imaginary part it is rejected (line 82), without one it passes that check and fails
later in `fmod`. -/
noncomputable def CExp.filter (f : CExp) (x : List ℝ) : Res (List ℂ) × CExp :=
  if x.length = 0 ∨ ∃ v ∈ x, |v| > 1 then (.error .valueError, f)
  else
    let r := CExp.loop f.phase x
    match f.setPhase (wrapPhase r.2) with
    | (.error e, f') => (.error e, f')
    | (.ok (), f') => (.ok r.1, f')

/-- A ComplexBandpassFilter instance (complex_bandpass_filter.py:57-96): one adaptive coefficient, the internal exponential
filter, frequency and rate.  The inherited state `s` is never used by `filter`. -/
structure Bandpass where
  b : ℂ
  osc : CExp
  frequency : ℝ
  rate : ℝ

/-- `numpy.finfo(float).eps` (complex_bandpass_filter.py:93). -/
noncomputable def eps : ℝ := 1 / 2 ^ 52

/-- ComplexBandpassFilter.__init__ (complex_bandpass_filter.py:80-96). -/
noncomputable def Bandpass.new (frequency rate : ℝ) : Res Bandpass :=
  if frequency < -1 ∨ frequency > 1 then .error .valueError
  else if rate < 0 ∨ rate > 1 then .error .valueError
  else .ok ⟨(eps : ℂ), ⟨0⟩, frequency, rate⟩

/-- frequency setter (complex_bandpass_filter.py:64-68). -/
noncomputable def Bandpass.setFrequency (f : Bandpass) (v : ℝ) : Res Unit × Bandpass :=
  if v < -1 ∨ v > 1 then (.error .valueError, f) else (.ok (), { f with frequency := v })

/-- rate setter (complex_bandpass_filter.py:74-78). -/
noncomputable def Bandpass.setRate (f : Bandpass) (v : ℝ) : Res Unit × Bandpass :=
  if v < 0 ∨ v > 1 then (.error .valueError, f) else (.ok (), { f with rate := v })

/-- `if not numpy.iscomplex(d).any(): d = hilbert(d)`: a signal without any nonzero imaginary part is Hilbert transformed
(complex_bandpass_filter.py:120-121, complex_frequency_filter.py:123-124).
`hilbert` (scipy.signal) is a parameter. -/
noncomputable def prepare (hilbert : List ℂ → List ℂ) (d : List ℂ) : List ℂ :=
  if ∃ v ∈ d, v.im ≠ 0 then d else hilbert d

/-- The loop of ComplexBandpassFilter.filter over pairs (x[ii], d[ii]): the triples (y, e, b) and the final
coefficient (complex_bandpass_filter.py:128-132). -/
noncomputable def Bandpass.loop (rate : ℝ) : ℂ → List (ℂ × ℂ) → List (ℂ × ℂ × ℂ) × ℂ
  | b, [] => ([], b)
  | b, (x, d) :: t =>
    let y := x * b
    let e := d - y
    let r := Bandpass.loop rate (b + rate * e * (starRingEnd ℂ) x) t
    ((y, e, b) :: r.1, r.2)

/-- ComplexBandpassFilter.filter (complex_bandpass_filter.py:98-133). -/
noncomputable def Bandpass.filter (hilbert : List ℂ → List ℂ) (f : Bandpass) (d : List ℂ) :
    Res (List (ℂ × ℂ × ℂ)) × Bandpass :=
  if d.length = 0 then (.error .valueError, f)
  else
    let d' := prepare hilbert d
    match f.osc.filter (List.replicate d'.length f.frequency) with
    | (.error e, osc') => (.error e, { f with osc := osc' })
    | (.ok x, osc') =>
      let r := Bandpass.loop f.rate f.b (x.zip d')
      (.ok r.1, { f with osc := osc', b := r.2 })

/-- A ComplexFrequencyFilter instance (complex_frequency_filter.py:60-99): coefficient, state, frequency, rate. -/
structure FreqF where
  b : ℂ
  s : ℂ
  frequency : ℝ
  rate : ℝ

/-- ComplexFrequencyFilter.__init__ (complex_frequency_filter.py:84-99): the frequency is stored, but the coefficient starts at one. -/
noncomputable def FreqF.new (frequency rate : ℝ) : Res FreqF :=
  if frequency < -1 ∨ frequency > 1 then .error .valueError
  else if rate < 0 ∨ rate > 1 then .error .valueError
  else .ok ⟨1, 1, frequency, rate⟩

/-- frequency setter (complex_frequency_filter.py:67-72). -/
noncomputable def FreqF.setFrequency (f : FreqF) (v : ℝ) : Res Unit × FreqF :=
  if v < -1 ∨ v > 1 then (.error .valueError, f)
  else (.ok (), { f with b := cexp (I * Real.pi * v), frequency := v })

/-- rate setter (complex_frequency_filter.py:78-82). -/
noncomputable def FreqF.setRate (f : FreqF) (v : ℝ) : Res Unit × FreqF :=
  if v < 0 ∨ v > 1 then (.error .valueError, f) else (.ok (), { f with rate := v })

/-- `x = abs(d); x[isclose(x, 0.0)] = 1.0; x = d / x` for one sample
(complex_frequency_filter.py:125-127). -/
noncomputable def normalise (d : ℂ) : ℂ := if ‖d‖ ≤ 1e-8 then d / 1 else d / ‖d‖

/-- Body of the loop of ComplexFrequencyFilter.filter (complex_frequency_filter.py:133-138): (y, e, b). -/
noncomputable def FreqF.step (f : FreqF) (x : ℂ) : Res (ℝ × ℂ × ℂ) × FreqF :=
  let y := f.b.arg / Real.pi
  let e := x - f.b * f.s
  (.ok (y, e, f.b), { f with b := f.b + f.rate * e * (starRingEnd ℂ) f.s, s := x })

/-- ComplexFrequencyFilter.filter (complex_frequency_filter.py:101-139). -/
noncomputable def FreqF.filter (hilbert : List ℂ → List ℂ) (f : FreqF) (d : List ℂ) :
    Res (List (ℝ × ℂ × ℂ)) × FreqF :=
  if d.length = 0 then (.error .valueError, f)
  else runLoop FreqF.step f ((prepare hilbert d).map normalise)

/-- ComplexFrequencyFilter.reset (complex_frequency_filter.py:141-155). -/
noncomputable def FreqF.reset (f : FreqF) : ResetArg ℂ → Res Unit × FreqF
  | .nonScalar => (.error .valueError, f)
  | .scalar x => (.ok (), { f with s := if ‖x‖ ≤ 1e-8 then 1 else x / ‖x‖ })

end Verif
