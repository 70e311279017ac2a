import Verif.Model.Adaptive
import Verif.Spec.Nan

/-
ComplexExponentialFilter, ComplexBandpassFilter and ComplexFrequencyFilter (diamondback/filters/complex_exponential_filter.py,
complex_bandpass_filter.py, complex_frequency_filter.py) for numbers with nan.  An operation with nan is nan, a comparison with nan is false; `exp`,
`fmod`, `sign`, `abs`, `angle` and `conjugate` of nan are nan.  Simplification: a complex number with a nan for a part is nan altogether, which every
operation in these files makes it in the end.  Otherwise the simplifications are those of Verif/Model/Adaptive.lean.
-/

namespace Verif

open Complex Spec Spec.Num

/-- A range check `(v < low) or (v > high)` (complex_exponential_filter.py:51, 63, complex_bandpass_filter.py:66, 76, 89, 91,
complex_frequency_filter.py:69, 80, 93, 95). -/
def outside (low high : ℝ) (v : Num ℝ) : Prop := v < val low ∨ val high < v

/-- A ComplexExponentialFilter instance (complex_exponential_filter.py:66). -/
structure NanExp where
  phase : Num ℝ

/-- Constructor (complex_exponential_filter.py:55-66). -/
noncomputable def NanExp.new (phase : Num ℝ) : Res NanExp := open scoped Classical in
  if outside (-1) 1 phase then .error .valueError else .ok ⟨phase⟩

/-- phase setter (complex_exponential_filter.py:49-53). -/
noncomputable def NanExp.setPhase (f : NanExp) (phase : Num ℝ) : Res Unit × NanExp := open scoped Classical in
  if outside (-1) 1 phase then (.error .valueError, f) else (.ok (), ⟨phase⟩)

/-- The loop (complex_exponential_filter.py:85-88). -/
noncomputable def NanExp.loop : Num ℝ → List (Num ℝ) → List (Num ℂ) × Num ℝ
  | phase, [] => ([], phase)
  | phase, x :: xs => (Num.map (fun p : ℝ => cexp (I * Real.pi * p)) phase :: (NanExp.loop (phase + x) xs).1, (NanExp.loop (phase + x) xs).2)

/-- filter (complex_exponential_filter.py:68-93). -/
noncomputable def NanExp.filter (f : NanExp) (x : List (Num ℝ)) : Res (List (Num ℂ)) × NanExp := open scoped Classical in
  if x.length = 0 ∨ ∃ v ∈ x, val 1 < Num.map (|·|) v then (.error .valueError, f)
  else
    let r := NanExp.loop f.phase x
    match f.setPhase (Num.map wrapPhase r.2) with
    | (.error e, f') => (.error e, f')
    | (.ok (), f') => (.ok r.1, f')

/-- A ComplexBandpassFilter instance (complex_bandpass_filter.py:93-96). -/
structure NanBandpass where
  b : Num ℂ
  osc : NanExp
  frequency : Num ℝ
  rate : Num ℝ

/-- ComplexBandpassFilter.__init__ (complex_bandpass_filter.py:80-96). -/
noncomputable def NanBandpass.new (frequency rate : Num ℝ) : Res NanBandpass := open scoped Classical in
  if outside (-1) 1 frequency then .error .valueError
  else if outside 0 1 rate then .error .valueError
  else .ok ⟨val (eps : ℂ), ⟨val 0⟩, frequency, rate⟩

/-- frequency setter (complex_bandpass_filter.py:64-68). -/
noncomputable def NanBandpass.setFrequency (f : NanBandpass) (v : Num ℝ) : Res Unit × NanBandpass := open scoped Classical in
  if outside (-1) 1 v then (.error .valueError, f) else (.ok (), { f with frequency := v })

/-- rate setter (complex_bandpass_filter.py:74-78). -/
noncomputable def NanBandpass.setRate (f : NanBandpass) (v : Num ℝ) : Res Unit × NanBandpass := open scoped Classical in
  if outside 0 1 v then (.error .valueError, f) else (.ok (), { f with rate := v })

/-- `if not numpy.iscomplex(d).any(): d = hilbert(d)` (complex_bandpass_filter.py:120-121, complex_frequency_filter.py:123-124).  Simplification: a nan
has no imaginary part of its own; numpy takes one with an imaginary part which is nan for complex. -/
noncomputable def nanPrepare (hilbert : List (Num ℂ) → List (Num ℂ)) (d : List (Num ℂ)) : List (Num ℂ) := open scoped Classical in
  if ∃ v, val v ∈ d ∧ v.im ≠ 0 then d else hilbert d

/-- `numpy.conjugate` (complex_bandpass_filter.py:132, complex_frequency_filter.py:137). -/
noncomputable def nanConj (v : Num ℂ) : Num ℂ := Num.map (starRingEnd ℂ) v

/-- A real number as a factor of complex ones (complex_bandpass_filter.py:132, complex_frequency_filter.py:137). -/
noncomputable def nanReal (v : Num ℝ) : Num ℂ := Num.map (fun v : ℝ => (v : ℂ)) v

/-- The loop of ComplexBandpassFilter.filter (complex_bandpass_filter.py:128-132). -/
noncomputable def NanBandpass.loop (rate : Num ℝ) : Num ℂ → List (Num ℂ × Num ℂ) → List (Num ℂ × Num ℂ × Num ℂ) × Num ℂ
  | b, [] => ([], b)
  | b, (x, d) :: t =>
    let y := x * b
    let e := d - y
    let r := NanBandpass.loop rate (b + nanReal rate * e * nanConj x) t
    ((y, e, b) :: r.1, r.2)

/-- ComplexBandpassFilter.filter (complex_bandpass_filter.py:98-133). -/
noncomputable def NanBandpass.filter (hilbert : List (Num ℂ) → List (Num ℂ)) (f : NanBandpass) (d : List (Num ℂ)) :
    Res (List (Num ℂ × Num ℂ × Num ℂ)) × NanBandpass :=
  if d.length = 0 then (.error .valueError, f)
  else
    let d' := nanPrepare hilbert d
    match f.osc.filter (List.replicate d'.length f.frequency) with
    | (.error e, osc') => (.error e, { f with osc := osc' })
    | (.ok x, osc') =>
      let r := NanBandpass.loop f.rate f.b (x.zip d')
      (.ok r.1, { f with osc := osc', b := r.2 })

/-- A ComplexFrequencyFilter instance (complex_frequency_filter.py:97-99). -/
structure NanFreq where
  b : Num ℂ
  s : Num ℂ
  frequency : Num ℝ
  rate : Num ℝ

/-- ComplexFrequencyFilter.__init__ (complex_frequency_filter.py:84-99). -/
noncomputable def NanFreq.new (frequency rate : Num ℝ) : Res NanFreq := open scoped Classical in
  if outside (-1) 1 frequency then .error .valueError
  else if outside 0 1 rate then .error .valueError
  else .ok ⟨val 1, val 1, frequency, rate⟩

/-- frequency setter (complex_frequency_filter.py:67-72). -/
noncomputable def NanFreq.setFrequency (f : NanFreq) (v : Num ℝ) : Res Unit × NanFreq := open scoped Classical in
  if outside (-1) 1 v then (.error .valueError, f)
  else (.ok (), { f with b := Num.map (fun v : ℝ => cexp (I * Real.pi * v)) v, frequency := v })

/-- rate setter (complex_frequency_filter.py:78-82). -/
noncomputable def NanFreq.setRate (f : NanFreq) (v : Num ℝ) : Res Unit × NanFreq := open scoped Classical in
  if outside 0 1 v then (.error .valueError, f) else (.ok (), { f with rate := v })

/-- Body of the loop of ComplexFrequencyFilter.filter (complex_frequency_filter.py:133-138): (y, e, b). -/
noncomputable def NanFreq.step (f : NanFreq) (x : Num ℂ) : Res (Num ℝ × Num ℂ × Num ℂ) × NanFreq :=
  let y := Num.map (fun b : ℂ => b.arg / Real.pi) f.b
  let e := x - f.b * f.s
  (.ok (y, e, f.b), { f with b := f.b + nanReal f.rate * e * nanConj f.s, s := x })

/-- ComplexFrequencyFilter.filter (complex_frequency_filter.py:101-139); lines 125-127 leave a nan. -/
noncomputable def NanFreq.filter (hilbert : List (Num ℂ) → List (Num ℂ)) (f : NanFreq) (d : List (Num ℂ)) :
    Res (List (Num ℝ × Num ℂ × Num ℂ)) × NanFreq :=
  if d.length = 0 then (.error .valueError, f)
  else runLoop NanFreq.step f ((nanPrepare hilbert d).map (Num.map normalise))

/-- ComplexFrequencyFilter.reset (complex_frequency_filter.py:141-155). -/
noncomputable def NanFreq.reset (f : NanFreq) : ResetArg (Num ℂ) → Res Unit × NanFreq
  | .nonScalar => (.error .valueError, f)
  | .scalar x => (.ok (), { f with s := Num.map (fun x : ℂ => if ‖x‖ ≤ 1e-8 then 1 else x / ‖x‖) x })

end Verif
