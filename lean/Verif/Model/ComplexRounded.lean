import Verif.Model.Adaptive

/-
ComplexExponentialFilter, ComplexBandpassFilter and ComplexFrequencyFilter (diamondback/filters/complex_exponential_filter.py, complex_bandpass_filter.py,
complex_frequency_filter.py) in machine arithmetic.  `add` is the machine's addition of real numbers, `exp p` its value of `exp(j pi p)`; `F` are the complex
numbers of the machine.  Simplifications: `fmod` and the subtraction of 2 are exact, which they are for floating point numbers (the remainder is representable, and so
is the difference of 2 and a number in [1, 2]); overflow is excluded; signals are those after `hilbert` and, for ComplexFrequencyFilter, after the division by the
magnitude.
-/

namespace Verif

/-- The loop of ComplexExponentialFilter.filter (complex_exponential_filter.py:85-88). -/
def MachineExp.loop {F : Type*} (add : ℝ → ℝ → ℝ) (exp : ℝ → F) : ℝ → List ℝ → List F × ℝ
  | phase, [] => ([], phase)
  | phase, x :: xs => (exp phase :: (MachineExp.loop add exp (add phase x) xs).1, (MachineExp.loop add exp (add phase x) xs).2)

/-- ComplexExponentialFilter.filter (complex_exponential_filter.py:68-93). -/
noncomputable def MachineExp.filter {F : Type*} (add : ℝ → ℝ → ℝ) (exp : ℝ → F) (f : CExp) (x : List ℝ) : Res (List F) × CExp := open scoped Classical in
  if x.length = 0 ∨ ∃ v ∈ x, |v| > 1 then (.error .valueError, f)
  else
    let r := MachineExp.loop add exp f.phase x
    match f.setPhase (wrapPhase r.2) with
    | (.error e, f') => (.error e, f')
    | (.ok (), f') => (.ok r.1, f')

/-- A ComplexBandpassFilter instance (complex_bandpass_filter.py:93-96). -/
structure MachineBandpass (F : Type*) where
  b : F
  osc : CExp
  frequency : ℝ
  rate : F

/-- The loop of ComplexBandpassFilter.filter (complex_bandpass_filter.py:128-132). -/
def MachineBandpass.loop {F : Type*} [Add F] [Sub F] [Mul F] (conj : F → F) (rate : F) : F → List (F × F) → List (F × F × F) × F
  | b, [] => ([], b)
  | b, (x, d) :: t =>
    let y := x * b
    let e := d - y
    let r := MachineBandpass.loop conj rate (b + rate * e * conj x) t
    ((y, e, b) :: r.1, r.2)

/-- ComplexBandpassFilter.filter (complex_bandpass_filter.py:98-133), for a complex signal. -/
noncomputable def MachineBandpass.filter {F : Type*} [Add F] [Sub F] [Mul F] (add : ℝ → ℝ → ℝ) (exp : ℝ → F) (conj : F → F) (f : MachineBandpass F) (d : List F) :
    Res (List (F × F × F)) × MachineBandpass F :=
  if d.length = 0 then (.error .valueError, f)
  else
    match MachineExp.filter add exp f.osc (List.replicate d.length f.frequency) with
    | (.error e, osc') => (.error e, { f with osc := osc' })
    | (.ok x, osc') =>
      let r := MachineBandpass.loop conj f.rate f.b (x.zip d)
      (.ok r.1, { f with osc := osc', b := r.2 })

/-- The loop of ComplexFrequencyFilter.filter (complex_frequency_filter.py:133-138) from the coefficient `b` and the state `s`: the pairs (e, b), the final
coefficient and the final state. -/
def MachineFreq.loop {F : Type*} [Add F] [Sub F] [Mul F] (conj : F → F) (rate : F) : F → F → List F → List (F × F) × F × F
  | b, s, [] => ([], b, s)
  | b, s, x :: xs =>
    let e := x - b * s
    let r := MachineFreq.loop conj rate (b + rate * e * conj s) x xs
    ((e, b) :: r.1, r.2)

end Verif
