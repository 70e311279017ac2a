import Verif.Model.Goertzel
import Verif.Model.Exact
import Mathlib.Analysis.SpecialFunctions.Trigonometric.Basic
import Mathlib.Analysis.SpecialFunctions.Complex.Circle

/-
GoertzelFilter over the complex numbers.
-/

namespace Verif

open Complex Classical

/-- `numpy.isclose(b, 0.0).all()` for finite values (default tolerances: absolute 1e-8), used by
goertzel_filter.py:87 and others. -/
noncomputable def allClose0 (b : List ℂ) : Bool := decide (∀ v ∈ b, ‖v‖ ≤ 1e-8)

/-- `-1.0 <= frequency <= 1.0` (goertzel_filter.py:72, 89). -/
noncomputable def inUnit (f : ℝ) : Bool := decide (¬ (f < -1 ∨ f > 1))

/-- `2.0 * math.cos(math.pi * frequency)` (goertzel_filter.py:91). -/
noncomputable def goertzelC (f : ℝ) : ℂ := 2 * Real.cos (Real.pi * f)

/-- `numpy.exp(-1j * math.pi * frequency)` (goertzel_filter.py:92). -/
noncomputable def goertzelE (f : ℝ) : ℂ := cexp (-(Complex.I * Real.pi * f))

/-- GoertzelFilter(b, frequency) over `ℂ` (goertzel_filter.py:76-96). -/
noncomputable def Goertzel.new (b : List ℂ) (f : ℝ) : Res (Goertzel ℂ ℝ) :=
  Goertzel.make allClose0 inUnit goertzelC goertzelE b f

/-- `u = (1.0 + int(not isinstance(x[0], complex))) / len(self._w)` (goertzel_filter.py:115). -/
noncomputable def goertzelGain (isComplex : Bool) (n : ℕ) : ℂ := (1 + if isComplex then 0 else 1) / n

end Verif
