import Verif.Model.Pid
import Verif.Model.Goertzel
import Verif.Model.Adaptive

/-!
`reset` of the filters which inherit it from FirFilter (fir_filter.py:266-277) or IirFilter (iir_filter.py:314-327).  DerivativeFilter, RankFilter and
IntegralFilter inherit it too; `Fir.reset`, `Rank.reset` and `Iir.reset` are their models.
-/

namespace Verif

variable {R K F : Type _}

/-- PidFilter inherits FirFilter.reset (fir_filter.py:266-277): all of the state, so the integral and the difference too. -/
def Pid.reset (f : Pid R K) : ResetArg R → Res Unit × Pid R K
  | .nonScalar => (.error .valueError, f)
  | .scalar x => (.ok (), { f with s0 := f.cast x, s1 := f.cast x, s2 := f.cast x })

/-- GoertzelFilter inherits IirFilter.reset (iir_filter.py:314-327); the position in the block is kept. -/
def Goertzel.reset [Field R] (g : Goertzel R F) (a : ResetArg R) : Res Unit × Goertzel R F :=
  ((g.iir.reset a).1, { g with iir := (g.iir.reset a).2 })

/-- A ComplexBandpassFilter with the state `s` which it inherits (complex_bandpass_filter.py:93) and which `filter` does not use. -/
structure BandpassS where
  filt : Bandpass
  s : ℂ

/-- ComplexBandpassFilter.filter (complex_bandpass_filter.py:98-133). -/
noncomputable def BandpassS.filter (hilbert : List ℂ → List ℂ) (f : BandpassS) (d : List ℂ) : Res (List (ℂ × ℂ × ℂ)) × BandpassS :=
  ((f.filt.filter hilbert d).1, { f with filt := (f.filt.filter hilbert d).2 })

/-- The inherited FirFilter.reset (fir_filter.py:266-277). -/
def BandpassS.reset (f : BandpassS) : ResetArg ℂ → Res Unit × BandpassS
  | .nonScalar => (.error .valueError, f)
  | .scalar x => (.ok (), { f with s := x })

end Verif
