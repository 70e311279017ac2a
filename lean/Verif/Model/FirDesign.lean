import Verif.Model.Fir
import Verif.Model.Window
import Verif.Model.Search
import Verif.Model.NpPoly
import Mathlib.Analysis.Complex.Exponential
import Mathlib.Analysis.SpecialFunctions.Pow.Real

/-
Model of the design branch of FirFilter.__init__ (diamondback/filters/fir_filter.py:160-199) and of scipy.signal.firwin as called
there (library code, not in /repo).  Simplifications: exact real arithmetic; the style argument is the result of the lookup of
`style.title()` in STYLE; `order` and `count` are integers.
-/

namespace Verif

open Complex

/-- numpy.sinc (fir_filter.py:178-186, in `firwin`). -/
noncomputable def np.sinc (x : ℝ) : ℝ := open scoped Classical in
  if x = 0 then 1 else Real.sin (Real.pi * x) / (Real.pi * x)

/-- scipy.signal.firwin(numtaps=order+1, cutoff, window=style, pass_zero=True, scale=True, fs=2.0) before the final scaling: the
ideal low-pass response times the window (fir_filter.py:178-186). -/
noncomputable def fir.ideal (style : WStyle) (order : ℕ) (cutoff : ℝ) : List ℝ :=
  (List.range (order + 1)).map fun n : ℕ =>
    cutoff * np.sinc (cutoff * ((n : ℝ) - (order : ℝ) / 2)) * window.value style (order + 1) n

/-- One candidate (fir_filter.py:178-188): `firwin` scales by the sum; a zero sum gives nan, which line 187 rejects. -/
noncomputable def fir.candidate (style : WStyle) (order : ℕ) (frequency scale : ℝ) : Res (List ℝ) := open scoped Classical in
  let h := fir.ideal style order (min (scale * frequency) (1 - search.eps))
  if h.sum = 0 then .error .valueError else .ok (h.map (· / h.sum))

/-- fir_filter.py:189-190: deviation from -3 dB at the design frequency, `count` instances in cascade. -/
noncomputable def fir.deviation (frequency : ℝ) (count : ℕ) (v : List ℝ) : ℝ :=
  (2 : ℝ) ^ (-(0.5 : ℝ)) - ‖np.polyval (v.map fun r : ℝ => (r : ℂ)) (cexp (I * Real.pi * frequency))‖ ^ count

/-- Multiplication by `[(-1.0) ** x for x in range(0, len(b))]` (fir_filter.py:197-198). -/
def alternate (b : List ℝ) : List ℝ := b.zipIdx.map fun p => p.1 * (-1) ^ p.2

/-- FirFilter.__init__ without explicit coefficients (fir_filter.py:160-199): the coefficients. -/
noncomputable def fir.design (style : Option WStyle) (frequency : ℝ) (order count : ℤ) (complement : Bool) (gain : ℝ) :
    Res (List ℝ) :=
  match style with
  | none => .error .valueError
  | some style =>
    if frequency ≤ 0 ∨ frequency ≥ 1 then .error .valueError
    else if order ≤ 0 then .error .valueError
    else if count ≤ 0 then .error .valueError
    else
      let frequency := if complement then 1 - frequency else frequency
      match search.run (fir.candidate style order.toNat frequency) (fir.deviation frequency count.toNat) 3.0e-2 with
      | .error e => .error e
      -- no candidate: `b` is still the empty list, and `b *= gain` raises for a float
      | .ok none => .error .typeError
      | .ok (some b) =>
        let b := if complement then
            let b := alternate b
            b.map (· / (alternate b).sum)
          else b
        .ok (b.map (· * gain))

/-- FirFilter.__init__ with a style (fir_filter.py:160-211). -/
noncomputable def Fir.newDesign (style : Option WStyle) (frequency : ℝ) (order count : ℤ) (complement : Bool) (gain : ℝ)
    (s : Option (List ℝ)) : Res (Fir ℝ) :=
  match fir.design style frequency order count complement gain with
  | .error e => .error e
  | .ok b => Fir.new id b s

end Verif
