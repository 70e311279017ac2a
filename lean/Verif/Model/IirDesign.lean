import Verif.Model.Iir
import Verif.Model.FirDesign
import Verif.Model.ZTransform
import Mathlib.Analysis.SpecialFunctions.Arsinh

/-
Model of IirFilter._evaluate (diamondback/filters/iir_filter.py:207-254) and of the design branch of IirFilter.__init__ (160-191).
Simplifications: exact real arithmetic; the style argument is the result of the lookup of `style.title()` in STYLE;
`scipy.signal.residue` is the parameter of the model of ZTransform.
-/

namespace Verif

open Complex

/-- IirFilter.STYLE (iir_filter.py:109). -/
inductive IStyle where
  | bessel | butterworth | chebyshev
  deriving DecidableEq, Repr

/-- iir_filter.py:226-229: the pair `(u, a)` after the iterations up to `ii = n + 1`; the reverse Bessel polynomials of degree `n` and
`n + 1`. -/
noncomputable def iir.bessel : ℕ → List ℝ × List ℝ
  | 0 => ([1], [1, 1])
  | n + 1 =>
    let ua := iir.bessel n
    -- `ii = n + 2`
    (ua.2, List.zipWith (· + ·) (ua.1 ++ [0, 0]) (0 :: ua.2.map ((2 * ((n : ℝ) + 2) - 1) * ·)))

/-- iir_filter.py:231-244: the Butterworth denominator. -/
noncomputable def iir.butterworth (order : ℕ) : List ℝ :=
  let a := ((List.range' 1 (order / 2)).map fun ii : ℕ =>
    [1, -2 * Real.cos ((2 * (ii : ℝ) + order - 1) / (2 * order) * Real.pi), 1]).foldl np.convolve [1]
  if order % 2 = 1 then np.convolve a [1, 1] else a

/-- iir_filter.py:246-249: the poles. -/
noncomputable def iir.chebyshevPoles (order : ℕ) : List ℂ :=
  let v := Real.arsinh (1 / ((10 : ℝ) ^ (0.1 * 0.125 : ℝ) - 1) ^ (0.5 : ℝ)) / order
  ((List.range order).map fun k : ℕ => cexp (I * Real.pi * (2 * k + 1) / (2 * order))).map fun u =>
    (-(Real.sinh v : ℂ) * u.im + I * (Real.cosh v : ℂ) * u.re) * 2 * Real.pi

/-- iir_filter.py:223-249: the s-domain denominator, before normalisation. -/
noncomputable def iir.denominator (style : IStyle) (order : ℕ) : List ℝ :=
  match style with
  | .bessel => (iir.bessel (order - 1)).2
  | .butterworth => iir.butterworth order
  | .chebyshev => (np.poly (iir.chebyshevPoles order)).map Complex.re

/-- IirFilter._evaluate (iir_filter.py:207-254), `order ≥ 1`.  The forward coefficients of ZTransform are discarded (line 252).
`.error .other` stands for recursive coefficients that are inf or nan. -/
noncomputable def iir.evaluate (residue : List ℝ → List ℝ → List ℂ × List ℂ) (style : IStyle) (frequency : ℝ) (order : ℕ) :
    Res (List ℝ × List ℝ) :=
  let a := iir.denominator style order
  let a := a.map (· / a.getLastD 0)
  match zt.transform residue a [1] frequency (style ≠ .bessel) with
  | .error e => .error e
  | .ok (none, _) => .error .other
  | .ok (some a, _) =>
    let b := np.poly (List.replicate order (-1 : ℝ))
    .ok (a, b.map (· * ((1 - a.sum) / b.sum)))

/-- iir_filter.py:176-179: deviation from -3 dB at the design frequency, `count` instances in cascade. -/
noncomputable def iir.deviation (frequency : ℝ) (count : ℕ) (uv : List ℝ × List ℝ) : ℝ :=
  let x := cexp (I * Real.pi * frequency)
  (2 : ℝ) ^ (-(0.5 : ℝ)) - ‖np.polyval (np.complexOf uv.2) x / np.polyval (np.complexOf (1 :: uv.1.tail.map (- ·))) x‖ ^ count

/-- The rate of iir_filter.py:172. -/
noncomputable def iir.rate (order count : ℕ) : ℝ :=
  3.0e-2 * (1 - 0.5 * (if order > 8 ∨ (order > 6 ∧ count > 1) then 1 else 0))

/-- IirFilter.__init__ without explicit coefficients (iir_filter.py:160-191): the coefficients. -/
noncomputable def iir.design (residue : List ℝ → List ℝ → List ℂ × List ℂ) (style : Option IStyle) (frequency : ℝ)
    (order count : ℤ) (complement : Bool) (gain : ℝ) : Res (List ℝ × List ℝ) :=
  match style with
  | none => .error .valueError
  | some style =>
    if frequency ≤ 0 ∨ frequency ≥ 1 then .error .valueError
    else if order ≤ 0 then .error .valueError
    else if count ≤ 0 then .error .valueError
    else
      let frequency := if complement then 1 - frequency else frequency
      match search.run (fun scale => iir.evaluate residue style (scale * frequency) order.toNat)
        (iir.deviation frequency count.toNat) (iir.rate order.toNat count.toNat) with
      | .error e => .error e
      -- no candidate: the arrays stay empty, and `a[0]` of line 202 raises
      | .ok none => .error .indexError
      | .ok (some (a, b)) =>
        let ab := if complement then
            let a := alternate a
            let b := alternate b
            (a, b.map (· / ((alternate b).sum / (alternate (1 :: a.tail.map (- ·))).sum)))
          else (a, b)
        .ok (ab.1, ab.2.map (· * gain))

/-- IirFilter.__init__ with a style (iir_filter.py:160-205). -/
noncomputable def Iir.newDesign (residue : List ℝ → List ℝ → List ℂ × List ℂ) (style : Option IStyle) (frequency : ℝ)
    (order count : ℤ) (complement : Bool) (gain : ℝ) (s : Option (List ℝ)) : Res (Iir ℝ) := open scoped Classical in
  match iir.design residue style frequency order count complement gain with
  | .error e => .error e
  | .ok (a, b) => Iir.new id (some a) (some b) s

end Verif
