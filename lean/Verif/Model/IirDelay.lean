import Verif.Model.Response
import Mathlib.Data.Real.Sign

/-
Model of IirFilter.delay (iir_filter.py:256-286) and of scipy.signal.group_delay for a quotient (library code, not in /repo).
Simplifications: exact arithmetic, real coefficients; numpy.sign is `Real.sign`.
-/

namespace Verif

open Complex

/-- scipy.signal.group_delay((b, a), length, True)[1]: with `c = convolve(b, a[::-1])`, `Re(∑ n c_n z^n / ∑ c_n z^n) - len(a) + 1` at
`z = e^{-jw}`, and zero where the denominator vanishes (iir_filter.py:277). -/
noncomputable def np.groupDelay2 (b a : List ℝ) (length : ℕ) : List ℝ := open scoped Classical in
  let c := np.convolve b a.reverse
  let cr := c.zipIdx.map fun p => p.1 * (p.2 : ℝ)
  (List.range length).map fun k : ℕ =>
    let z := cexp (-(I * (2 * Real.pi * k / length)))
    let num := np.polyval (np.complexOf cr).reverse z
    let den := np.polyval (np.complexOf c).reverse z
    if den = 0 then 0 else (num / den).re - (a.length : ℝ) + 1

/-- `min(abs(y))` of a nonempty array (iir_filter.py:282-285). -/
noncomputable def np.minAbs : List ℝ → ℝ
  | [] => 0
  | v :: t => t.foldl (fun m w => min m |w|) |v|

/-- `max(abs(y))` of a nonempty array (iir_filter.py:282-285). -/
noncomputable def np.maxAbs : List ℝ → ℝ
  | [] => 0
  | v :: t => t.foldl (fun m w => max m |w|) |v|

/-- The treatment of six samples at an end (iir_filter.py:282-283 and 284-285):
`if max(abs(e)) > min(abs(e)) * 10.0: e = sign(e) * min(abs(e))`. -/
noncomputable def Iir.edge (e : List ℝ) : List ℝ := open scoped Classical in
  if np.maxAbs e > np.minAbs e * 10 then e.map fun v => Real.sign v * np.minAbs e else e

/-- IirFilter.delay (iir_filter.py:256-286). -/
noncomputable def Iir.delay (f : Iir ℝ) (length count : ℤ) : Res (List ℝ × List ℝ) :=
  if length ≤ 0 then .error .valueError
  else if count ≤ 0 then .error .valueError
  else
    let y := (np.rotate (np.groupDelay2 f.b (1 :: f.a.tail.map (- ·)) length.toNat)).map (· * (count : ℝ))
    let y :=
      if length > 6 then
        let y := Iir.edge (y.take 6) ++ y.drop 6
        y.take (y.length - 6) ++ Iir.edge (y.drop (y.length - 6))
      else y
    .ok (y, np.linspace (-1) (1 - 2 / (length : ℝ)) length.toNat)

end Verif
