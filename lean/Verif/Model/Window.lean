import Verif.Model.Py
import Mathlib.Analysis.SpecialFunctions.Trigonometric.Basic
import Mathlib.Topology.Algebra.InfiniteSum.Basic
import Mathlib.Data.Nat.Factorial.Basic

/-
Model of diamondback/filters/window_filter.py, class WindowFilter, and of the windows of scipy.signal.get_window(.., fftbins=False)
it uses (library code, not in /repo).  Simplifications: exact real arithmetic; the style argument is the result of looking up
`style.title()` in STYLE (lines 78-80), `none` when it is not there.
-/

namespace Verif

/-- WindowFilter.STYLE (window_filter.py:62), the same as FirFilter.STYLE (fir_filter.py:106). -/
inductive WStyle where
  | blackman | hamming | hann | kaiser
  deriving DecidableEq, Repr

/-- scipy.special.i0, the modified Bessel function of order zero (window_filter.py:85, in `get_window`). -/
noncomputable def window.i0 (x : ℝ) : ℝ := ∑' k : ℕ, ((x / 2) ^ k / (k.factorial : ℝ)) ^ 2

/-- scipy.signal.windows.general_cosine with two or three terms, `m > 1` points, symmetric (window_filter.py:85, in `get_window`). -/
noncomputable def window.cosine (a0 a1 a2 : ℝ) (m n : ℕ) : ℝ :=
  let fac := -Real.pi + 2 * Real.pi * n / (m - 1)
  a0 + a1 * Real.cos fac + a2 * Real.cos (2 * fac)

/-- scipy.signal.windows.kaiser with beta 7, `m > 1` points, symmetric (window_filter.py:85, in `get_window`). -/
noncomputable def window.kaiser (m n : ℕ) : ℝ :=
  let alpha : ℝ := (m - 1) / 2
  window.i0 (7 * Real.sqrt (1 - ((n - alpha) / alpha) ^ 2)) / window.i0 7

/-- Sample `n` of scipy.signal.get_window(window, m, False) (window_filter.py:85). -/
noncomputable def window.value (style : WStyle) (m n : ℕ) : ℝ :=
  if m = 1 then 1 else
  match style with
  | .blackman => window.cosine 0.42 0.5 0.08 m n
  | .hamming => window.cosine 0.54 0.46 0 m n
  | .hann => window.cosine 0.5 0.5 0 m n
  | .kaiser => window.kaiser m n

/-- A WindowFilter instance (window_filter.py:88). -/
structure Window where
  b : List ℝ

/-- WindowFilter.__init__ (window_filter.py:68-88).  `ok none` stands for an instance whose coefficients are inf or nan, the result
of the division by zero in line 87 when every raw coefficient is zero. -/
noncomputable def Window.new (style : Option WStyle) (order : ℤ) (normal : Bool) : Res (Option Window) := open scoped Classical in
  match style with
  | none => .error .valueError
  | some style =>
    if order < 0 then .error .valueError
    else
      let m := (order + 1).toNat
      let b := (List.range m).map (window.value style m)
      if normal then
        let t := (b.map abs).sum
        if t = 0 then .ok none else .ok (some { b := b.map (· * ((m : ℝ) / t)) })
      else .ok (some { b := b })

/-- WindowFilter.filter (window_filter.py:90-106).  The argument is a 1-D array, or `none` for an array of another dimension. -/
noncomputable def Window.filter (w : Window) (x : Option (List ℝ)) : Res (List ℝ) :=
  match x with
  | none => .error .valueError
  | some x => if x.length ≠ w.b.length then .error .valueError else .ok (List.zipWith (· * ·) w.b x)

end Verif
