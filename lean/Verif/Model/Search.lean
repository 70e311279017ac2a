import Verif.Model.Py
import Mathlib.Data.Real.Basic

/-
The iterative search shared by the design branches of FirFilter.__init__ (fir_filter.py:173-195) and IirFilter.__init__
(iir_filter.py:171-184): candidates depend on a scale factor that is corrected by the deviation of the last candidate.
Simplification: exact real arithmetic, in particular deviations are never nan.
-/

namespace Verif

variable {α : Type _}

/-- `float(numpy.finfo(float).eps)` (fir_filter.py:173, iir_filter.py:171). -/
noncomputable def search.eps : ℝ := 1 / 2 ^ 52

/-- The loop, `n` iterations left.  `best` is the pair kept in the variables `b` (and `a`) and `error`; `none` is the
initial `error = inf` (fir_filter.py:175-195, iir_filter.py:174-184). -/
noncomputable def search.loop (cand : ℝ → Res α) (dev : α → ℝ) (rate : ℝ) : ℕ → ℝ → Option (α × ℝ) → Res (Option α)
  | 0, _, best => .ok (best.map Prod.fst)
  | n + 1, scale, best =>
    match cand scale with
    | .error e => .error e
    | .ok v =>
      let e := dev v
      let next := search.loop cand dev rate n (max (scale + rate * e) search.eps)
      match best with
      | none => if |e| < 10e3 * search.eps then .ok (some v) else next (some (v, |e|))
      | some (w, error) =>
        if |e| < error then
          if |e| < 10e3 * search.eps then .ok (some v) else next (some (v, |e|))
        else next (some (w, error))

/-- The whole search: 500 iterations from scale one (fir_filter.py:174-175, iir_filter.py:172-174). -/
noncomputable def search.run (cand : ℝ → Res α) (dev : α → ℝ) (rate : ℝ) : Res (Option α) :=
  search.loop cand dev rate 500 1 none

end Verif
