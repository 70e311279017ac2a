import Mathlib.Data.Real.Basic

namespace Verif.Spec

/-- The scale factors a correction loop tries: from one, each corrected by the deviation it produced, and kept above `low`. -/
def Scales (dev : ℝ → ℝ) (rate low : ℝ) (s : ℕ → ℝ) : Prop :=
  s 0 = 1 ∧ ∀ k, s (k + 1) = max (s k + rate * dev (s k)) low

/-- Among the first `n` trials, `k` is the first with the smallest absolute deviation. -/
def FirstBest (dev : ℝ → ℝ) (s : ℕ → ℝ) (n k : ℕ) : Prop :=
  k < n ∧ ∀ j < n, |dev (s k)| ≤ |dev (s j)| ∧ (j < k → |dev (s k)| < |dev (s j)|)

end Verif.Spec
