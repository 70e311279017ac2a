import Verif.Props.RateLinear
import Mathlib.Analysis.Calculus.IteratedDeriv.Lemmas
import Mathlib.Analysis.Calculus.LocalExtr.Rolle
import Mathlib.Analysis.Calculus.Deriv.Polynomial
import Mathlib.Analysis.SpecialFunctions.Trigonometric.Deriv

/- Property C93: the output of PolynomialRateFilter approximates the sampled function. -/

namespace Verif.Props

open Finset Spec

/-- A function with `n + 1` zeros has a zero of its derivative of order `n` between them. -/
theorem rolle_iterated (n : ℕ) : ∀ (g : ℝ → ℝ) (_ : ContDiff ℝ n g) (z : ℕ → ℝ) (_ : ∀ i < n, z i < z (i + 1)) (_ : ∀ i ≤ n, g (z i) = 0), ∃ ξ, z 0 ≤ ξ ∧ ξ ≤ z n ∧ iteratedDeriv n g ξ = 0 := by
  induction n with
  | zero =>
    intro g _ z _ hz
    exact ⟨z 0, le_rfl, le_rfl, by rw [iteratedDeriv_zero]; exact hz 0 le_rfl⟩
  | succ n ih =>
    intro g hg z hm hz
    have key : ∀ i, ∃ w, i ≤ n → z i < w ∧ w < z (i + 1) ∧ deriv g w = 0 := by
      intro i
      by_cases hi : i ≤ n
      · obtain ⟨w, hw, hd⟩ := exists_deriv_eq_zero (hm i (by omega)) (hg.continuous.continuousOn) ((hz i (by omega)).trans (hz (i + 1) (by omega)).symm)
        exact ⟨w, fun _ => ⟨hw.1, hw.2, hd⟩⟩
      · exact ⟨0, fun h => absurd h hi⟩
    choose w hw using key
    have hg' : ContDiff ℝ n (deriv g) := by
      have : ContDiff ℝ ((n : ℕ∞) + 1) g := by exact_mod_cast hg
      exact (contDiff_succ_iff_deriv.mp (by exact_mod_cast hg)).2.2
    obtain ⟨ξ, h1, h2, h3⟩ := ih (deriv g) hg' w (fun i hi => (hw i (by omega)).2.1.trans (hw (i + 1) (by omega)).1) (fun i hi => (hw i hi).2.2)
    refine ⟨ξ, (hw 0 (by omega)).1.le.trans h1, h2.trans (hw n le_rfl).2.1.le, ?_⟩
    rw [iteratedDeriv_succ']
    exact h3

theorem iteratedDeriv_poly (Q : Polynomial ℝ) (n : ℕ) : iteratedDeriv n (fun s => Q.eval s) = fun s => (Polynomial.derivative^[n] Q).eval s := by
  induction n generalizing Q with
  | zero => simp
  | succ n ih =>
    rw [iteratedDeriv_succ']
    have : deriv (fun s => Q.eval s) = fun s => (Polynomial.derivative Q).eval s := by
      funext s
      exact Q.deriv
    rw [this, ih, Function.iterate_succ_apply]

/-- The error of linear interpolation between 0 and 1. -/
theorem linear_error (F : ℝ → ℝ) (hF : ContDiff ℝ 2 F) (M : ℝ) (hM : ∀ s, 0 ≤ s → s ≤ 1 → |iteratedDeriv 2 F s| ≤ M) (t : ℝ) (h0 : 0 ≤ t) (h1 : t ≤ 1) :
    |F 0 + (F 1 - F 0) * t - F t| ≤ M / 8 := by
  have hM0 : 0 ≤ M := (abs_nonneg _).trans (hM 0 le_rfl zero_le_one)
  rcases eq_or_lt_of_le h0 with rfl | h0'
  · simp; positivity
  rcases eq_or_lt_of_le h1 with rfl | h1'
  · simp; positivity
  have hw : t * (t - 1) ≠ 0 := mul_ne_zero h0'.ne' (by linarith)
  set K := (F t - (F 0 + (F 1 - F 0) * t)) / (t * (t - 1)) with hK
  let Q : Polynomial ℝ := Polynomial.C K * Polynomial.X ^ 2 + Polynomial.C (F 1 - F 0 - K) * Polynomial.X + Polynomial.C (F 0)
  have hQ : ∀ s, Q.eval s = K * s ^ 2 + (F 1 - F 0 - K) * s + F 0 := fun s => by simp [Q]
  have hQd : ContDiff ℝ 2 (fun s => Q.eval s) := by simp only [hQ]; fun_prop
  have hdd : ∀ s, iteratedDeriv 2 (fun s => Q.eval s) s = 2 * K := by
    intro s
    rw [iteratedDeriv_poly]
    simp [Q]
    ring
  let z : ℕ → ℝ := fun i => if i = 0 then 0 else if i = 1 then t else 1
  obtain ⟨ξ, a, b, c⟩ := rolle_iterated 2 (fun s => F s - Q.eval s) (by exact_mod_cast hF.sub hQd) z (by
      intro i hi
      rcases (by omega : i = 0 ∨ i = 1) with rfl | rfl
      · simpa [z] using h0'
      · simpa [z] using h1') (by
      intro i hi
      rcases (by omega : i = 0 ∨ i = 1 ∨ i = 2) with rfl | rfl | rfl
      · simp [z, hQ]
      · simp only [z, hQ]
        norm_num
        have : K * (t * (t - 1)) = F t - (F 0 + (F 1 - F 0) * t) := div_mul_cancel₀ _ hw
        linear_combination (-1) * this
      · simp [z, hQ])
  have e : iteratedDeriv 2 F ξ = 2 * K := by
    have := iteratedDeriv_fun_sub (x := ξ) (n := 2) (f := F) (g := fun s => Q.eval s) (by exact_mod_cast hF.contDiffAt) (by exact_mod_cast hQd.contDiffAt)
    rw [this, hdd] at c
    linarith
  have hb := hM ξ (by simpa [z] using a) (by simpa [z] using b)
  rw [e] at hb
  have : F 0 + (F 1 - F 0) * t - F t = K * (t * (1 - t)) := by
    have : K * (t * (t - 1)) = F t - (F 0 + (F 1 - F 0) * t) := div_mul_cancel₀ _ hw
    linear_combination this
  rw [this, abs_mul, abs_of_nonneg (mul_nonneg h0 (by linarith : (0 : ℝ) ≤ 1 - t))]
  rw [abs_mul, abs_two] at hb
  have hq : t * (1 - t) ≤ 1 / 4 := by nlinarith [sq_nonneg (t - 1 / 2)]
  calc |K| * (t * (1 - t)) ≤ (M / 2) * (1 / 4) := by
        apply mul_le_mul _ hq (mul_nonneg h0 (by linarith)) (by positivity)
        linarith
    _ = M / 8 := by ring

/-- The error of cubic interpolation between the second and the third of four points. -/
theorem cubic_error (F : ℝ → ℝ) (hF : ContDiff ℝ 4 F) (M : ℝ) (hM : ∀ s, -1 ≤ s → s ≤ 2 → |iteratedDeriv 4 F s| ≤ M) (t : ℝ) (h0 : 0 ≤ t) (h1 : t ≤ 1) :
    |∑ j ∈ range 4, cubicWeight t j * F (j - 1) - F t| ≤ 3 / 128 * M := by
  have hM0 : 0 ≤ M := (abs_nonneg _).trans (hM 0 (by norm_num) (by norm_num))
  have hsum : ∀ s, ∑ j ∈ range 4, cubicWeight s j * F (j - 1) = cubicWeight s 0 * F (-1) + cubicWeight s 1 * F 0 + cubicWeight s 2 * F 1 + cubicWeight s 3 * F 2 := by
    intro s
    simp [sum_range_succ]
    norm_num
  rw [hsum]
  rcases eq_or_lt_of_le h0 with rfl | h0'
  · simp [cubicWeight]; positivity
  rcases eq_or_lt_of_le h1 with rfl | h1'
  · simp [cubicWeight]; norm_num; positivity
  have hw : (t + 1) * t * (t - 1) * (t - 2) ≠ 0 := mul_ne_zero (mul_ne_zero (mul_ne_zero (by linarith) h0'.ne') (by linarith)) (by linarith)
  set P := cubicWeight t 0 * F (-1) + cubicWeight t 1 * F 0 + cubicWeight t 2 * F 1 + cubicWeight t 3 * F 2 with hP
  set K := (F t - P) / ((t + 1) * t * (t - 1) * (t - 2)) with hK
  have hKe : K * ((t + 1) * t * (t - 1) * (t - 2)) = F t - P := div_mul_cancel₀ _ hw
  let Q : Polynomial ℝ := Polynomial.C K * Polynomial.X ^ 4 + Polynomial.C ((-F (-1) + 3 * F 0 - 3 * F 1 + F 2) / 6 - 2 * K) * Polynomial.X ^ 3 +
    Polynomial.C ((F (-1) - 2 * F 0 + F 1) / 2 - K) * Polynomial.X ^ 2 + Polynomial.C ((-2 * F (-1) - 3 * F 0 + 6 * F 1 - F 2) / 6 + 2 * K) * Polynomial.X + Polynomial.C (F 0)
  have hQ : ∀ s, Q.eval s = K * s ^ 4 + ((-F (-1) + 3 * F 0 - 3 * F 1 + F 2) / 6 - 2 * K) * s ^ 3 + ((F (-1) - 2 * F 0 + F 1) / 2 - K) * s ^ 2 + ((-2 * F (-1) - 3 * F 0 + 6 * F 1 - F 2) / 6 + 2 * K) * s + F 0 :=
    fun s => by simp [Q]
  have hQd : ContDiff ℝ 4 (fun s => Q.eval s) := by simp only [hQ]; fun_prop
  have hdd : ∀ s, iteratedDeriv 4 (fun s => Q.eval s) s = 24 * K := by
    intro s
    rw [iteratedDeriv_poly]
    simp only [Q, Function.iterate_succ, Function.iterate_zero, Function.comp, id, Polynomial.derivative_add, Polynomial.derivative_mul, Polynomial.derivative_C, Polynomial.derivative_X_pow, Polynomial.derivative_X, zero_mul, zero_add,
      mul_one, add_zero]
    simp
    ring
  let z : ℕ → ℝ := fun i => if i = 0 then -1 else if i = 1 then 0 else if i = 2 then t else if i = 3 then 1 else 2
  obtain ⟨ξ, a, b, c⟩ := rolle_iterated 4 (fun s => F s - Q.eval s) (by exact_mod_cast hF.sub hQd) z (by
      intro i hi
      rcases (by omega : i = 0 ∨ i = 1 ∨ i = 2 ∨ i = 3) with rfl | rfl | rfl | rfl
      · simp [z]
      · simpa [z] using h0'
      · simpa [z] using h1'
      · simp [z]) (by
      intro i hi
      rcases (by omega : i = 0 ∨ i = 1 ∨ i = 2 ∨ i = 3 ∨ i = 4) with rfl | rfl | rfl | rfl | rfl
      · simp only [z, hQ]; norm_num; ring
      · simp [z, hQ]
      · simp only [z, hQ]
        norm_num
        simp only [hP, cubicWeight] at hKe
        linear_combination (-1) * hKe
      · simp only [z, hQ]; norm_num; ring
      · simp only [z, hQ]; norm_num; ring)
  have e : iteratedDeriv 4 F ξ = 24 * K := by
    have := iteratedDeriv_fun_sub (x := ξ) (n := 4) (f := F) (g := fun s => Q.eval s) (by exact_mod_cast hF.contDiffAt) (by exact_mod_cast hQd.contDiffAt)
    rw [this, hdd] at c
    linarith
  have hb := hM ξ (by simpa [z] using a) (by simpa [z] using b)
  rw [e] at hb
  have hPt : P - F t = -(K * ((1 + t) * t * (1 - t) * (2 - t))) := by
    linear_combination hKe
  have s1 : 0 ≤ 1 - t := by linarith
  have s2 : 0 ≤ 2 - t := by linarith
  have hnn : 0 ≤ (1 + t) * t * (1 - t) * (2 - t) := by positivity
  rw [hPt, abs_neg, abs_mul, abs_of_nonneg hnn]
  rw [abs_mul, abs_of_pos (by norm_num : (0 : ℝ) < 24)] at hb
  have hq : (1 + t) * t * (1 - t) * (2 - t) ≤ 9 / 16 := by
    have hu : t * (1 - t) ≤ 1 / 4 := by nlinarith [sq_nonneg (t - 1 / 2)]
    have hu0 : 0 ≤ t * (1 - t) := by positivity
    have : (1 + t) * t * (1 - t) * (2 - t) = t * (1 - t) * (2 + t * (1 - t)) := by ring
    rw [this]
    nlinarith
  calc |K| * ((1 + t) * t * (1 - t) * (2 - t)) ≤ (M / 24) * (9 / 16) := by
        apply mul_le_mul _ hq hnn (by positivity)
        linarith
    _ = 3 / 128 * M := by ring

/-- The error of the least squares parabola of four points, between the second and the third. -/
theorem parabola_error (F : ℝ → ℝ) (hF : ContDiff ℝ 3 F) (M : ℝ) (hM : ∀ s, -1 ≤ s → s ≤ 2 → |iteratedDeriv 3 F s| ≤ M) (t : ℝ) (h0 : 0 ≤ t) (h1 : t ≤ 1) :
    |∑ j ∈ range 4, parabolaWeight t j * F (j - 1) - F t| ≤ 13 / 60 * M := by
  have hM0 : 0 ≤ M := (abs_nonneg _).trans (hM 0 (by norm_num) (by norm_num))
  have hsum : ∑ j ∈ range 4, parabolaWeight t j * F (j - 1) = parabolaWeight t 0 * F (-1) + parabolaWeight t 1 * F 0 + parabolaWeight t 2 * F 1 + parabolaWeight t 3 * F 2 := by
    simp [sum_range_succ]
    norm_num
  -- a cubic with a given third derivative that meets `F` at four points
  have main : ∀ (L : ℝ) (z : ℕ → ℝ), (∀ i < 3, z i < z (i + 1)) → -1 ≤ z 0 → z 3 ≤ 2 →
      (∀ i ≤ 3, F (z i) = L * z i ^ 3 + (F (-1) - 2 * F 0 + F 1) / 2 * z i ^ 2 + ((F 1 - F (-1)) / 2 - L) * z i + F 0) → |6 * L| ≤ M := by
    intro L z hz za zb hi
    let Q : Polynomial ℝ := Polynomial.C L * Polynomial.X ^ 3 + Polynomial.C ((F (-1) - 2 * F 0 + F 1) / 2) * Polynomial.X ^ 2 + Polynomial.C ((F 1 - F (-1)) / 2 - L) * Polynomial.X + Polynomial.C (F 0)
    have hQ : ∀ s, Q.eval s = L * s ^ 3 + (F (-1) - 2 * F 0 + F 1) / 2 * s ^ 2 + ((F 1 - F (-1)) / 2 - L) * s + F 0 := fun s => by simp [Q]
    have hQd : ContDiff ℝ 3 (fun s => Q.eval s) := by simp only [hQ]; fun_prop
    have hdd : ∀ s, iteratedDeriv 3 (fun s => Q.eval s) s = 6 * L := by
      intro s
      rw [iteratedDeriv_poly]
      simp [Q]
      ring
    obtain ⟨ξ, a, b, c⟩ := rolle_iterated 3 (fun s => F s - Q.eval s) (by exact_mod_cast hF.sub hQd) z hz (fun i h => by
      show F (z i) - Q.eval (z i) = 0
      rw [hQ, hi i h, sub_self])
    have := iteratedDeriv_fun_sub (x := ξ) (n := 3) (f := F) (g := fun s => Q.eval s) (by exact_mod_cast hF.contDiffAt) (by exact_mod_cast hQd.contDiffAt)
    rw [this, hdd] at c
    have e : iteratedDeriv 3 F ξ = 6 * L := by linarith
    rw [← e]
    exact hM ξ (za.trans a) (b.trans zb)
  -- the third difference
  have hD : |F 2 - 3 * F 1 + 3 * F 0 - F (-1)| ≤ M := by
    have := main ((F 2 - 3 * F 1 + 3 * F 0 - F (-1)) / 6) (fun i => (i : ℝ) - 1) (by intro i _; push_cast; linarith) (by norm_num) (by norm_num) (by
      intro i hi
      rcases (by omega : i = 0 ∨ i = 1 ∨ i = 2 ∨ i = 3) with rfl | rfl | rfl | rfl <;> norm_num <;> ring)
    calc _ = |6 * ((F 2 - 3 * F 1 + 3 * F 0 - F (-1)) / 6)| := by congr 1; ring
      _ ≤ M := this
  have hq : |parabolaWeight t 3| ≤ 3 / 20 := by
    simp only [parabolaWeight]
    rw [abs_le]
    constructor <;> nlinarith
  -- the parabola through the first three points
  have hR : |F 0 + (F 1 - F (-1)) / 2 * t + (F (-1) - 2 * F 0 + F 1) / 2 * t ^ 2 - F t| ≤ M / 15 := by
    rcases eq_or_lt_of_le h0 with rfl | h0'
    · simp; positivity
    rcases eq_or_lt_of_le h1 with rfl | h1'
    · have : F 0 + (F 1 - F (-1)) / 2 * 1 + (F (-1) - 2 * F 0 + F 1) / 2 * 1 ^ 2 - F 1 = 0 := by ring
      rw [this, abs_zero]; positivity
    have hw : t ^ 3 - t ≠ 0 := by
      have : t ^ 3 - t = -(t * (1 - t) * (1 + t)) := by ring
      rw [this, neg_ne_zero]
      have : 0 < 1 - t := by linarith
      positivity
    generalize hP : F 0 + (F 1 - F (-1)) / 2 * t + (F (-1) - 2 * F 0 + F 1) / 2 * t ^ 2 = P
    have hKe : (F t - P) / (t ^ 3 - t) * (t ^ 3 - t) = F t - P := div_mul_cancel₀ _ hw
    generalize (F t - P) / (t ^ 3 - t) = K at hKe
    have := main K (fun i => if i = 0 then -1 else if i = 1 then 0 else if i = 2 then t else 1) (by
      intro i hi
      rcases (by omega : i = 0 ∨ i = 1 ∨ i = 2) with rfl | rfl | rfl
      · simp
      · simpa using h0'
      · simpa using h1') (by simp) (by norm_num) (by
      intro i hi
      rcases (by omega : i = 0 ∨ i = 1 ∨ i = 2 ∨ i = 3) with rfl | rfl | rfl | rfl
      · norm_num; ring
      · norm_num
      · norm_num
        linear_combination (-1) * hKe - hP
      · norm_num; ring)
    have e : P - F t = K * (t * (1 - t ^ 2)) := by linear_combination hKe
    have hnn : 0 ≤ t * (1 - t ^ 2) := mul_nonneg h0 (by nlinarith)
    rw [e, abs_mul, abs_of_nonneg hnn]
    rw [abs_mul, abs_of_pos (by norm_num : (0 : ℝ) < 6)] at this
    have hb : t * (1 - t ^ 2) ≤ 2 / 5 := by nlinarith [sq_nonneg (t - 3 / 5), mul_nonneg h0 (sq_nonneg (t - 3 / 5)), sq_nonneg (t - 1 / 2), mul_nonneg h0 (sq_nonneg (t - 1 / 2))]
    calc |K| * (t * (1 - t ^ 2)) ≤ (M / 6) * (2 / 5) := by
          apply mul_le_mul _ hb hnn (by positivity)
          linarith
      _ = M / 15 := by ring
  have e : ∑ j ∈ range 4, parabolaWeight t j * F (j - 1) - F t =
      parabolaWeight t 3 * (F 2 - 3 * F 1 + 3 * F 0 - F (-1)) + (F 0 + (F 1 - F (-1)) / 2 * t + (F (-1) - 2 * F 0 + F 1) / 2 * t ^ 2 - F t) := by
    rw [hsum]
    simp only [parabolaWeight]
    ring
  rw [e]
  calc _ ≤ |parabolaWeight t 3 * (F 2 - 3 * F 1 + 3 * F 0 - F (-1))| + |F 0 + (F 1 - F (-1)) / 2 * t + (F (-1) - 2 * F 0 + F 1) / 2 * t ^ 2 - F t| := abs_add_le _ _
    _ ≤ 3 / 20 * M + M / 15 := by
      rw [abs_mul]
      exact add_le_add (mul_le_mul hq hD (abs_nonneg _) (by norm_num)) hR
    _ = 13 / 60 * M := by ring

/-- Derivatives of the sampled function in units of the sampling interval. -/
theorem iteratedDeriv_units (g : ℝ → ℝ) (n : ℕ) (hg : ContDiff ℝ n g) (h c s : ℝ) : iteratedDeriv n (fun u => g (h * (c + u))) s = h ^ n * iteratedDeriv n g (h * (c + s)) := by
  have e := congrFun (iteratedDeriv_comp_const_add n (fun v => g (h * v)) c) s
  rw [e]
  have e2 := congrFun (iteratedDeriv_comp_const_mul hg h) (c + s)
  exact e2

/-- C93, order one: resampling the samples `g (n h)` of a function of which the second derivative is bounded by `M` gives `g` at the new places up to `M h² / 8`, up to the last sample. -/
theorem C93_linear (polyfit : ℕ → List ℝ → List ℝ) (f : PolyRate) (ho : f.order = 1) (hr : 0 < f.rate) (x : List ℝ) (hx : 2 ≤ x.length) (g : ℝ → ℝ) (hg : ContDiff ℝ 2 g) (h M : ℝ)
    (hM : ∀ s, |iteratedDeriv 2 g s| ≤ M) (hs : ∀ n < x.length, at0 x n = g (h * n)) :
    ∃ y, f.filter polyfit (some x) = .ok y ∧ IsRound (x.length * f.rate) y.length ∧ ∀ k < y.length, (k : ℝ) / f.rate < x.length - 1 → |at0 y k - g (h * (k / f.rate))| ≤ M * h ^ 2 / 8 := by
  obtain ⟨y, g1, g2, g3⟩ := linear_values polyfit f ho hr x hx
  refine ⟨y, g1, by rw [g2]; exact np.round_spec _, fun k hk hlt => ?_⟩
  have hpos : 0 ≤ (k : ℝ) / f.rate := by positivity
  have hfl := Nat.floor_le hpos
  have hfl2 := Nat.lt_floor_add_one ((k : ℝ) / f.rate)
  have hy : at0 y k = extend1 x ⌊(k : ℝ) / f.rate⌋₊ + (extend1 x (⌊(k : ℝ) / f.rate⌋₊ + 1) - extend1 x ⌊(k : ℝ) / f.rate⌋₊) * ((k : ℝ) / f.rate - ⌊(k : ℝ) / f.rate⌋₊) := by
    have := g3 k hk
    rw [List.getElem?_eq_getElem hk, Option.some.injEq] at this
    rw [at0_of_lt y k hk, this]
  have hi : ⌊(k : ℝ) / f.rate⌋₊ + 1 < x.length := by
    have : ((⌊(k : ℝ) / f.rate⌋₊ + 1 : ℕ) : ℝ) < x.length := by push_cast; linarith
    exact_mod_cast this
  rw [hy]
  generalize hti : ⌊(k : ℝ) / f.rate⌋₊ = i at hi hfl hfl2
  generalize (k : ℝ) / f.rate = t at hfl hfl2
  have e : ∀ n < x.length, extend1 x n = g (h * n) := fun n hn => by rw [extend1, if_pos hn, hs n hn]
  rw [e i (by omega), e (i + 1) hi]
  have := linear_error (fun u => g (h * (i + u))) (hg.comp (by fun_prop)) (h ^ 2 * M) (fun s _ _ => by
    rw [iteratedDeriv_units g 2 hg, abs_mul, abs_of_nonneg (by positivity)]
    exact mul_le_mul_of_nonneg_left (hM _) (by positivity)) (t - i) (by linarith) (by linarith)
  simp only [add_zero, add_sub_cancel] at this
  push_cast
  calc _ ≤ h ^ 2 * M / 8 := this
    _ = M * h ^ 2 / 8 := by ring

/-- The outputs of order two and three away from the ends. -/
theorem interior_value (polyfit : ℕ → List ℝ → List ℝ) (hfit : ∀ n d, d.length = 4 → IsPolyfit n d (polyfit n d)) (f : PolyRate) (ho : f.order = 2 ∨ f.order = 3) (hr : 0 < f.rate) (x : List ℝ) (hx : 2 ≤ x.length)
    (g : ℝ → ℝ) (h : ℝ) (hs : ∀ n < x.length, at0 x n = g (h * n)) :
    ∃ y, f.filter polyfit (some x) = .ok y ∧ IsRound (x.length * f.rate) y.length ∧ ∀ k < y.length, 1 ≤ (k : ℝ) / f.rate → (k : ℝ) / f.rate < x.length - 2 →
      ∃ c t : ℝ, 0 ≤ t ∧ t ≤ 1 ∧ c + t = k / f.rate ∧ at0 y k = ∑ j ∈ range 4, rateWeight f.order t j * g (h * (c + ((j : ℝ) - 1))) := by
  obtain ⟨y, g1, g2, g3⟩ := C92_weights polyfit hfit f ho hr x hx
  refine ⟨y, g1, g2, fun k hk h1 h2 => ?_⟩
  have hpos : 0 ≤ (k : ℝ) / f.rate := by positivity
  have hfl := Nat.floor_le hpos
  have hfl2 := Nat.lt_floor_add_one ((k : ℝ) / f.rate)
  have hy := (g3 k hk).2 ⌊(k : ℝ) / f.rate⌋₊ hfl hfl2
  rw [List.getElem?_eq_getElem hk, Option.some.injEq] at hy
  have hi1 : 1 ≤ ⌊(k : ℝ) / f.rate⌋₊ := Nat.le_floor (by exact_mod_cast h1)
  have hi2 : ⌊(k : ℝ) / f.rate⌋₊ + 2 < x.length := by
    have : ((⌊(k : ℝ) / f.rate⌋₊ + 2 : ℕ) : ℝ) < x.length := by push_cast; linarith
    exact_mod_cast this
  refine ⟨⌊(k : ℝ) / f.rate⌋₊, k / f.rate - ⌊(k : ℝ) / f.rate⌋₊, by linarith, by linarith, by ring, ?_⟩
  rw [at0_of_lt y k hk, hy]
  refine sum_congr rfl fun j hj => ?_
  have hj' := mem_range.mp hj
  generalize ⌊(k : ℝ) / f.rate⌋₊ = i at hi1 hi2
  congr 1
  rw [extend_inside x _ (by omega) (by omega), hs _ (by omega)]
  have : ((((i : ℤ) - 1 + (j : ℕ)).toNat : ℕ) : ℝ) = (i : ℝ) - 1 + j := by
    have h' : (((i : ℤ) - 1 + (j : ℕ)).toNat : ℤ) = (i : ℤ) - 1 + j := Int.toNat_of_nonneg (by omega)
    exact_mod_cast h'
  rw [this]
  congr 2
  ring

/-- C93, order two: with the third derivative bounded by `M` the error is at most `13 M |h|³ / 60`, away from the first and the last interval. -/
theorem C93_parabola (polyfit : ℕ → List ℝ → List ℝ) (hfit : ∀ n d, d.length = 4 → IsPolyfit n d (polyfit n d)) (f : PolyRate) (ho : f.order = 2) (hr : 0 < f.rate) (x : List ℝ) (hx : 2 ≤ x.length)
    (g : ℝ → ℝ) (hg : ContDiff ℝ 3 g) (h M : ℝ) (hM : ∀ s, |iteratedDeriv 3 g s| ≤ M) (hs : ∀ n < x.length, at0 x n = g (h * n)) :
    ∃ y, f.filter polyfit (some x) = .ok y ∧ IsRound (x.length * f.rate) y.length ∧
      ∀ k < y.length, 1 ≤ (k : ℝ) / f.rate → (k : ℝ) / f.rate < x.length - 2 → |at0 y k - g (h * (k / f.rate))| ≤ 13 / 60 * M * |h| ^ 3 := by
  obtain ⟨y, g1, g2, g3⟩ := interior_value polyfit hfit f (.inl ho) hr x hx g h hs
  refine ⟨y, g1, g2, fun k hk h1 h2 => ?_⟩
  obtain ⟨c, t, t0, t1, hc, hy⟩ := g3 k hk h1 h2
  rw [hy, ← hc]
  have := parabola_error (fun u => g (h * (c + u))) (hg.comp (by fun_prop)) (|h| ^ 3 * M) (fun s _ _ => by
    rw [iteratedDeriv_units g 3 hg, abs_mul, abs_pow]
    exact mul_le_mul_of_nonneg_left (hM _) (by positivity)) t t0 t1
  have e : rateWeight f.order t = parabolaWeight t := by simp [rateWeight, ho]
  rw [e]
  calc _ ≤ 13 / 60 * (|h| ^ 3 * M) := this
    _ = 13 / 60 * M * |h| ^ 3 := by ring

/-- The samples of a sine. -/
example (polyfit : ℕ → List ℝ → List ℝ) (hfit : ∀ n d, d.length = 4 → IsPolyfit n d (polyfit n d)) :=
  C93_parabola polyfit hfit ⟨2, 3⟩ rfl (by norm_num) ((List.range 10).map fun n : ℕ => Real.sin (1 / 5 * n)) (by simp) Real.sin Real.contDiff_sin (1 / 5) 1
    (fun s => Real.abs_iteratedDeriv_sin_le_one 3 s) (fun n hn => by simp [at0] at hn ⊢; simp [hn])

/-- C93, order three: with the fourth derivative bounded by `M` the error is at most `3 M h⁴ / 128`, away from the first and the last interval. -/
theorem C93_cubic (polyfit : ℕ → List ℝ → List ℝ) (hfit : ∀ n d, d.length = 4 → IsPolyfit n d (polyfit n d)) (f : PolyRate) (ho : f.order = 3) (hr : 0 < f.rate) (x : List ℝ) (hx : 2 ≤ x.length)
    (g : ℝ → ℝ) (hg : ContDiff ℝ 4 g) (h M : ℝ) (hM : ∀ s, |iteratedDeriv 4 g s| ≤ M) (hs : ∀ n < x.length, at0 x n = g (h * n)) :
    ∃ y, f.filter polyfit (some x) = .ok y ∧ IsRound (x.length * f.rate) y.length ∧
      ∀ k < y.length, 1 ≤ (k : ℝ) / f.rate → (k : ℝ) / f.rate < x.length - 2 → |at0 y k - g (h * (k / f.rate))| ≤ 3 / 128 * M * |h| ^ 4 := by
  obtain ⟨y, g1, g2, g3⟩ := interior_value polyfit hfit f (.inr ho) hr x hx g h hs
  refine ⟨y, g1, g2, fun k hk h1 h2 => ?_⟩
  obtain ⟨c, t, t0, t1, hc, hy⟩ := g3 k hk h1 h2
  rw [hy, ← hc]
  have := cubic_error (fun u => g (h * (c + u))) (hg.comp (by fun_prop)) (|h| ^ 4 * M) (fun s _ _ => by
    rw [iteratedDeriv_units g 4 hg, abs_mul, abs_pow]
    exact mul_le_mul_of_nonneg_left (hM _) (by positivity)) t t0 t1
  have e : rateWeight f.order t = cubicWeight t := by simp [rateWeight, ho]
  rw [e]
  calc _ ≤ 3 / 128 * (|h| ^ 4 * M) := this
    _ = 3 / 128 * M * |h| ^ 4 := by ring

/-- A sine sampled ten times at steps of a fifth, at three times the rate. -/
noncomputable def sineSamples : List ℝ := (List.range 10).map fun n : ℕ => Real.sin (1 / 5 * (n : ℝ))

theorem sineSamples_at (n : ℕ) (hn : n < sineSamples.length) : at0 sineSamples n = Real.sin (1 / 5 * n) := by
  rw [at0_of_lt _ _ hn]
  simp [sineSamples]

theorem sin_bounds : (∀ s, |iteratedDeriv 2 Real.sin s| ≤ 1) ∧ (∀ s, |iteratedDeriv 3 Real.sin s| ≤ 1) ∧ ∀ s, |iteratedDeriv 4 Real.sin s| ≤ 1 := by
  have e1 : deriv Real.sin = Real.cos := Real.deriv_sin
  have e2 : deriv Real.cos = fun s => -Real.sin s := by funext s; exact Real.deriv_cos
  have e3 : deriv (fun s => -Real.sin s) = fun s => -Real.cos s := by funext s; simp
  have e4 : deriv (fun s => -Real.cos s) = Real.sin := by funext s; simp
  refine ⟨fun s => ?_, fun s => ?_, fun s => ?_⟩
  · simp only [iteratedDeriv_succ', iteratedDeriv_zero, e1, e2]; rw [abs_neg]; exact Real.abs_sin_le_one s
  · simp only [iteratedDeriv_succ', iteratedDeriv_zero, e1, e2, e3]; rw [abs_neg]; exact Real.abs_cos_le_one s
  · simp only [iteratedDeriv_succ', iteratedDeriv_zero, e1, e2, e3, e4]; exact Real.abs_sin_le_one s

example (polyfit : ℕ → List ℝ → List ℝ) (hfit : ∀ n d, d.length = 4 → IsPolyfit n d (polyfit n d)) :
    ∃ y, ({ order := 3, rate := 3 } : PolyRate).filter polyfit (some sineSamples) = .ok y ∧ ∀ k, 3 ≤ k → k < 24 → |at0 y k - Real.sin (k / 15)| < 1 / 20000 := by
  have hl : sineSamples.length = 10 := by simp [sineSamples]
  obtain ⟨y, h1, h2, h3⟩ := C93_cubic polyfit hfit { order := 3, rate := 3 } rfl (by norm_num) sineSamples (by omega) Real.sin Real.contDiff_sin (1 / 5) 1 sin_bounds.2.2 sineSamples_at
  have h4 : IsRound ((sineSamples.length : ℝ) * 3) 30 := by rw [hl]; simp only [IsRound]; norm_num
  have h5 : y.length = 30 := by exact_mod_cast IsRound.unique h2 h4
  refine ⟨y, h1, fun k hk hk' => ?_⟩
  have ka : (3 : ℝ) ≤ k := by exact_mod_cast hk
  have kb : (k : ℝ) < 24 := by exact_mod_cast hk'
  have := h3 k (by omega) (by show 1 ≤ (k : ℝ) / 3; linarith) (by rw [hl]; show (k : ℝ) / 3 < _; push_cast; linarith)
  have e : (1 / 5 * ((k : ℝ) / 3)) = k / 15 := by ring
  simp only [e] at this
  refine this.trans_lt ?_
  rw [abs_of_pos (by norm_num)]
  norm_num

example (polyfit : ℕ → List ℝ → List ℝ) : ∃ y, ({ order := 1, rate := 3 } : PolyRate).filter polyfit (some sineSamples) = .ok y ∧ ∀ k, k < 27 → |at0 y k - Real.sin (k / 15)| ≤ 1 / 200 := by
  have hl : sineSamples.length = 10 := by simp [sineSamples]
  obtain ⟨y, h1, h2, h3⟩ := C93_linear polyfit { order := 1, rate := 3 } rfl (by norm_num) sineSamples (by omega) Real.sin Real.contDiff_sin (1 / 5) 1 sin_bounds.1 sineSamples_at
  have h4 : IsRound ((sineSamples.length : ℝ) * 3) 30 := by rw [hl]; simp only [IsRound]; norm_num
  have h5 : y.length = 30 := by exact_mod_cast IsRound.unique h2 h4
  refine ⟨y, h1, fun k hk => ?_⟩
  have kb : (k : ℝ) < 27 := by exact_mod_cast hk
  have := h3 k (by omega) (by rw [hl]; show (k : ℝ) / 3 < _; push_cast; linarith)
  have e : (1 / 5 * ((k : ℝ) / 3)) = k / 15 := by ring
  simp only [e] at this
  refine this.trans ?_
  norm_num

/-- The order of the error is sharp: for the square the error of order one is `h² / 4 = M h² / 8` in the middle. -/
theorem C93_sharp (polyfit : ℕ → List ℝ → List ℝ) : ∃ y, ({ order := 1, rate := 2 } : PolyRate).filter polyfit (some [0, 1, 4]) = .ok y ∧ at0 y 1 - (1 / 2) ^ 2 = 1 / 4 ∧ at0 y 3 - (3 / 2) ^ 2 = 1 / 4 := by
  obtain ⟨y, g1, g2, g3⟩ := linear_values polyfit { order := 1, rate := 2 } rfl (by norm_num) [0, 1, 4] (by simp)
  have h5 : y.length = 6 := by
    have : IsRound ((([0, 1, 4] : List ℝ).length : ℝ) * 2) y.length := by rw [g2]; exact np.round_spec _
    have h4 : IsRound ((([0, 1, 4] : List ℝ).length : ℝ) * 2) 6 := by simp only [List.length_cons, List.length_nil, IsRound]; norm_num
    exact_mod_cast IsRound.unique this h4
  have f1 : ⌊((1 : ℕ) : ℝ) / 2⌋₊ = 0 := by rw [Nat.floor_eq_zero]; norm_num
  have f3 : ⌊((3 : ℕ) : ℝ) / 2⌋₊ = 1 := by rw [Nat.floor_eq_iff (by norm_num)]; norm_num
  have e1 := g3 1 (by omega)
  have e3 := g3 3 (by omega)
  simp only [f1, f3] at e1 e3
  refine ⟨y, g1, ?_, ?_⟩
  · rw [at0, List.getD_eq_getElem?_getD, e1]; norm_num [extend1, at0]
  · rw [at0, List.getD_eq_getElem?_getD, e3]; norm_num [extend1, at0]

end Verif.Props
