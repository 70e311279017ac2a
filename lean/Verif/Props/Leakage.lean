import Verif.Props.ToneSpectrum
import Verif.Props.WindowShape
import Verif.Props.FrequencyRange
import Verif.Spec.Lobe
import Mathlib.Analysis.SpecialFunctions.Trigonometric.Bounds
import Mathlib.Analysis.Real.Pi.Bounds
import Mathlib.Tactic.LinearCombination
import Mathlib.Tactic.FieldSimp

/-
Property C144: the spectral leakage of the windows (diamondback/filters/window_filter.py) in FourierTransform and PsdTransform.
-/

namespace Verif.Props

open Verif Verif.Spec Finset Complex Filter Topology

theorem one_sub_phasor (a : ℝ) : 1 - phasor (-(2 * a)) = phasor (-a) * (2 * I * (Real.sin (Real.pi * a) : ℂ)) := by
  have h1 : phasor (-(2 * a)) = phasor (-a) * phasor (-a) := by rw [← phasor_add]; congr 1; ring
  have h2 : (1 : ℂ) = phasor (-a) * phasor a := by rw [← phasor_add, neg_add_cancel]; simp [phasor]
  rw [h1, h2, ← mul_sub, phasor_eq a, phasor_eq (-a), mul_neg, Real.cos_neg, Real.sin_neg]
  push_cast
  ring

theorem one_add_phasor (a : ℝ) : 1 + phasor (-(2 * a)) = phasor (-a) * (2 * (Real.cos (Real.pi * a) : ℂ)) := by
  have h1 : phasor (-(2 * a)) = phasor (-a) * phasor (-a) := by rw [← phasor_add]; congr 1; ring
  have h2 : (1 : ℂ) = phasor (-a) * phasor a := by rw [← phasor_add, neg_add_cancel]; simp [phasor]
  rw [h1, h2, ← mul_add, phasor_eq a, phasor_eq (-a), mul_neg, Real.cos_neg, Real.sin_neg]
  push_cast
  ring

theorem lobe_core (N : ℕ) (z q r : ℂ) (hqr : q * r = 1) (hq : q ^ N = 1) :
    (1 - z) * (1 - z * q) * (1 - z * r) * ∑ n ∈ range N, (1 / 2 - (q ^ n + r ^ n) / 4) * z ^ n = (1 - z ^ N) * ((1 - (q + r) / 2) / 2) * z * (1 + z) := by
  have hr : r ^ N = 1 := by
    have : (q * r) ^ N = 1 := by rw [hqr, one_pow]
    rwa [mul_pow, hq, one_mul] at this
  have e : ∑ n ∈ range N, (1 / 2 - (q ^ n + r ^ n) / 4) * z ^ n = (∑ n ∈ range N, z ^ n) / 2 - (∑ n ∈ range N, (z * q) ^ n) / 4 - (∑ n ∈ range N, (z * r) ^ n) / 4 := by
    rw [sum_div, sum_div, sum_div, ← sum_sub_distrib, ← sum_sub_distrib]
    refine sum_congr rfl fun n _ => ?_
    rw [mul_pow, mul_pow]
    ring
  have hA := geom_sum_mul_neg z N
  have hB := geom_sum_mul_neg (z * q) N
  have hC := geom_sum_mul_neg (z * r) N
  rw [mul_pow, hq, mul_one] at hB
  rw [mul_pow, hr, mul_one] at hC
  rw [e]
  generalize ∑ n ∈ range N, z ^ n = A at *
  generalize ∑ n ∈ range N, (z * q) ^ n = B at *
  generalize ∑ n ∈ range N, (z * r) ^ n = C at *
  linear_combination (1 - z * q) * (1 - z * r) / 2 * hA - (1 - z) * (1 - z * r) / 4 * hB - (1 - z) * (1 - z * q) / 4 * hC + (1 - z ^ N) * z ^ 2 / 2 * hqr

/-- The spectrum of the samples `sin(π j n / N)²`. -/
theorem lobe_sum (N j : ℕ) (hN : 0 < N) (u : ℝ) (h0 : Real.sin (Real.pi * (u / 2)) ≠ 0) (h1 : Real.sin (Real.pi * (u / 2 + j / N)) ≠ 0) (h2 : Real.sin (Real.pi * (u / 2 - j / N)) ≠ 0) :
    ∑ n ∈ range (N + 1), ((Real.sin (Real.pi * (j * n / N)) ^ 2 : ℝ) : ℂ) * phasor (-(u * n)) = phasor (-(u * N / 2)) * (lobe N j u : ℂ) := by
  have hN' : (N : ℝ) ≠ 0 := by exact_mod_cast hN.ne'
  have hpow : ∀ (t : ℝ) (n : ℕ), phasor (t * n) = phasor t ^ n := phasor_nat
  have hlast : Real.sin (Real.pi * (j * N / N)) = 0 := by
    rw [mul_div_assoc, div_self hN', mul_one, mul_comm]
    exact Real.sin_nat_mul_pi j
  rw [sum_range_succ, hlast]
  have hterm : ∀ n : ℕ, ((Real.sin (Real.pi * (j * n / N)) ^ 2 : ℝ) : ℂ) * phasor (-(u * n)) =
      (1 / 2 - (phasor (2 * (j / N)) ^ n + phasor (-(2 * (j / N))) ^ n) / 4) * phasor (-u) ^ n := by
    intro n
    rw [← hpow, ← hpow, ← hpow, show -u * (n : ℝ) = -(u * n) by ring]
    congr 1
    rw [show 2 * ((j : ℝ) / N) * n = 2 * (j * n / N) by ring, show -(2 * ((j : ℝ) / N)) * n = -(2 * (j * n / N)) by ring, phasor_eq, phasor_eq, mul_neg, Real.cos_neg, Real.sin_neg,
      show Real.pi * (2 * (j * n / N)) = 2 * (Real.pi * (j * n / N)) by ring, Real.cos_two_mul, Real.cos_sq']
    push_cast
    ring
  rw [sum_congr rfl fun n _ => hterm n]
  have hq1 : phasor (2 * (j / N)) * phasor (-(2 * (j / N))) = 1 := by rw [← phasor_add, add_neg_cancel]; simp [phasor]
  have hqN : phasor (2 * ((j : ℝ) / N)) ^ N = 1 := by
    rw [← hpow, mul_assoc, div_mul_cancel₀ _ hN']
    exact_mod_cast phasor_even (j : ℤ)
  have hcore := lobe_core N (phasor (-u)) _ _ hq1 hqN
  have f1 : 1 - phasor (-u) = phasor (-(u / 2)) * (2 * I * (Real.sin (Real.pi * (u / 2)) : ℂ)) := by rw [← one_sub_phasor]; congr 2; ring_nf
  have f2 : 1 - phasor (-u) * phasor (2 * (j / N)) = phasor (-(u / 2 - j / N)) * (2 * I * (Real.sin (Real.pi * (u / 2 - j / N)) : ℂ)) := by
    rw [← one_sub_phasor, ← phasor_add]; congr 2; ring
  have f3 : 1 - phasor (-u) * phasor (-(2 * (j / N))) = phasor (-(u / 2 + j / N)) * (2 * I * (Real.sin (Real.pi * (u / 2 + j / N)) : ℂ)) := by
    rw [← one_sub_phasor, ← phasor_add]; congr 2; ring
  have f4 : 1 - phasor (-u) ^ N = phasor (-(u * N / 2)) * (2 * I * (Real.sin (Real.pi * (u * N / 2)) : ℂ)) := by
    rw [← one_sub_phasor, ← hpow]; congr 2; ring
  have f5 : 1 + phasor (-u) = phasor (-(u / 2)) * (2 * (Real.cos (Real.pi * (u / 2)) : ℂ)) := by rw [← one_add_phasor]; congr 2; ring_nf
  have f6 : 1 - (phasor (2 * (j / N)) + phasor (-(2 * (j / N)))) / 2 = 2 * (Real.sin (Real.pi * (j / N)) : ℂ) ^ 2 := by
    rw [phasor_eq, phasor_eq, mul_neg, Real.cos_neg, Real.sin_neg, show Real.pi * (2 * ((j : ℝ) / N)) = 2 * (Real.pi * (j / N)) by ring, Real.cos_two_mul, Real.cos_sq']
    push_cast
    ring
  have f7 : phasor (-(u / 2)) * phasor (-(u / 2 - j / N)) * phasor (-(u / 2 + j / N)) = phasor (-u) * phasor (-(u / 2)) := by
    rw [← phasor_add, ← phasor_add, ← phasor_add]; congr 1; ring
  rw [f1, f2, f3, f4, f5, f6] at hcore
  have g0 : (Real.sin (Real.pi * (u / 2)) : ℂ) ≠ 0 := by exact_mod_cast h0
  have g1 : (Real.sin (Real.pi * (u / 2 + j / N)) : ℂ) ≠ 0 := by exact_mod_cast h1
  have g2 : (Real.sin (Real.pi * (u / 2 - j / N)) : ℂ) ≠ 0 := by exact_mod_cast h2
  have g3 : phasor (-u) * phasor (-(u / 2)) ≠ 0 := by
    rw [← phasor_add, ← norm_pos_iff, phasor_norm]
    exact one_pos
  have hl : (lobe N j u : ℂ) = -((Real.sin (Real.pi * (u * N / 2)) : ℂ) * (Real.cos (Real.pi * (u / 2)) : ℂ) * (Real.sin (Real.pi * (j / N)) : ℂ) ^ 2) /
      (2 * (Real.sin (Real.pi * (u / 2)) : ℂ) * (Real.sin (Real.pi * (u / 2 + j / N)) : ℂ) * (Real.sin (Real.pi * (u / 2 - j / N)) : ℂ)) := by
    rw [lobe]
    push_cast
    rfl
  rw [hl]
  generalize (Real.sin (Real.pi * (u / 2)) : ℂ) = s0 at *
  generalize (Real.sin (Real.pi * (u / 2 + j / N)) : ℂ) = s1 at *
  generalize (Real.sin (Real.pi * (u / 2 - j / N)) : ℂ) = s2 at *
  generalize (Real.sin (Real.pi * (u * N / 2)) : ℂ) = s3 at *
  generalize (Real.cos (Real.pi * (u / 2)) : ℂ) = c0 at *
  generalize (Real.sin (Real.pi * (j / N)) : ℂ) = s4 at *
  generalize hS : ∑ n ∈ range N, ((1 : ℂ) / 2 - (phasor (2 * ((j : ℝ) / N)) ^ n + phasor (-(2 * ((j : ℝ) / N))) ^ n) / 4) * phasor (-u) ^ n = S at *
  have hI : (I : ℂ) ^ 2 = -1 := I_sq
  have key : (phasor (-u) * phasor (-(u / 2))) * (4 * I) * (2 * s0 * s1 * s2 * S + phasor (-(u * N / 2)) * s3 * c0 * s4 ^ 2) = 0 := by
    linear_combination (-1 : ℂ) * hcore + 8 * I ^ 3 * s0 * s1 * s2 * S * f7 + 8 * I * (phasor (-u) * phasor (-(u / 2))) * s0 * s1 * s2 * S * hI
  have key2 := (mul_eq_zero.mp key).resolve_left (mul_ne_zero g3 (mul_ne_zero (by norm_num) I_ne_zero))
  push_cast
  field_simp
  linear_combination key2

/-- The spectrum of a constant. -/
theorem pedestal_sum (N : ℕ) (u : ℝ) (h0 : Real.sin (Real.pi * (u / 2)) ≠ 0) :
    ∑ n ∈ range (N + 1), phasor (-(u * n)) = phasor (-(u * N / 2)) * (pedestal N u : ℂ) := by
  have hpow : ∀ (t : ℝ) (n : ℕ), phasor (t * n) = phasor t ^ n := phasor_nat
  rw [sum_congr rfl fun n _ => by rw [show -(u * (n : ℝ)) = -u * n by ring, hpow]]
  have hA := geom_sum_mul_neg (phasor (-u)) (N + 1)
  have f1 : 1 - phasor (-u) = phasor (-(u / 2)) * (2 * I * (Real.sin (Real.pi * (u / 2)) : ℂ)) := by rw [← one_sub_phasor]; congr 2; ring_nf
  have f4 : 1 - phasor (-u) ^ (N + 1) = phasor (-(u * (N + 1) / 2)) * (2 * I * (Real.sin (Real.pi * (u * (N + 1) / 2)) : ℂ)) := by
    rw [← one_sub_phasor, ← hpow]; congr 2; push_cast; ring
  have f5 : phasor (-(u * (N + 1) / 2)) = phasor (-(u * N / 2)) * phasor (-(u / 2)) := by rw [← phasor_add]; congr 1; ring
  rw [f1, f4, f5] at hA
  have g0 : (Real.sin (Real.pi * (u / 2)) : ℂ) ≠ 0 := by exact_mod_cast h0
  have g3 : phasor (-(u / 2)) ≠ 0 := by
    rw [← norm_pos_iff, phasor_norm]
    exact one_pos
  have hl : (pedestal N u : ℂ) = (Real.sin (Real.pi * (u * (N + 1) / 2)) : ℂ) / (Real.sin (Real.pi * (u / 2)) : ℂ) := by
    rw [pedestal]
    push_cast
    rfl
  rw [hl]
  generalize (Real.sin (Real.pi * (u / 2)) : ℂ) = s0 at *
  generalize (Real.sin (Real.pi * (u * (N + 1) / 2)) : ℂ) = s3 at *
  generalize ∑ n ∈ range (N + 1), phasor (-u) ^ n = S at *
  have key : phasor (-(u / 2)) * (2 * I) * (S * s0 - phasor (-(u * N / 2)) * s3) = 0 := by linear_combination hA
  have key2 := (mul_eq_zero.mp key).resolve_left (mul_ne_zero g3 (mul_ne_zero (by norm_num) I_ne_zero))
  rw [← mul_div_assoc, eq_div_iff g0]
  linear_combination key2

theorem windowResponse_period (b : List ℂ) (u : ℝ) (m : ℤ) : windowResponse b (u + 2 * m) = windowResponse b u := by
  unfold windowResponse spectrumAt
  congr 1
  refine sum_congr rfl fun n _ => ?_
  congr 1
  have := phasor_periodic (-(u * n)) (-(m * n))
  rw [← this]
  congr 1
  push_cast
  ring

/-- The normalised windows, of whatever number of points. -/
theorem window_exact (style : WStyle) (N : ℕ) (w : Window) (hw : Window.new (some style) N true = .ok (some w)) (u : ℝ) :
    windowResponse (w.b.map (↑)) u * ((∑ n ∈ range (N + 1), window.value style (N + 1) n : ℝ) : ℂ) = ∑ n ∈ range (N + 1), ((window.value style (N + 1) n : ℝ) : ℂ) * phasor (-(u * n)) := by
  obtain ⟨K, h0, -, h1, hv⟩ := window_coeffs style N true w hw
  have hlen := (C39_window_symmetric style N true w hw).1
  have h1 := h1 rfl
  have hN1 : ((N + 1 : ℕ) : ℂ) ≠ 0 := by exact_mod_cast Nat.succ_ne_zero N
  unfold windowResponse spectrumAt
  rw [List.length_map, hlen]
  have hterm : ∀ n ∈ range (N + 1), at0 (w.b.map fun v : ℝ => (v : ℂ)) n * 1 * phasor (-(u * n)) = (K : ℂ) * (((window.value style (N + 1) n : ℝ) : ℂ) * phasor (-(u * n))) := by
    intro n hn
    have hn' := mem_range.mp hn
    have : at0 (w.b.map fun v : ℝ => (v : ℂ)) n = ((at0 w.b n : ℝ) : ℂ) := by
      rw [at0_of_lt _ _ (by simpa [hlen] using hn'), at0_of_lt _ _ (by simpa [hlen] using hn'), List.getElem_map]
    rw [this, hv n (by omega)]
    push_cast
    ring
  rw [sum_congr rfl hterm, ← mul_sum]
  have hc : (K : ℂ) * ((∑ n ∈ range (N + 1), window.value style (N + 1) n : ℝ) : ℂ) = ((N + 1 : ℕ) : ℂ) := by
    rw [← Complex.ofReal_mul, h1]
    push_cast
    rfl
  rw [div_mul_eq_mul_div, div_eq_iff hN1, ← hc]
  ring

/-- The frequency is none of those at which a quotient of sines is not defined. -/
def Regular (N j : ℕ) (u : ℝ) : Prop := Real.sin (Real.pi * (u / 2)) ≠ 0 ∧ Real.sin (Real.pi * (u / 2 + j / N)) ≠ 0 ∧ Real.sin (Real.pi * (u / 2 - j / N)) ≠ 0

/-- C144: the spectrum of the normalised Hann window in closed form. -/
theorem C144_hann (N : ℕ) (hN : 2 ≤ N) (w : Window) (hw : Window.new (some .hann) N true = .ok (some w)) (u : ℝ) (hu : Regular N 1 u) :
    windowResponse (w.b.map (↑)) u = phasor (-(u * N / 2)) * ((lobe N 1 u / (N / 2) : ℝ) : ℂ) := by
  have h := window_exact .hann N w hw u
  rw [(window_sum .hann N).1 rfl hN] at h
  have hv : ∀ n ∈ range (N + 1), ((window.value .hann (N + 1) n : ℝ) : ℂ) * phasor (-(u * n)) = ((Real.sin (Real.pi * ((1 : ℕ) * n / N)) ^ 2 : ℝ) : ℂ) * phasor (-(u * n)) := by
    intro n _
    congr 2
    simp only [window.value, if_neg (by omega : ¬ N + 1 = 1), window.cosine_eq, window_cos]
    rw [Real.sin_sq_eq_half_sub]
    rw [show 2 * (Real.pi * (((1 : ℕ) : ℝ) * n / N)) = 2 * Real.pi * n / N by push_cast; ring]
    ring
  rw [sum_congr rfl hv, lobe_sum N 1 (by omega) u hu.1 hu.2.1 hu.2.2] at h
  have hN0 : ((N / 2 : ℝ) : ℂ) ≠ 0 := by
    have : (0 : ℝ) < N := by exact_mod_cast (by omega : 0 < N)
    exact_mod_cast (by positivity : (N / 2 : ℝ) ≠ 0)
  rw [Complex.ofReal_div, ← mul_div_assoc, eq_div_iff hN0]
  exact h

/-- C144: the spectrum of the normalised Hamming window in closed form. -/
theorem C144_hamming (N : ℕ) (hN : 2 ≤ N) (w : Window) (hw : Window.new (some .hamming) N true = .ok (some w)) (u : ℝ) (hu : Regular N 1 u) :
    windowResponse (w.b.map (↑)) u = phasor (-(u * N / 2)) * (((0.08 * pedestal N u + 0.92 * lobe N 1 u) / (0.54 * N + 0.08) : ℝ) : ℂ) := by
  have h := window_exact .hamming N w hw u
  rw [(window_sum .hamming N).2.1 rfl hN] at h
  have hv : ∀ n ∈ range (N + 1), ((window.value .hamming (N + 1) n : ℝ) : ℂ) * phasor (-(u * n)) =
      ((0.08 : ℝ) : ℂ) * phasor (-(u * n)) + ((0.92 : ℝ) : ℂ) * (((Real.sin (Real.pi * ((1 : ℕ) * n / N)) ^ 2 : ℝ) : ℂ) * phasor (-(u * n))) := by
    intro n _
    rw [← mul_assoc, ← add_mul, ← Complex.ofReal_mul, ← Complex.ofReal_add]
    congr 2
    simp only [window.value, if_neg (by omega : ¬ N + 1 = 1), window.cosine_eq, window_cos]
    rw [Real.sin_sq_eq_half_sub]
    rw [show 2 * (Real.pi * (((1 : ℕ) : ℝ) * n / N)) = 2 * Real.pi * n / N by push_cast; ring]
    ring
  rw [sum_congr rfl hv, sum_add_distrib, ← mul_sum, ← mul_sum, lobe_sum N 1 (by omega) u hu.1 hu.2.1 hu.2.2, pedestal_sum N u hu.1] at h
  have hN0 : ((0.54 * N + 0.08 : ℝ) : ℂ) ≠ 0 := by
    have : (0 : ℝ) < 0.54 * N + 0.08 := by positivity
    exact_mod_cast this.ne'
  rw [Complex.ofReal_div, ← mul_div_assoc, eq_div_iff hN0, h, Complex.ofReal_add, Complex.ofReal_mul, Complex.ofReal_mul]
  ring

/-- C144: the spectrum of the normalised Blackman window in closed form. -/
theorem C144_blackman (N : ℕ) (hN : 3 ≤ N) (w : Window) (hw : Window.new (some .blackman) N true = .ok (some w)) (u : ℝ) (hu : Regular N 1 u) (hu2 : Regular N 2 u) :
    windowResponse (w.b.map (↑)) u = phasor (-(u * N / 2)) * (((lobe N 1 u - 0.16 * lobe N 2 u) / (0.42 * N) : ℝ) : ℂ) := by
  have h := window_exact .blackman N w hw u
  rw [(window_sum .blackman N).2.2 rfl hN] at h
  have hv : ∀ n ∈ range (N + 1), ((window.value .blackman (N + 1) n : ℝ) : ℂ) * phasor (-(u * n)) =
      ((Real.sin (Real.pi * ((1 : ℕ) * n / N)) ^ 2 : ℝ) : ℂ) * phasor (-(u * n)) - ((0.16 : ℝ) : ℂ) * (((Real.sin (Real.pi * ((2 : ℕ) * n / N)) ^ 2 : ℝ) : ℂ) * phasor (-(u * n))) := by
    intro n _
    rw [← mul_assoc, ← sub_mul, ← Complex.ofReal_mul, ← Complex.ofReal_sub]
    congr 2
    simp only [window.value, if_neg (by omega : ¬ N + 1 = 1), window.cosine_eq, window_cos]
    rw [Real.sin_sq_eq_half_sub, Real.sin_sq_eq_half_sub]
    rw [show 2 * (Real.pi * (((1 : ℕ) : ℝ) * n / N)) = 2 * Real.pi * n / N by push_cast; ring, show 2 * (Real.pi * (((2 : ℕ) : ℝ) * n / N)) = 2 * (2 * Real.pi * n / N) by push_cast; ring, Real.cos_two_mul]
    ring
  rw [sum_congr rfl hv, sum_sub_distrib, ← mul_sum, lobe_sum N 1 (by omega) u hu.1 hu.2.1 hu.2.2, lobe_sum N 2 (by omega) u hu2.1 hu2.2.1 hu2.2.2] at h
  have hN0 : ((0.42 * N : ℝ) : ℂ) ≠ 0 := by
    have h1 : (0 : ℝ) < N := by exact_mod_cast (by omega : 0 < N)
    have : (0 : ℝ) < 0.42 * N := by positivity
    exact_mod_cast this.ne'
  rw [Complex.ofReal_div, ← mul_div_assoc, eq_div_iff hN0, h, Complex.ofReal_sub, Complex.ofReal_mul]
  ring

/-- The hypotheses of `C144_hann`, `C144_hamming` and `C144_blackman` hold for eight samples at half of the limit frequency. -/
example : (∀ style : WStyle, ∃ w, Window.new (some style) (8 : ℕ) true = .ok (some w)) ∧ Regular 8 1 (1 / 2) ∧ Regular 8 1 (1 / 3) ∧ Regular 8 2 (1 / 3) := by
  have h : ∀ t : ℝ, 0 < t → t < 1 → Real.sin (Real.pi * t) ≠ 0 := fun t h0 h1 =>
    (Real.sin_pos_of_pos_of_lt_pi (mul_pos Real.pi_pos h0) (by nlinarith [Real.pi_pos])).ne'
  have h' : ∀ t : ℝ, -1 < t → t < 0 → Real.sin (Real.pi * t) ≠ 0 := fun t h0 h1 => by
    rw [← neg_neg t, mul_neg, Real.sin_neg]
    exact neg_ne_zero.mpr (h _ (by linarith) (by linarith))
  refine ⟨fun style => ?_, ⟨h _ ?_ ?_, h _ ?_ ?_, h _ ?_ ?_⟩, ⟨h _ ?_ ?_, h _ ?_ ?_, h _ ?_ ?_⟩, h _ ?_ ?_, h _ ?_ ?_, h' _ ?_ ?_⟩
  · obtain ⟨w, hw, -⟩ := C39_window_normal style (8 : ℕ) (by rintro ⟨-, h⟩; omega)
    exact ⟨w, hw⟩
  all_goals norm_num

/-- C144: the zeros of the spectrum of the Hann window: a tone whose distance from the frequency is a whole number of steps `2 / order`, but not 0 or 1 of them, leaves nothing. -/
theorem C144_zeros (N : ℕ) (hN : 2 ≤ N) (w : Window) (hw : Window.new (some .hann) N true = .ok (some w)) (k : ℤ) (h0 : ¬ (N : ℤ) ∣ k) (h1 : ¬ (N : ℤ) ∣ k + 1) (h2 : ¬ (N : ℤ) ∣ k - 1) :
    windowResponse (w.b.map (↑)) (2 * k / N) = 0 := by
  have hN' : (N : ℝ) ≠ 0 := by exact_mod_cast (by omega : N ≠ 0)
  have hs : ∀ l : ℤ, ¬ (N : ℤ) ∣ l → Real.sin (Real.pi * (l / N)) ≠ 0 := by
    intro l hl h
    obtain ⟨m, hm⟩ := Real.sin_eq_zero_iff.mp h
    refine hl ⟨m, ?_⟩
    have h3 : (m : ℝ) * Real.pi * N = Real.pi * l := by rw [hm, mul_assoc, div_mul_cancel₀ _ hN']
    have h4 : (l : ℝ) = N * m := mul_left_cancel₀ Real.pi_ne_zero (by linear_combination -h3)
    exact_mod_cast h4
  have hreg : Regular N 1 (2 * k / N) := by
    refine ⟨?_, ?_, ?_⟩
    · have := hs k h0
      rwa [show (2 * (k : ℝ) / N / 2) = k / N by ring]
    · have := hs (k + 1) h1
      rw [show (2 * (k : ℝ) / N / 2 + (1 : ℕ) / N) = ((k + 1 : ℤ) : ℝ) / N by push_cast; ring]
      exact this
    · have := hs (k - 1) h2
      rw [show (2 * (k : ℝ) / N / 2 - (1 : ℕ) / N) = ((k - 1 : ℤ) : ℝ) / N by push_cast; ring]
      exact this
  rw [C144_hann N hN w hw _ hreg, lobe]
  have : Real.sin (Real.pi * (2 * k / N * N / 2)) = 0 := by
    rw [show Real.pi * (2 * k / N * N / 2) = k * Real.pi by field_simp]
    exact Real.sin_int_mul_pi k
  rw [this]
  simp

/-- The third multiple with eight samples. -/
example (w : Window) (hw : Window.new (some .hann) 8 true = .ok (some w)) := C144_zeros 8 (by norm_num) w hw 3 (by norm_num) (by norm_num) (by norm_num)

/-- A tone `d` steps of `2 / N` away. -/
theorem lobe_bound (N j : ℕ) (d : ℝ) (hj : 0 < j) (hd : j < d) (hN : 2 * (d + j) ≤ N) :
    Regular N j (2 * d / N) ∧ |lobe N j (2 * d / N)| ≤ N * (Real.pi / 8) * (j ^ 2 / (d * (d ^ 2 - j ^ 2))) ∧ 2 * d / N ≤ Real.sin (Real.pi * (2 * d / N / 2)) := by
  have hj' : (0 : ℝ) < j := by exact_mod_cast hj
  have hd0 : 0 < d := by linarith
  have hN0 : (0 : ℝ) < N := by linarith
  have hpi := Real.pi_pos
  have jordan : ∀ a : ℝ, 0 < a → 2 * a ≤ N → 2 * a / N ≤ Real.sin (Real.pi * (a / N)) ∧ 0 < 2 * a / N := by
    intro a ha haN
    refine ⟨?_, by positivity⟩
    have := Real.mul_le_sin (x := Real.pi * (a / N)) (by positivity) (by
      rw [mul_div_assoc', div_le_div_iff₀ hN0 two_pos]
      nlinarith)
    calc 2 * a / N = 2 / Real.pi * (Real.pi * (a / N)) := by field_simp
      _ ≤ _ := this
  obtain ⟨s0, p0⟩ := jordan d hd0 (by linarith)
  obtain ⟨s1, p1⟩ := jordan (d + j) (by linarith) hN
  obtain ⟨s2, p2⟩ := jordan (d - j) (by linarith) (by linarith)
  have e0 : 2 * d / N / 2 = d / N := by ring
  have e1 : 2 * d / N / 2 + j / N = (d + j) / N := by ring
  have e2 : 2 * d / N / 2 - j / N = (d - j) / N := by ring
  have e3 : 2 * d / N * N / 2 = d := by field_simp
  have hx : 0 < Real.pi * (d / N) := by positivity
  have hx2 : Real.pi * (d / N) < Real.pi / 2 := by
    rw [mul_div_assoc', div_lt_div_iff₀ hN0 two_pos]
    nlinarith
  have hcos : 0 < Real.cos (Real.pi * (d / N)) := Real.cos_pos_of_mem_Ioo ⟨by linarith, hx2⟩
  have htan : Real.cos (Real.pi * (d / N)) * (Real.pi * (d / N)) ≤ Real.sin (Real.pi * (d / N)) := by
    have := (Real.lt_tan hx hx2).le
    rw [Real.tan_eq_sin_div_cos, le_div_iff₀ hcos] at this
    linarith
  have hsj : Real.sin (Real.pi * (j / N)) ^ 2 ≤ (Real.pi * (j / N)) ^ 2 := by
    have h1 := Real.sin_le (x := Real.pi * (j / N)) (by positivity)
    have h2 : 0 ≤ Real.sin (Real.pi * (j / N)) := Real.sin_nonneg_of_nonneg_of_le_pi (by positivity) (by
      rw [mul_div_assoc', div_le_iff₀ hN0]
      nlinarith)
    exact pow_le_pow_left₀ h2 h1 2
  refine ⟨⟨?_, ?_, ?_⟩, ?_, ?_⟩
  · rw [e0]; exact (p0.trans_le s0).ne'
  · rw [e1]; exact (p1.trans_le s1).ne'
  · rw [e2]; exact (p2.trans_le s2).ne'
  · rw [lobe, e0, show d / N + (j : ℝ) / N = (d + j) / N by ring, show d / N - (j : ℝ) / N = (d - j) / N by ring, e3]
    have hden : 0 < 2 * Real.sin (Real.pi * (d / N)) * Real.sin (Real.pi * ((d + j) / N)) * Real.sin (Real.pi * ((d - j) / N)) := by
      have := p0.trans_le s0
      have := p1.trans_le s1
      have := p2.trans_le s2
      positivity
    rw [abs_div, abs_neg, abs_mul, abs_mul, abs_of_pos hden, abs_of_pos hcos, abs_of_nonneg (sq_nonneg (Real.sin (Real.pi * (j / N)))), div_le_iff₀ hden]
    have hdj : 0 < d ^ 2 - j ^ 2 := by nlinarith
    calc |Real.sin (Real.pi * d)| * Real.cos (Real.pi * (d / N)) * Real.sin (Real.pi * (j / N)) ^ 2
        ≤ 1 * Real.cos (Real.pi * (d / N)) * (Real.pi * (j / N)) ^ 2 := by
          gcongr
          exact Real.abs_sin_le_one _
      _ = (Real.cos (Real.pi * (d / N)) * (Real.pi * (d / N))) * (N * (Real.pi / 8) * (j ^ 2 / (d * (d ^ 2 - j ^ 2)))) * (2 * (2 * (d + j) / N) * (2 * (d - j) / N)) := by
          field_simp
          ring
      _ ≤ Real.sin (Real.pi * (d / N)) * (N * (Real.pi / 8) * (j ^ 2 / (d * (d ^ 2 - j ^ 2)))) * (2 * Real.sin (Real.pi * ((d + j) / N)) * Real.sin (Real.pi * ((d - j) / N))) := by
          have := p0.le.trans s0
          have := p1.le.trans s1
          have := p2.le.trans s2
          gcongr
      _ = _ := by ring
  · rw [e0]; exact s0

/-- The magnitude of the spectrum of a real window is even. -/
theorem windowResponse_even (b : List ℝ) (u : ℝ) : ‖windowResponse (b.map (↑)) (-u)‖ = ‖windowResponse (b.map (↑)) u‖ := by
  have : windowResponse (b.map (↑)) (-u) = (starRingEnd ℂ) (windowResponse (b.map (↑)) u) := by
    unfold windowResponse spectrumAt
    rw [map_div₀, map_natCast, map_sum]
    congr 1
    refine sum_congr rfl fun n hn => ?_
    have hn' : n < b.length := by simpa using hn
    rw [map_mul, map_mul, map_one, phasor_conj, at0_of_lt _ _ (by simpa using hn'), List.getElem_map, Complex.conj_ofReal]
    congr 2
    ring
  rw [this, RCLike.norm_conj]

/-- Any frequency at a distance of `d` steps from a multiple of two. -/
theorem windowResponse_away (b : List ℝ) (N : ℕ) (u d : ℝ) (m : ℤ) (h : |u - 2 * m| = 2 * d / N) : ‖windowResponse (b.map (↑)) u‖ = ‖windowResponse (b.map (↑)) (2 * d / N)‖ := by
  have h1 : windowResponse (b.map (↑)) u = windowResponse (b.map (↑)) (u - 2 * m) := by
    rw [← windowResponse_period _ (u - 2 * m) m, sub_add_cancel]
  rw [h1, ← h]
  rcases abs_cases (u - 2 * m) with ⟨h2, -⟩ | ⟨h2, -⟩
  · rw [h2]
  · rw [h2, windowResponse_even]

/-- C144: the leakage of the normalised windows, relative to the tone itself, at a distance of `d` steps `2 / order`: it falls with the cube of the distance for Hann and Blackman. -/
theorem C144_bound (style : WStyle) (N : ℕ) (w : Window) (hw : Window.new (some style) N true = .ok (some w)) (u d : ℝ) (m : ℤ) (hu : |u - 2 * m| = 2 * d / N) :
    (style = .hann → 1 < d → 2 * (d + 1) ≤ N → ‖windowResponse (w.b.map (↑)) u‖ ≤ Real.pi / 4 / (d * (d ^ 2 - 1))) ∧
    (style = .hamming → 1 < d → 2 * (d + 1) ≤ N → ‖windowResponse (w.b.map (↑)) u‖ ≤ (0.04 / d + 0.115 * Real.pi / (d * (d ^ 2 - 1))) / 0.54) ∧
    (style = .blackman → 2 < d → 2 * (d + 2) ≤ N → ‖windowResponse (w.b.map (↑)) u‖ ≤ (Real.pi / 8 / (d * (d ^ 2 - 1)) + 0.08 * Real.pi / (d * (d ^ 2 - 4))) / 0.42) := by
  rw [windowResponse_away w.b N u d m hu]
  refine ⟨?_, ?_, ?_⟩
  · rintro rfl hd hN
    have hN4 : (4 : ℝ) < N := by linarith
    have hN0 : (0 : ℝ) < N := by linarith
    have hN2 : 4 < N := by exact_mod_cast hN4
    obtain ⟨r, hb, -⟩ := lobe_bound N 1 d one_pos (by exact_mod_cast hd) (by exact_mod_cast hN)
    rw [C144_hann N (by omega) w hw _ r, norm_mul, phasor_norm, one_mul, Complex.norm_real, Real.norm_eq_abs, abs_div, abs_of_pos (by positivity : (0 : ℝ) < N / 2), div_le_iff₀ (by positivity)]
    refine hb.trans (le_of_eq ?_)
    push_cast
    ring
  · rintro rfl hd hN
    have hN4 : (4 : ℝ) < N := by linarith
    have hN0 : (0 : ℝ) < N := by linarith
    have hN2 : 4 < N := by exact_mod_cast hN4
    have hd0 : 0 < d := by linarith
    have hd1 : 0 < d ^ 2 - 1 := by nlinarith
    obtain ⟨r, hb, hs⟩ := lobe_bound N 1 d one_pos (by exact_mod_cast hd) (by exact_mod_cast hN)
    have hp : |pedestal N (2 * d / N)| ≤ N / (2 * d) := by
      have h0 : 0 < 2 * d / N := by positivity
      rw [pedestal, abs_div, abs_of_pos (h0.trans_le hs), div_le_div_iff₀ (h0.trans_le hs) (by positivity)]
      calc _ ≤ 1 * (2 * d) := by gcongr; exact Real.abs_sin_le_one _
        _ = N * (2 * d / N) := by field_simp
        _ ≤ _ := by gcongr
    rw [C144_hamming N (by omega) w hw _ r, norm_mul, phasor_norm, one_mul, Complex.norm_real, Real.norm_eq_abs, abs_div, abs_of_pos (by positivity : (0 : ℝ) < 0.54 * N + 0.08), div_le_iff₀ (by positivity)]
    have h1 : |0.08 * pedestal N (2 * d / N) + 0.92 * lobe N 1 (2 * d / N)| ≤ 0.08 * (N / (2 * d)) + 0.92 * (N * (Real.pi / 8) * (((1 : ℕ) : ℝ) ^ 2 / (d * (d ^ 2 - ((1 : ℕ) : ℝ) ^ 2)))) := by
      refine (abs_add_le _ _).trans ?_
      rw [abs_mul, abs_mul, abs_of_pos (by norm_num : (0 : ℝ) < 0.08), abs_of_pos (by norm_num : (0 : ℝ) < 0.92)]
      gcongr
    refine h1.trans ?_
    have h2 : 0 ≤ (0.04 / d + 0.115 * Real.pi / (d * (d ^ 2 - 1))) / 0.54 := by positivity
    calc 0.08 * (N / (2 * d)) + 0.92 * (N * (Real.pi / 8) * (((1 : ℕ) : ℝ) ^ 2 / (d * (d ^ 2 - ((1 : ℕ) : ℝ) ^ 2))))
        = (0.04 / d + 0.115 * Real.pi / (d * (d ^ 2 - 1))) / 0.54 * (0.54 * N) := by
          push_cast
          field_simp
          ring
      _ ≤ _ := by
          gcongr
          linarith
  · rintro rfl hd hN
    have hN4 : (8 : ℝ) < N := by linarith
    have hN0 : (0 : ℝ) < N := by linarith
    have hN2 : 8 < N := by exact_mod_cast hN4
    have hd0 : 0 < d := by linarith
    have hd1 : d ^ 2 - 1 ≠ 0 := by nlinarith
    have hd2 : d ^ 2 - 4 ≠ 0 := by nlinarith
    obtain ⟨r, hb, -⟩ := lobe_bound N 1 d one_pos (by push_cast; linarith) (by push_cast; linarith)
    obtain ⟨r2, hb2, -⟩ := lobe_bound N 2 d two_pos (by exact_mod_cast hd) (by exact_mod_cast hN)
    rw [C144_blackman N (by omega) w hw _ r r2, norm_mul, phasor_norm, one_mul, Complex.norm_real, Real.norm_eq_abs, abs_div, abs_of_pos (by positivity : (0 : ℝ) < 0.42 * N), div_le_iff₀ (by positivity)]
    have h1 : |lobe N 1 (2 * d / N) - 0.16 * lobe N 2 (2 * d / N)| ≤ N * (Real.pi / 8) * (((1 : ℕ) : ℝ) ^ 2 / (d * (d ^ 2 - ((1 : ℕ) : ℝ) ^ 2))) +
        0.16 * (N * (Real.pi / 8) * (((2 : ℕ) : ℝ) ^ 2 / (d * (d ^ 2 - ((2 : ℕ) : ℝ) ^ 2)))) := by
      refine (abs_sub _ _).trans ?_
      rw [abs_mul, abs_of_pos (by norm_num : (0 : ℝ) < 0.16)]
      gcongr
    refine h1.trans (le_of_eq ?_)
    push_cast
    rw [show (2 : ℝ) ^ 2 = 4 by norm_num]
    field_simp
    ring

/-- Two and a half steps away from frequency zero, with sixteen samples, and with every window. -/
example : |(5 / 16 : ℝ) - 2 * (0 : ℤ)| = 2 * (5 / 2) / (16 : ℕ) ∧ (2 : ℝ) < 5 / 2 ∧ (2 * (5 / 2 + 2) : ℝ) ≤ (16 : ℕ) := by
  refine ⟨?_, by norm_num, by norm_num⟩
  norm_num [abs_of_pos]

/-- C144: what PsdTransform shows of a tone elsewhere, with a normalised Hann window. -/
theorem C144_psd (N : ℕ) (hN : 2 ≤ N) (A : ℂ) (f p : ℝ) (M : ℕ) (hM : N + 1 ≤ M) (index : ℕ) (hi : 0 < index) :
    ∃ w y fr, Window.new (some .hann) N true = .ok (some w) ∧ psd (tone A f p M) (w.b.map (↑)) index false = .ok (.mean y, fr) ∧ y.length = (N + 1) / 2 ∧
      ∀ k < (N + 1) / 2, ∃ v, y[k]? = some v ∧ ∀ (d : ℝ) (m : ℤ), |2 * k / (N + 1) - f - 2 * m| = 2 * d / N → 1 < d → 2 * (d + 1) ≤ N → v ≤ ‖A‖ ^ 2 * (Real.pi / 4 / (d * (d ^ 2 - 1))) ^ 2 := by
  obtain ⟨w, hw, hmean⟩ := C39_window_normal .hann N (by rintro ⟨-, h⟩; omega)
  obtain ⟨hlen, -, hnn⟩ := C39_window_symmetric .hann N true w hw
  have hb : ∃ v ∈ (w.b.map (↑) : List ℂ), 1e-8 < ‖v‖ := by
    by_contra hc
    push Not at hc
    have : ∑ n ∈ range (N + 1), |at0 w.b n| ≤ ∑ n ∈ range (N + 1), (1e-8 : ℝ) := by
      refine sum_le_sum fun n hn => ?_
      have hn : n < w.b.length := by rw [hlen]; exact mem_range.mp hn
      have := hc ((w.b[n] : ℝ) : ℂ) (List.mem_map.mpr ⟨_, List.getElem_mem hn, rfl⟩)
      rw [Complex.norm_real, Real.norm_eq_abs] at this
      rw [at0_of_lt _ _ hn]
      exact this
    have hl : (0 : ℝ) < N + 1 := by positivity
    rw [div_eq_one_iff_eq hl.ne'] at hmean
    rw [hmean, sum_const, card_range, nsmul_eq_mul] at this
    push_cast at this
    nlinarith
  have hl : (w.b.map (↑) : List ℂ).length = N + 1 := by simpa using hlen
  obtain ⟨z, s, fz, k1, -, k2, k3, -⟩ := C107_psd _ hb A f p M (by omega) index hi
  rw [hl] at k2 k3
  refine ⟨w, z, fz, hw, k1, k2, fun k hk => ⟨_, k3 k hk, fun d m hd h1 h2 => ?_⟩⟩
  have := (C144_bound .hann N w hw (2 * k / ((N + 1 : ℕ) : ℝ) - f) d m (by push_cast; exact hd)).1 rfl h1 h2
  gcongr

/-- Concrete case of C144: with a Hann window of 129 points a tone ten steps away shows less than a millionth of its power. -/
example : ‖(1 : ℂ)‖ ^ 2 * (Real.pi / 4 / (10 * (10 ^ 2 - 1))) ^ 2 < 1e-6 := by
  have h := Real.pi_lt_d2
  have h0 := Real.pi_pos
  have : Real.pi / 4 / (10 * (10 ^ 2 - 1)) < 1e-3 := by
    rw [div_div, div_lt_iff₀ (by norm_num)]
    norm_num
    linarith
  rw [norm_one, one_pow, one_mul]
  calc _ < (1e-3 : ℝ) ^ 2 := by gcongr
    _ = 1e-6 := by norm_num

theorem tendsto_mul_sin (c : ℝ) : Tendsto (fun N : ℕ => (N : ℝ) * Real.sin (Real.pi * (c / N))) atTop (𝓝 (Real.pi * c)) := by
  have hd : HasDerivAt (fun t : ℝ => Real.sin (Real.pi * c * t)) (Real.pi * c) 0 := by
    have h1 : HasDerivAt (fun t : ℝ => Real.pi * c * t) (Real.pi * c) 0 := by simpa using (hasDerivAt_id (0 : ℝ)).const_mul (Real.pi * c)
    have := h1.sin
    simpa using this
  have h1 := hd.tendsto_slope_zero
  have h2 : Tendsto (fun N : ℕ => (1 : ℝ) / N) atTop (𝓝[≠] 0) := by
    refine tendsto_nhdsWithin_iff.mpr ⟨tendsto_const_div_atTop_nhds_zero_nat 1, ?_⟩
    filter_upwards [eventually_gt_atTop 0] with N hN
    have : (0 : ℝ) < N := by exact_mod_cast hN
    simp only [Set.mem_compl_iff, Set.mem_singleton_iff]
    positivity
  refine (h1.comp h2).congr fun N => ?_
  simp only [Function.comp, zero_add, mul_zero, Real.sin_zero, sub_zero, smul_eq_mul, one_div, inv_inv]
  congr 2
  rw [mul_assoc, div_eq_mul_inv]

theorem tendsto_cos_one (c : ℝ) : Tendsto (fun N : ℕ => Real.cos (Real.pi * (c / N))) atTop (𝓝 1) := by
  have h1 : Tendsto (fun N : ℕ => Real.pi * (c / N)) atTop (𝓝 0) := by simpa using (tendsto_const_div_atTop_nhds_zero_nat c).const_mul Real.pi
  simpa [Function.comp_def] using (Real.continuous_cos.tendsto 0).comp h1

theorem tendsto_lobe (j : ℕ) (d : ℝ) (h0 : d ≠ 0) (h1 : d ^ 2 ≠ j ^ 2) :
    Tendsto (fun N : ℕ => lobe N j (2 * d / N) / N) atTop (𝓝 (-(Real.sin (Real.pi * d) * j ^ 2) / (2 * Real.pi * (d * (d ^ 2 - j ^ 2))))) ∧ ∀ᶠ N : ℕ in atTop, Regular N j (2 * d / N) := by
  have hp : d + j ≠ 0 := fun h => h1 (by linear_combination (d - j) * h)
  have hm : d - j ≠ 0 := fun h => h1 (by linear_combination (d + j) * h)
  have hpi := Real.pi_ne_zero
  have t0 := tendsto_mul_sin d
  have t1 := tendsto_mul_sin (d + j)
  have t2 := tendsto_mul_sin (d - j)
  have t3 := tendsto_mul_sin j
  have t4 := tendsto_cos_one d
  constructor
  · have := ((t4.const_mul (Real.sin (Real.pi * d))).mul (t3.pow 2)).neg.div (((t0.const_mul 2).mul t1).mul t2) (by
      simp only [ne_eq, mul_eq_zero, OfNat.ofNat_ne_zero, false_or, not_or]
      exact ⟨⟨⟨hpi, h0⟩, hpi, hp⟩, hpi, hm⟩)
    have hlim : -(Real.sin (Real.pi * d) * 1 * (Real.pi * (j : ℝ)) ^ 2) / (2 * (Real.pi * d) * (Real.pi * (d + j)) * (Real.pi * (d - j))) = -(Real.sin (Real.pi * d) * j ^ 2) / (2 * Real.pi * (d * (d ^ 2 - j ^ 2))) := by
      have : d ^ 2 - (j : ℝ) ^ 2 = (d + j) * (d - j) := by ring
      rw [this]
      field_simp
    rw [hlim] at this
    refine this.congr' ?_
    filter_upwards [eventually_gt_atTop 0, t0.eventually_ne (mul_ne_zero hpi h0), t1.eventually_ne (mul_ne_zero hpi hp), t2.eventually_ne (mul_ne_zero hpi hm)] with N hN n0 n1 n2
    have hN' : (N : ℝ) ≠ 0 := by exact_mod_cast hN.ne'
    rw [lobe, show 2 * d / N / 2 + (j : ℝ) / N = (d + j) / N by ring, show 2 * d / N / 2 - (j : ℝ) / N = (d - j) / N by ring, show 2 * d / N / 2 = d / N by ring, show 2 * d / N * N / 2 = d by field_simp]
    have n0' := right_ne_zero_of_mul n0
    have n1' := right_ne_zero_of_mul n1
    have n2' := right_ne_zero_of_mul n2
    simp only [Pi.div_apply]
    field_simp
  · filter_upwards [t0.eventually_ne (mul_ne_zero hpi h0), t1.eventually_ne (mul_ne_zero hpi hp), t2.eventually_ne (mul_ne_zero hpi hm)] with N n0 n1 n2
    refine ⟨?_, ?_, ?_⟩
    · rw [show 2 * d / N / 2 = d / N by ring]; exact right_ne_zero_of_mul n0
    · rw [show 2 * d / N / 2 + (j : ℝ) / N = (d + j) / N by ring]; exact right_ne_zero_of_mul n1
    · rw [show 2 * d / N / 2 - (j : ℝ) / N = (d - j) / N by ring]; exact right_ne_zero_of_mul n2

theorem tendsto_pedestal (d : ℝ) (h0 : d ≠ 0) : Tendsto (fun N : ℕ => pedestal N (2 * d / N) / N) atTop (𝓝 (Real.sin (Real.pi * d) / (Real.pi * d))) := by
  have t0 := tendsto_mul_sin d
  have t1 : Tendsto (fun N : ℕ => Real.sin (Real.pi * (d + d / N))) atTop (𝓝 (Real.sin (Real.pi * d))) := by
    have : Tendsto (fun N : ℕ => Real.pi * (d + d / N)) atTop (𝓝 (Real.pi * d)) := by simpa using ((tendsto_const_div_atTop_nhds_zero_nat d).const_add d).const_mul Real.pi
    exact (Real.continuous_sin.tendsto _).comp this
  refine (t1.div t0 (mul_ne_zero Real.pi_ne_zero h0)).congr' ?_
  filter_upwards [eventually_gt_atTop 0] with N hN
  have hN' : (N : ℝ) ≠ 0 := by exact_mod_cast hN.ne'
  rw [pedestal, show 2 * d / N / 2 = d / N by ring, show 2 * d / N * (N + 1) / 2 = d + d / N by field_simp, div_div, Pi.div_apply, mul_comm (N : ℝ)]

/-- C144: the leakage of long normalised windows at a distance of `d` steps. -/
theorem C144_limit (style : WStyle) (w : ℕ → Window) (hw : ∀ N : ℕ, N ≥ 3 → Window.new (some style) N true = .ok (some (w N))) (d : ℝ) (h0 : d ≠ 0) (h1 : d ^ 2 ≠ 1) :
    (style = .hann → Tendsto (fun N : ℕ => ‖windowResponse ((w N).b.map (↑)) (2 * d / N)‖) atTop (𝓝 |Real.sin (Real.pi * d) / (Real.pi * d) * (1 / (d ^ 2 - 1))|)) ∧
    (style = .hamming → Tendsto (fun N : ℕ => ‖windowResponse ((w N).b.map (↑)) (2 * d / N)‖) atTop (𝓝 |Real.sin (Real.pi * d) / (Real.pi * d) * ((0.08 - 0.46 / (d ^ 2 - 1)) / 0.54)|)) ∧
    (style = .blackman → d ^ 2 ≠ 4 → Tendsto (fun N : ℕ => ‖windowResponse ((w N).b.map (↑)) (2 * d / N)‖) atTop (𝓝 |Real.sin (Real.pi * d) / (Real.pi * d) * ((0.32 / (d ^ 2 - 4) - 0.5 / (d ^ 2 - 1)) / 0.42)|)) := by
  obtain ⟨l1, r1⟩ := tendsto_lobe 1 d h0 (by simpa using h1)
  have hd1 : d ^ 2 - 1 ≠ 0 := sub_ne_zero.mpr h1
  have hpi := Real.pi_ne_zero
  refine ⟨?_, ?_, ?_⟩
  · rintro rfl
    have := (l1.const_mul 2).abs
    rw [show 2 * (-(Real.sin (Real.pi * d) * ((1 : ℕ) : ℝ) ^ 2) / (2 * Real.pi * (d * (d ^ 2 - ((1 : ℕ) : ℝ) ^ 2)))) = -(Real.sin (Real.pi * d) / (Real.pi * d) * (1 / (d ^ 2 - 1))) by push_cast; field_simp, abs_neg] at this
    refine this.congr' ?_
    filter_upwards [eventually_ge_atTop 3, r1] with N hN hr
    have hN' : (N : ℝ) ≠ 0 := by exact_mod_cast (by omega : N ≠ 0)
    rw [C144_hann N (by omega) (w N) (hw N hN) _ hr, norm_mul, phasor_norm, one_mul, Complex.norm_real, Real.norm_eq_abs]
    congr 1
    field_simp
  · rintro rfl
    have hn : Tendsto (fun N : ℕ => (0.54 : ℝ) + 0.08 / N) atTop (𝓝 0.54) := by simpa using (tendsto_const_div_atTop_nhds_zero_nat (0.08 : ℝ)).const_add 0.54
    have := ((((tendsto_pedestal d h0).const_mul 0.08).add (l1.const_mul 0.92)).div hn (by norm_num)).abs
    rw [show (0.08 * (Real.sin (Real.pi * d) / (Real.pi * d)) + 0.92 * (-(Real.sin (Real.pi * d) * ((1 : ℕ) : ℝ) ^ 2) / (2 * Real.pi * (d * (d ^ 2 - ((1 : ℕ) : ℝ) ^ 2))))) / 0.54 =
      Real.sin (Real.pi * d) / (Real.pi * d) * ((0.08 - 0.46 / (d ^ 2 - 1)) / 0.54) by push_cast; field_simp; ring] at this
    refine this.congr' ?_
    filter_upwards [eventually_ge_atTop 3, r1] with N hN hr
    have hN0 : (0 : ℝ) < N := by exact_mod_cast (by omega : 0 < N)
    rw [C144_hamming N (by omega) (w N) (hw N hN) _ hr, norm_mul, phasor_norm, one_mul, Complex.norm_real, Real.norm_eq_abs]
    congr 1
    have : (0 : ℝ) < 0.54 * N + 0.08 := by positivity
    simp only [Pi.div_apply]
    field_simp
  · rintro rfl h2
    have hd2 : d ^ 2 - 4 ≠ 0 := sub_ne_zero.mpr h2
    obtain ⟨l2, r2⟩ := tendsto_lobe 2 d h0 (by push_cast; norm_num; exact h2)
    have := ((l1.sub (l2.const_mul 0.16)).div_const 0.42).abs
    rw [show (-(Real.sin (Real.pi * d) * ((1 : ℕ) : ℝ) ^ 2) / (2 * Real.pi * (d * (d ^ 2 - ((1 : ℕ) : ℝ) ^ 2))) - 0.16 * (-(Real.sin (Real.pi * d) * ((2 : ℕ) : ℝ) ^ 2) / (2 * Real.pi * (d * (d ^ 2 - ((2 : ℕ) : ℝ) ^ 2))))) / 0.42 =
      Real.sin (Real.pi * d) / (Real.pi * d) * ((0.32 / (d ^ 2 - 4) - 0.5 / (d ^ 2 - 1)) / 0.42) by push_cast; rw [show (2 : ℝ) ^ 2 = 4 by norm_num]; field_simp; ring] at this
    refine this.congr' ?_
    filter_upwards [eventually_ge_atTop 3, r1, r2] with N hN hr hr2
    have hN0 : (0 : ℝ) < N := by exact_mod_cast (by omega : 0 < N)
    rw [C144_blackman N (by omega) (w N) (hw N hN) _ hr hr2, norm_mul, phasor_norm, one_mul, Complex.norm_real, Real.norm_eq_abs]
    congr 1
    field_simp

/-- C144: the windows compared, as the documentation does.  Next to the main lobe a long Hamming window leaks less than half as much as Hann; from four steps on it leaks more; Blackman leaks less than half as
much as Hann from three steps on.  (`d` is no whole number: there Hann has its zeros.) -/
theorem C144_compare (a b c : ℕ → Window) (ha : ∀ N : ℕ, N ≥ 3 → Window.new (some .hann) N true = .ok (some (a N))) (hb : ∀ N : ℕ, N ≥ 3 → Window.new (some .hamming) N true = .ok (some (b N)))
    (hc : ∀ N : ℕ, N ≥ 3 → Window.new (some .blackman) N true = .ok (some (c N))) (d : ℝ) (hd : ∀ n : ℤ, d ≠ n) :
    (2 < d → d < 3 → ∀ᶠ N : ℕ in atTop, ‖windowResponse ((b N).b.map (↑)) (2 * d / N)‖ < 0.41 * ‖windowResponse ((a N).b.map (↑)) (2 * d / N)‖) ∧
    (4 < d → ∀ᶠ N : ℕ in atTop, ‖windowResponse ((a N).b.map (↑)) (2 * d / N)‖ < 0.75 * ‖windowResponse ((b N).b.map (↑)) (2 * d / N)‖) ∧
    (3 < d → ∀ᶠ N : ℕ in atTop, ‖windowResponse ((c N).b.map (↑)) (2 * d / N)‖ < 0.43 * ‖windowResponse ((a N).b.map (↑)) (2 * d / N)‖) := by
  have hs : 0 < d → 0 < |Real.sin (Real.pi * d) / (Real.pi * d)| := by
    intro h0
    rw [abs_pos]
    refine div_ne_zero (fun h => ?_) (mul_ne_zero Real.pi_ne_zero h0.ne')
    obtain ⟨n, hn⟩ := Real.sin_eq_zero_iff.mp h
    exact hd n (mul_right_cancel₀ Real.pi_ne_zero (by rw [hn]; ring))
  refine ⟨fun h2 h3 => ?_, fun h4 => ?_, fun h3 => ?_⟩
  · have h0 : d ≠ 0 := by linarith
    have h1 : 0 < d ^ 2 - 1 := by nlinarith
    have hA := (C144_limit .hann a ha d h0 (by linarith)).1 rfl
    have hB := (C144_limit .hamming b hb d h0 (by linarith)).2.1 rfl
    refine hB.eventually_lt (hA.const_mul 0.41) ?_
    have := hs (by linarith)
    rw [abs_mul, abs_mul, ← mul_assoc, mul_comm 0.41, mul_assoc]
    refine mul_lt_mul_of_pos_left ?_ this
    rw [abs_of_pos (by positivity : 0 < 1 / (d ^ 2 - 1)), abs_div, abs_of_pos (by norm_num : (0 : ℝ) < 0.54), div_lt_iff₀ (by norm_num), abs_lt]
    have e1 : 0.46 / (d ^ 2 - 1) = 0.46 * (1 / (d ^ 2 - 1)) := by ring
    have e2 : (d ^ 2 - 1) * (1 / (d ^ 2 - 1)) = 1 := by field_simp
    have e3 : 0 < 1 / (d ^ 2 - 1) := by positivity
    have e4 : 3 * (1 / (d ^ 2 - 1)) < 1 := by nlinarith
    have e5 : 1 < 8 * (1 / (d ^ 2 - 1)) := by nlinarith
    rw [e1]
    constructor <;> linarith
  · have h0 : d ≠ 0 := by linarith
    have h1 : 0 < d ^ 2 - 1 := by nlinarith
    have hA := (C144_limit .hann a ha d h0 (by linarith)).1 rfl
    have hB := (C144_limit .hamming b hb d h0 (by linarith)).2.1 rfl
    refine hA.eventually_lt (hB.const_mul 0.75) ?_
    have := hs (by linarith)
    rw [abs_mul, abs_mul, ← mul_assoc, mul_comm 0.75, mul_assoc]
    refine mul_lt_mul_of_pos_left ?_ this
    have e1 : 0.46 / (d ^ 2 - 1) = 0.46 * (1 / (d ^ 2 - 1)) := by ring
    have e2 : (d ^ 2 - 1) * (1 / (d ^ 2 - 1)) = 1 := by field_simp
    have e3 : 0 < 1 / (d ^ 2 - 1) := by positivity
    have e4 : 15 * (1 / (d ^ 2 - 1)) < 1 := by nlinarith
    rw [abs_of_pos e3, e1]
    clear e1 e2 hA hB
    generalize 1 / (d ^ 2 - 1) = t at *
    rw [abs_of_pos (div_pos (by linarith) (by norm_num)), mul_div_assoc', lt_div_iff₀ (by norm_num)]
    linarith
  · have h0 : d ≠ 0 := by linarith
    have h1 : 0 < d ^ 2 - 1 := by nlinarith
    have h4 : 0 < d ^ 2 - 4 := by nlinarith
    have hA := (C144_limit .hann a ha d h0 (by linarith)).1 rfl
    have hC := (C144_limit .blackman c hc d h0 (by linarith)).2.2 rfl (by linarith)
    refine hC.eventually_lt (hA.const_mul 0.43) ?_
    have := hs (by linarith)
    rw [abs_mul, abs_mul, ← mul_assoc, mul_comm 0.43, mul_assoc]
    refine mul_lt_mul_of_pos_left ?_ this
    rw [abs_of_pos (by positivity : 0 < 1 / (d ^ 2 - 1)), abs_div, abs_of_pos (by norm_num : (0 : ℝ) < 0.42), div_lt_iff₀ (by norm_num), abs_lt]
    have e : 0.32 / (d ^ 2 - 4) - 0.5 / (d ^ 2 - 1) = (1.68 - 0.18 * d ^ 2) / (d ^ 2 - 4) * (1 / (d ^ 2 - 1)) := by
      field_simp
      ring
    have e3 : 0 < 1 / (d ^ 2 - 1) := by positivity
    rw [e]
    constructor
    · rw [show -(0.43 * (1 / (d ^ 2 - 1)) * 0.42) = (-0.1806) * (1 / (d ^ 2 - 1)) by ring]
      refine mul_lt_mul_of_pos_right ?_ e3
      rw [lt_div_iff₀ h4]
      nlinarith
    · rw [show 0.43 * (1 / (d ^ 2 - 1)) * 0.42 = 0.1806 * (1 / (d ^ 2 - 1)) by ring]
      refine mul_lt_mul_of_pos_right ?_ e3
      rw [div_lt_iff₀ h4]
      nlinarith

/-- The windows of `C144_limit` exist, and two and a half steps are between whole numbers. -/
example : (∃ a : ℕ → Window, ∀ N : ℕ, N ≥ 3 → Window.new (some .hann) N true = .ok (some (a N))) ∧ ∀ n : ℤ, (5 / 2 : ℝ) ≠ n := by
  constructor
  · have h : ∀ N : ℕ, ∃ w, N ≥ 3 → Window.new (some .hann) N true = .ok (some w) := by
      intro N
      by_cases hN : N ≥ 3
      · obtain ⟨w, hw, -⟩ := C39_window_normal .hann N (by rintro ⟨-, h⟩; omega)
        exact ⟨w, fun _ => hw⟩
      · exact ⟨⟨[]⟩, fun h => absurd h hN⟩
    choose a ha using h
    exact ⟨a, ha⟩
  · intro n h
    have : (5 : ℝ) = 2 * n := by linarith
    have : (5 : ℤ) = 2 * n := by exact_mod_cast this
    omega

/-- Concrete case of `C144_zeros`: order 8, three steps away. -/
example : ¬ ((8 : ℕ) : ℤ) ∣ 3 ∧ ¬ ((8 : ℕ) : ℤ) ∣ 3 + 1 ∧ ¬ ((8 : ℕ) : ℤ) ∣ 3 - 1 := by decide

end Verif.Props
