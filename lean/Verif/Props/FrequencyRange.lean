import Verif.Props.Selectivity

/- Property C103: the estimate of ComplexFrequencyFilter (diamondback/filters/complex_frequency_filter.py) is an average of instantaneous frequencies. -/

namespace Verif.Props

open Finset Spec Complex

/-- The complex numbers with an angle between `lo` and `hi` half turns. -/
def Sector (lo hi : ℝ) (z : ℂ) : Prop := ∃ ρ w : ℝ, 0 < ρ ∧ lo ≤ w ∧ w ≤ hi ∧ z = ρ * phasor w

theorem phasor_eq (t : ℝ) : phasor t = (Real.cos (Real.pi * t) : ℂ) + (Real.sin (Real.pi * t) : ℂ) * I := by
  rw [phasor, show I * (Real.pi : ℂ) * t = ((Real.pi * t : ℝ) : ℂ) * I by push_cast; ring, Complex.exp_mul_I]
  push_cast; rfl

theorem phasor_re (t : ℝ) : (phasor t).re = Real.cos (Real.pi * t) := by rw [phasor_eq]; simp only [Complex.add_re, Complex.ofReal_re, Complex.mul_re, Complex.ofReal_im, Complex.I_re, Complex.I_im]; ring

theorem phasor_im (t : ℝ) : (phasor t).im = Real.sin (Real.pi * t) := by rw [phasor_eq]; simp only [Complex.add_im, Complex.ofReal_re, Complex.mul_im, Complex.ofReal_im, Complex.I_re, Complex.I_im]; ring

/-- A sector of less than half a turn by linear inequalities. -/
theorem sector_iff (lo hi : ℝ) (h1 : lo ≤ hi) (h2 : hi - lo < 1) (z : ℂ) :
    Sector lo hi z ↔ 0 ≤ (z * phasor (-lo)).im ∧ (z * phasor (-hi)).im ≤ 0 ∧ 0 < (z * phasor (-((lo + hi) / 2))).re := by
  have hpi := Real.pi_pos
  constructor
  · rintro ⟨ρ, w, hρ, hl, hh, rfl⟩
    simp only [mul_assoc, ← phasor_add, Complex.im_ofReal_mul, Complex.re_ofReal_mul, phasor_im, phasor_re]
    refine ⟨mul_nonneg hρ.le (Real.sin_nonneg_of_nonneg_of_le_pi ?_ ?_), ?_, mul_pos hρ (Real.cos_pos_of_mem_Ioo ⟨?_, ?_⟩)⟩
    · exact mul_nonneg hpi.le (by linarith)
    · nlinarith
    · refine mul_nonpos_of_nonneg_of_nonpos hρ.le (Real.sin_nonpos_of_nonpos_of_neg_pi_le ?_ ?_)
      · exact mul_nonpos_of_nonneg_of_nonpos hpi.le (by linarith)
      · nlinarith
    · nlinarith
    · nlinarith
  · rintro ⟨g1, g2, g3⟩
    have hz : z ≠ 0 := by rintro rfl; simp at g3
    obtain ⟨m, hm⟩ : ∃ m, m = (lo + hi) / 2 := ⟨_, rfl⟩
    rw [← hm] at g3
    -- the angle of `z` seen from the middle
    obtain ⟨u, hu⟩ : ∃ u, u = (z * phasor (-m)).arg / Real.pi := ⟨_, rfl⟩
    have hρ : 0 < ‖z‖ := norm_pos_iff.mpr hz
    have hzm : z = ‖z‖ * phasor (m + u) := by
      have e := Complex.norm_mul_exp_arg_mul_I (z * phasor (-m))
      rw [norm_mul, phasor_norm, mul_one] at e
      have e2 : cexp ((z * phasor (-m)).arg * I) = phasor u := by
        rw [hu]
        generalize (z * phasor (-m)).arg = A
        rw [phasor]; congr 1; push_cast; field_simp
      rw [e2] at e
      rw [phasor_add, mul_comm (phasor m), ← mul_assoc, e, mul_assoc, ← phasor_add, neg_add_cancel, phasor_zero, mul_one]
    have hu2 : |u| < 1 / 2 := by
      have := Complex.abs_arg_lt_pi_div_two_iff.mpr (.inl g3)
      rw [hu, abs_div, abs_of_pos hpi, div_lt_iff₀ hpi]
      linarith
    rw [abs_lt] at hu2
    rw [hzm] at g1 g2
    simp only [mul_assoc, ← phasor_add, Complex.im_ofReal_mul, phasor_im] at g1 g2
    refine ⟨‖z‖, m + u, hρ, ?_, ?_, hzm⟩
    · by_contra hc
      have : Real.sin (Real.pi * (m + u + -lo)) < 0 := by
        apply Real.sin_neg_of_neg_of_neg_pi_lt
        · exact mul_neg_of_pos_of_neg hpi (by linarith)
        · nlinarith
      nlinarith
    · by_contra hc
      have : 0 < Real.sin (Real.pi * (m + u + -hi)) := by
        apply Real.sin_pos_of_pos_of_lt_pi
        · exact mul_pos hpi (by linarith)
        · nlinarith
      nlinarith

theorem sector_add (lo hi : ℝ) (h1 : lo ≤ hi) (h2 : hi - lo < 1) (z w : ℂ) (hz : Sector lo hi z) (hw : Sector lo hi w) : Sector lo hi (z + w) := by
  rw [sector_iff lo hi h1 h2] at *
  simp only [add_mul, Complex.add_im, Complex.add_re]
  exact ⟨by linarith [hz.1, hw.1], by linarith [hz.2.1, hw.2.1], by linarith [hz.2.2, hw.2.2]⟩

theorem sector_smul (lo hi : ℝ) (z : ℂ) (hz : Sector lo hi z) (r : ℝ) (hr : 0 < r) : Sector lo hi (r * z) := by
  obtain ⟨ρ, w, hρ, hl, hh, rfl⟩ := hz
  exact ⟨r * ρ, w, mul_pos hr hρ, hl, hh, by push_cast; ring⟩

theorem sector_arg (lo hi : ℝ) (h1 : -1 < lo) (h2 : hi ≤ 1) (z : ℂ) (hz : Sector lo hi z) : lo ≤ z.arg / Real.pi ∧ z.arg / Real.pi ≤ hi := by
  obtain ⟨ρ, w, hρ, hl, hh, rfl⟩ := hz
  rw [Complex.arg_real_mul _ hρ, phasor_arg w (by linarith) (by linarith)]
  exact ⟨hl, hh⟩

/-- The coefficient after `n` samples, for a unit state. -/
theorem FreqF.average (f : FreqF) (xs : List ℂ) (hs : ‖f.s‖ = 1) (hx : ∀ x ∈ xs, ‖x‖ = 1) (n : ℕ) (hn : n ≤ xs.length) :
    (FreqF.afterN f xs n).s = at0 (f.s :: xs) n ∧ (FreqF.afterN f xs n).b =
      (1 - f.rate) ^ n * f.b + ∑ i ∈ range n, f.rate * (1 - f.rate) ^ (n - 1 - i) * (at0 xs i * (starRingEnd ℂ) (at0 (f.s :: xs) i)) := by
  induction n with
  | zero => simp [FreqF.afterN, at0]
  | succ n ih =>
    obtain ⟨i1, i2⟩ := ih (by omega)
    have hn' : n < xs.length := by omega
    rw [FreqF.afterN_succ f xs n hn']
    have hat : at0 xs n = xs[n] := by simp [at0, hn']
    have hu : ‖at0 (f.s :: xs) n‖ = 1 := by
      rcases n with _ | n
      · exact hs
      · have : at0 (f.s :: xs) (n + 1) = xs[n] := by simp [at0, show n < xs.length by omega]
        rw [this]; exact hx _ (List.getElem_mem _)
    refine ⟨?_, ?_⟩
    · simp only [FreqF.step]
      rw [← hat]; rfl
    · simp only [FreqF.step]
      rw [FreqF.afterN_rate, i1, ← hat, sum_range_succ]
      have hs1 : ∀ i ∈ range n, (f.rate : ℂ) * (1 - f.rate) ^ (n + 1 - 1 - i) * (at0 xs i * (starRingEnd ℂ) (at0 (f.s :: xs) i)) =
          (1 - f.rate) * (f.rate * (1 - f.rate) ^ (n - 1 - i) * (at0 xs i * (starRingEnd ℂ) (at0 (f.s :: xs) i))) := by
        intro i hi
        have hi := mem_range.mp hi
        rw [show n + 1 - 1 - i = n - 1 - i + 1 by omega, pow_succ]; ring
      rw [sum_congr rfl hs1, ← mul_sum, show n + 1 - 1 - n = 0 by omega]
      have hc := mul_conj_of_norm_one _ hu
      generalize at0 (f.s :: xs) n = s at *
      generalize ∑ i ∈ range n, (f.rate : ℂ) * (1 - f.rate) ^ (n - 1 - i) * (at0 xs i * (starRingEnd ℂ) (at0 (f.s :: xs) i)) = S at *
      rw [i2]
      linear_combination (-f.rate * ((1 - f.rate) ^ n * f.b + S)) * hc

/-- The instantaneous frequency between two samples: the angle from one to the next, in half turns. -/
noncomputable def instantaneous (p q : ℂ) : ℝ := (q * (starRingEnd ℂ) p).arg / Real.pi

theorem phasor_angle (z : ℂ) (hz : z ≠ 0) : phasor (z.arg / Real.pi) = z / ‖z‖ := by
  have e := Complex.norm_mul_exp_arg_mul_I z
  have hn : (‖z‖ : ℂ) ≠ 0 := by exact_mod_cast norm_ne_zero_iff.mpr hz
  have hpi : (Real.pi : ℂ) ≠ 0 := by exact_mod_cast Real.pi_ne_zero
  have h : phasor (z.arg / Real.pi) = Complex.exp (z.arg * Complex.I) := by
    generalize z.arg = A
    rw [phasor]; congr 1; push_cast; field_simp
  rw [eq_div_iff hn, mul_comm, h, e]

theorem normalise_big (d : ℂ) (h : 1e-8 < ‖d‖) : normalise d = d / ‖d‖ := by rw [normalise, if_neg (not_le.mpr h)]

theorem instantaneous_phasor (p q : ℂ) (hp : 1e-8 < ‖p‖) (hq : 1e-8 < ‖q‖) : normalise q * (starRingEnd ℂ) (normalise p) = phasor (instantaneous p q) := by
  have hp0 : p ≠ 0 := by intro h; rw [h, norm_zero] at hp; norm_num at hp
  have hq0 : q ≠ 0 := by intro h; rw [h, norm_zero] at hq; norm_num at hq
  rw [normalise_big p hp, normalise_big q hq, instantaneous, phasor_angle _ (mul_ne_zero hq0 (by simpa using hp0)), map_div₀, Complex.conj_ofReal, norm_mul, Complex.norm_conj]
  push_cast
  rw [div_mul_div_comm]

/-- C103: the coefficient is the exponentially weighted average of the phasors of the instantaneous frequencies, and the estimate its angle. -/
theorem C103_average (hilbert : List ℂ → List ℂ) (f : FreqF) (hs : ‖f.s‖ = 1) (d : List ℂ) (hd : d ≠ []) (hp : ∀ v ∈ prepare hilbert d, 1e-8 < ‖v‖) :
    ∃ out f', f.filter hilbert d = (.ok out, f') ∧ out.length = (prepare hilbert d).length ∧ ∀ n < (prepare hilbert d).length, ∃ y e b, out[n]? = some (y, e, b) ∧ y = b.arg / Real.pi ∧
      b = (1 - f.rate) ^ n * f.b + ∑ i ∈ range n, f.rate * (1 - f.rate) ^ (n - 1 - i) * phasor (instantaneous (at0 (f.s :: prepare hilbert d) i) (at0 (prepare hilbert d) i)) := by
  have hl : ¬ d.length = 0 := by simpa using hd
  set q := prepare hilbert d with hq
  obtain ⟨out, h1, h2, h3⟩ := FreqF.run (q.map normalise) f
  refine ⟨out, _, by simp only [FreqF.filter, hl, if_false, ← hq]; exact h1, by simpa using h2, fun n hn => ⟨_, _, _, h3 n (by simpa using hn), rfl, ?_⟩⟩
  have hx : ∀ x ∈ q.map normalise, ‖x‖ = 1 := by
    intro x hx
    obtain ⟨v, hv, rfl⟩ := List.mem_map.mp hx
    have := hp v hv
    rw [normalise_big v this, norm_div, Complex.norm_real, norm_norm, div_self]
    intro h; rw [h] at this; norm_num at this
  have := (FreqF.average f (q.map normalise) hs hx n (by simp; omega)).2
  rw [FreqF.afterN] at this
  rw [this]
  congr 1
  apply sum_congr rfl
  intro i hi
  have hi := mem_range.mp hi
  congr 1
  have hiq : i < q.length := by omega
  have e1 : at0 (q.map normalise) i = normalise (at0 q i) := by simp [at0, hiq]
  have e2 : at0 (f.s :: q.map normalise) i = normalise (at0 (f.s :: q) i) ∧ 1e-8 < ‖at0 (f.s :: q) i‖ := by
    rcases i with _ | i
    · show f.s = normalise f.s ∧ 1e-8 < ‖f.s‖
      have : (1e-8 : ℝ) < ‖f.s‖ := by rw [hs]; norm_num
      exact ⟨by rw [normalise_big _ this, hs]; simp, this⟩
    · have h' : i < q.length := by omega
      refine ⟨by simp [at0, h'], ?_⟩
      have : at0 (f.s :: q) (i + 1) = q[i] := by simp [at0, h']
      rw [this]; exact hp _ (List.getElem_mem _)
  rw [e1, e2.1, instantaneous_phasor _ _ e2.2]
  have : at0 q i = q[i] := by simp [at0, hiq]
  rw [this]; exact hp _ (List.getElem_mem _)

theorem instantaneous_one (w : ℝ) (h1 : -1 < w) (h2 : w ≤ 1) (p : ℝ) : instantaneous (phasor p) (phasor (p + w)) = w := by
  have e : phasor (p + w) * (starRingEnd ℂ) (phasor p) = phasor w := by
    rw [phasor_conj, ← phasor_add]; congr 1; ring
  have := sector_arg w w h1 h2 (phasor w) ⟨1, w, one_pos, le_refl _, le_refl _, by simp⟩
  rw [instantaneous, e]
  exact le_antisymm this.2 this.1

/-- Two samples of a tone that speeds up: after the quarter of a half turn comes a half of one. -/
noncomputable def chirp : List ℂ := [phasor (1 / 4), phasor (3 / 4)]

theorem chirp_prepare (hilbert : List ℂ → List ℂ) : prepare hilbert chirp = chirp := by
  rw [prepare, if_pos]
  refine ⟨phasor (1 / 4), by simp [chirp], ?_⟩
  rw [phasor_im]
  exact (Real.sin_pos_of_pos_of_lt_pi (by positivity) (by have := Real.pi_pos; linarith)).ne'

theorem chirp_big (hilbert : List ℂ → List ℂ) : ∀ v ∈ prepare hilbert chirp, 1e-8 < ‖v‖ := by
  rw [chirp_prepare]
  intro v hv
  simp only [chirp, List.mem_cons, List.not_mem_nil, or_false] at hv
  rcases hv with rfl | rfl <;> rw [phasor_norm] <;> norm_num

-- the hypotheses of C103_average hold for this signal
example (hilbert : List ℂ → List ℂ) : ∃ out f', ({ rate := 1 / 2, b := phasor (1 / 3), s := 1, frequency := 0 } : FreqF).filter hilbert chirp = (.ok out, f') ∧ out.length = 2 := by
  obtain ⟨out, f', h1, h2, -⟩ := C103_average hilbert { rate := 1 / 2, b := phasor (1 / 3), s := 1, frequency := 0 } (by simp) chirp (by simp [chirp]) (chirp_big hilbert)
  exact ⟨out, f', h1, by rw [h2, chirp_prepare]; rfl⟩

/-- C103: estimates stay between the smallest and the largest of the instantaneous frequencies and the starting value, if these lie within less than half a turn. -/
theorem C103_range (hilbert : List ℂ → List ℂ) (f : FreqF) (hs : ‖f.s‖ = 1) (h0 : 0 ≤ f.rate) (h1 : f.rate ≤ 1) (d : List ℂ) (hd : d ≠ []) (hp : ∀ v ∈ prepare hilbert d, 1e-8 < ‖v‖)
    (lo hi ρ v : ℝ) (hlo : -1 < lo) (hhi : hi ≤ 1) (hw : hi - lo < 1) (hρ : 0 < ρ) (hv : lo ≤ v ∧ v ≤ hi) (hb : f.b = ρ * phasor v)
    (hin : ∀ i < (prepare hilbert d).length, lo ≤ instantaneous (at0 (f.s :: prepare hilbert d) i) (at0 (prepare hilbert d) i) ∧
      instantaneous (at0 (f.s :: prepare hilbert d) i) (at0 (prepare hilbert d) i) ≤ hi) :
    ∃ out f', f.filter hilbert d = (.ok out, f') ∧ out.length = (prepare hilbert d).length ∧ ∀ t ∈ out, lo ≤ t.1 ∧ t.1 ≤ hi := by
  obtain ⟨out, f', g1, g2, g3⟩ := C103_average hilbert f hs d hd hp
  refine ⟨out, f', g1, g2, fun t ht => ?_⟩
  obtain ⟨n, hn, rfl⟩ := List.mem_iff_getElem.mp ht
  obtain ⟨y, e, b, k1, k2, k3⟩ := g3 n (by omega)
  rw [List.getElem?_eq_getElem hn] at k1
  rw [Option.some.inj k1, k2]
  apply sector_arg lo hi hlo hhi
  have hlh : lo ≤ hi := hv.1.trans hv.2
  rw [k3]
  have key : ∀ n, n ≤ (prepare hilbert d).length → Sector lo hi ((1 - f.rate) ^ n * f.b + ∑ i ∈ range n, f.rate * (1 - f.rate) ^ (n - 1 - i) *
      phasor (instantaneous (at0 (f.s :: prepare hilbert d) i) (at0 (prepare hilbert d) i))) := by
    intro n
    induction n with
    | zero => intro _; simp only [pow_zero, one_mul, range_zero, sum_empty, add_zero]; exact ⟨ρ, v, hρ, hv.1, hv.2, hb⟩
    | succ n ih =>
      intro hn
      have ih := ih (by omega)
      set S := (1 - (f.rate : ℂ)) ^ n * f.b + ∑ i ∈ range n, f.rate * (1 - f.rate) ^ (n - 1 - i) * phasor (instantaneous (at0 (f.s :: prepare hilbert d) i) (at0 (prepare hilbert d) i)) with hS
      have e : (1 - (f.rate : ℂ)) ^ (n + 1) * f.b + ∑ i ∈ range (n + 1), f.rate * (1 - f.rate) ^ (n + 1 - 1 - i) * phasor (instantaneous (at0 (f.s :: prepare hilbert d) i) (at0 (prepare hilbert d) i)) =
          ((1 - f.rate : ℝ) : ℂ) * S + (f.rate : ℂ) * phasor (instantaneous (at0 (f.s :: prepare hilbert d) n) (at0 (prepare hilbert d) n)) := by
        rw [sum_range_succ, hS, mul_add, mul_sum]
        have hs1 : ∀ i ∈ range n, (f.rate : ℂ) * (1 - f.rate) ^ (n + 1 - 1 - i) * phasor (instantaneous (at0 (f.s :: prepare hilbert d) i) (at0 (prepare hilbert d) i)) =
            ((1 - f.rate : ℝ) : ℂ) * (f.rate * (1 - f.rate) ^ (n - 1 - i) * phasor (instantaneous (at0 (f.s :: prepare hilbert d) i) (at0 (prepare hilbert d) i))) := by
          intro i hi
          have hi := mem_range.mp hi
          rw [show n + 1 - 1 - i = n - 1 - i + 1 by omega, pow_succ]; push_cast; ring
        rw [sum_congr rfl hs1, show n + 1 - 1 - n = 0 by omega]
        push_cast; ring
      rw [e]
      have hnew : Sector lo hi (phasor (instantaneous (at0 (f.s :: prepare hilbert d) n) (at0 (prepare hilbert d) n))) :=
        ⟨1, _, one_pos, (hin n (by omega)).1, (hin n (by omega)).2, by simp⟩
      rcases eq_or_lt_of_le h0 with hr | hr
      · rw [← hr]; simpa using ih
      rcases eq_or_lt_of_le h1 with hr1 | hr1
      · rw [hr1]; simpa using hnew
      · exact sector_add lo hi hlh hw _ _ (sector_smul lo hi S ih _ (by linarith)) (sector_smul lo hi _ hnew _ hr)
  exact key n (by omega)

-- a filter tuned to a third follows the chirp without leaving the frequencies between a quarter and a half
example (hilbert : List ℂ → List ℂ) : ∃ out f', ({ rate := 1 / 2, b := phasor (1 / 3), s := 1, frequency := 0 } : FreqF).filter hilbert chirp = (.ok out, f') ∧ out.length = 2 ∧ ∀ t ∈ out, 1 / 4 ≤ t.1 ∧ t.1 ≤ 1 / 2 := by
  have h := C103_range hilbert { rate := 1 / 2, b := phasor (1 / 3), s := 1, frequency := 0 } (by simp) (by norm_num) (by norm_num) chirp (by simp [chirp]) (chirp_big hilbert)
    (1 / 4) (1 / 2) 1 (1 / 3) (by norm_num) (by norm_num) (by norm_num) one_pos (by norm_num) (by simp) ?_
  · rw [chirp_prepare] at h; exact h
  · rw [chirp_prepare]
    intro i hi
    have e0 : instantaneous 1 (phasor (1 / 4)) = 1 / 4 := by
      have := instantaneous_one (1 / 4) (by norm_num) (by norm_num) 0
      rwa [phasor_zero, zero_add] at this
    have e1 : instantaneous (phasor (1 / 4)) (phasor (3 / 4)) = 1 / 2 := by
      have := instantaneous_one (1 / 2) (by norm_num) (by norm_num) (1 / 4)
      rwa [show (1 / 4 + 1 / 2 : ℝ) = 3 / 4 by norm_num] at this
    have hi : i < 2 := hi
    obtain rfl | rfl : i = 0 ∨ i = 1 := by omega
    · show 1 / 4 ≤ instantaneous 1 (phasor (1 / 4)) ∧ instantaneous 1 (phasor (1 / 4)) ≤ 1 / 2
      rw [e0]; norm_num
    · show 1 / 4 ≤ instantaneous (phasor (1 / 4)) (phasor (3 / 4)) ∧ instantaneous (phasor (1 / 4)) (phasor (3 / 4)) ≤ 1 / 2
      rw [e1]; norm_num

/-- C103: the width of half a turn is needed: from a coefficient at three quarters, a step of minus three quarters gives the estimate one, outside of both. -/
theorem C103_wraps (hilbert : List ℂ → List ℂ) : ∃ out f', ({ rate := 1 / 2, b := phasor (3 / 4), s := 1, frequency := 0 } : FreqF).filter hilbert [phasor (-(3 / 4)), 1] = (.ok out, f') ∧
    instantaneous 1 (phasor (-(3 / 4))) = -(3 / 4) ∧ ∃ e b, out[1]? = some (1, e, b) := by
  have hpr : prepare hilbert [phasor (-(3 / 4)), 1] = [phasor (-(3 / 4)), 1] := by
    rw [prepare, if_pos]
    refine ⟨phasor (-(3 / 4)), by simp, ?_⟩
    rw [phasor_im, mul_neg, Real.sin_neg]
    have := Real.sin_pos_of_pos_of_lt_pi (x := Real.pi * (3 / 4)) (by positivity) (by have := Real.pi_pos; linarith)
    linarith
  have ei : instantaneous 1 (phasor (-(3 / 4))) = -(3 / 4) := by
    have := instantaneous_one (-(3 / 4)) (by norm_num) (by norm_num) 0
    rwa [phasor_zero, zero_add] at this
  obtain ⟨out, f', h1, -, h3⟩ := C103_average hilbert { rate := 1 / 2, b := phasor (3 / 4), s := 1, frequency := 0 } (by simp) [phasor (-(3 / 4)), 1] (by simp) (by
    rw [hpr]; intro v hv
    simp only [List.mem_cons, List.not_mem_nil, or_false] at hv
    rcases hv with rfl | rfl
    · rw [phasor_norm]; norm_num
    · norm_num)
  rw [hpr] at h3
  obtain ⟨y, e, b, k1, k2, k3⟩ := h3 1 (by simp)
  refine ⟨out, f', h1, ei, e, b, ?_⟩
  rw [k1]
  have hc : Real.cos (Real.pi * (3 / 4)) < 0 := Real.cos_neg_of_pi_div_two_lt_of_lt (by have := Real.pi_pos; linarith) (by have := Real.pi_pos; linarith)
  have hb : b = ((Real.cos (Real.pi * (3 / 4)) : ℝ) : ℂ) := by
    rw [k3, sum_range_one]
    show (1 - ((1 / 2 : ℝ) : ℂ)) ^ 1 * phasor (3 / 4) + ((1 / 2 : ℝ) : ℂ) * (1 - ((1 / 2 : ℝ) : ℂ)) ^ 0 * phasor (instantaneous 1 (phasor (-(3 / 4)))) = _
    rw [ei]
    simp only [phasor_eq, mul_neg, Real.cos_neg, Real.sin_neg]
    push_cast
    ring
  rw [hb, Complex.arg_ofReal_of_neg hc, div_self Real.pi_ne_zero] at k2
  rw [k2]

end Verif.Props
