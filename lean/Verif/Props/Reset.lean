import Verif.Model.Reset
import Verif.Props.Goertzel
import Verif.Props.Tables
import Verif.Props.Rank
import Verif.Props.Pid
import Verif.Props.Adaptive

/-!
Property C119: `reset` of the filters which inherit it (diamondback/filters/*.py).
-/

namespace Verif.Props

open Finset Spec Complex

variable {R K F : Type*}

/-- C119, RankFilter: after `reset(v)` a run of `v` is returned as it is. -/
theorem C119_rank [LinearOrder K] (argsort : List K → List ℕ) (ha : IsArgsort argsort) (key : R → K) (f : Rank R) (h0 : 0 ≤ f.index) (h1 : f.index < f.s.length)
    (v : R) (n : ℕ) (hn : 0 < n) :
    ∃ g, f.reset (.scalar v) = (.ok (), g) ∧ g.filter argsort key (List.replicate n v) = (.ok (List.replicate n v), g) := by
  refine ⟨_, rfl, ?_⟩
  set g : Rank R := { f with s := f.s.map fun _ => v } with hg
  have hgs : g.s = List.replicate f.s.length v := by simp [hg, List.map_const']
  have hstep : g.step argsort key v = (.ok v, g) := by
    obtain ⟨y, e1, e2⟩ := Rank.step_spec argsort ha key g h0 (by rw [hgs, List.length_replicate]; exact h1) v
    have hmem := e2.1
    rw [hgs] at hmem e1
    have hy : y = v := by
      rcases List.mem_cons.mp hmem with h | h
      · exact h
      · exact List.eq_of_mem_replicate (List.mem_of_mem_tail h)
    have hs : (v :: v :: (List.replicate f.s.length v).tail).take (List.replicate f.s.length v).length = g.s := by
      rw [hgs]
      apply List.ext_getElem
      · simp; omega
      · intro i a b
        rw [List.getElem_take]
        rcases i with _ | _ | i <;> simp
    rw [e1, hs, hy]
  have hloop : ∀ k, runLoop (Rank.step argsort key) g (List.replicate k v) = (.ok (List.replicate k v), g) := by
    intro k
    induction k with
    | zero => rfl
    | succ k ih => simp only [List.replicate_succ, runLoop, hstep, ih]
  unfold Rank.filter
  rw [if_neg (by simp; omega), hloop]

example (argsort : List ℚ → List ℕ) (ha : IsArgsort argsort) := C119_rank argsort ha id (⟨[4, 2, 3], 1⟩ : Rank ℚ) (by norm_num) (by norm_num) 7 3 (by norm_num)

/-- C119, DerivativeFilter: after `reset(v)` a run of `v` has the derivative zero. -/
theorem C119_derivative [Field R] [CharZero R] (D N : ℤ) (f : Fir R) (hf : Derivative.new D N = .ok f) (v : R) (n : ℕ) (hn : 0 < n) :
    ∃ g g', f.reset (.scalar v) = (.ok (), g) ∧ g.filter (List.replicate n v) = (.ok (List.replicate n 0), g') := by
  unfold Derivative.new at hf
  split at hf
  · cases hf
  · rename_i b hb
    have hsum : b.sum = 0 ∧ b ≠ [] := by
      unfold Derivative.table at hb
      split at hb <;> first | (cases hb; constructor <;> [(norm_num [scaled]); simp [scaled]]) | cases hb
    obtain ⟨f0, g, g', h1, h2, h3⟩ := C04_fir_reset_no_transient b none v n hsum.2 hn
    rw [hf] at h1
    cases h1
    rw [hsum.1, zero_mul] at h3
    exact ⟨g, g', h2, h3⟩

example (f : Fir ℚ) (hf : Derivative.new 1 2 = .ok f) := C119_derivative 1 2 f hf 5 4 (by norm_num)

/-- C119, IntegralFilter: `reset(v)` does not clear the integral.  It leaves a new filter as though a sample `v (1 - b₀)`, zeros and a sample `v` had been
filtered, after which the integral is `v`; filtering goes on from there. -/
theorem C119_integral [Field R] [CharZero R] [DecidableEq R] (N : ℕ) (f : Iir R) (hf : Integral.new (N : ℤ) = .ok f) (v : R) :
    ∃ b g ys, Integral.table (N : ℤ) = some b ∧ f.reset (.scalar v) = (.ok (), g) ∧
      f.filter (v * (1 - at0 b 0) :: List.replicate N 0 ++ [v]) = (.ok (ys ++ [v]), g) := by
  unfold Integral.new at hf
  split at hf
  · cases hf
  · rename_i b hb
    refine ⟨b, ?_⟩
    rw [hb]
    set ys : List R := (List.range (N + 1)).map fun k => v * (1 - at0 b 0) * (b.take (k + 1)).sum with hys
    have hN : N < 5 := by
      by_contra h
      unfold Integral.table at hb
      split at hb <;> first | omega | cases hb
    interval_cases N
    all_goals
      simp only [Integral.table, Nat.cast_zero, Nat.cast_one, Nat.cast_ofNat, Option.some.injEq] at hb
      subst hb
      simp [Iir.new, Fir.new, scaled, padTo] at hf
      subst hf
      refine ⟨_, ys, rfl, rfl, ?_⟩
      rw [hys]
    all_goals
      simp [List.range_succ, Iir.filter, runLoop, Iir.step, shiftRight, bcAdd, dot, at0, scaled]
    all_goals
      norm_num
    all_goals
      repeat' apply And.intro
      all_goals ring

/-- C119, PidFilter: `reset(v)` sets the integral to `v` instead of clearing it, so that a following run of `v` is integrated from there. -/
theorem C119_pid [CommRing R] [LT K] [DecidableLT K] (mag : R → K) (f : Pid R K) (hc : f.cast = id) (hl : f.limit = none) (v : R) (n : ℕ) (hn : 0 < n) :
    ∃ g y g', f.reset (.scalar v) = (.ok (), g) ∧ g.filter mag (List.replicate n v) = (.ok y, g') ∧ y.length = n ∧
      ∀ k < n, at0 y k = f.b0 * v + f.b1 * ((k + 2) * v) := by
  refine ⟨{ f with s0 := f.cast v, s1 := f.cast v, s2 := f.cast v }, ?_⟩
  obtain ⟨ys, f', h1, h2, h3⟩ := Pid.runLoop_nolimit mag (List.replicate n v) { f with s0 := f.cast v, s1 := f.cast v, s2 := f.cast v } hc hl
  refine ⟨ys, f', rfl, ?_, by simpa using h2, fun k hk => ?_⟩
  · unfold Pid.filter
    rw [if_neg (by simp; omega), h1]
  · have hat : ∀ i < n, at0 (List.replicate n v) i = v := fun i hi => by rw [at0_of_lt _ _ (by simpa using hi)]; simp
    have hsum : ∑ i ∈ range (k + 1), at0 (List.replicate n v) i = (k + 1) * v := by
      rw [sum_congr rfl (fun i hi => hat i (by have := mem_range.mp hi; omega))]
      simp
    have hprev : (if k = 0 then v else at0 (List.replicate n v) (k - 1)) = v := by
      split_ifs
      · rfl
      · exact hat _ (by omega)
    have h := h3 k (by simpa using hk)
    simp only [hc, id, hsum, hat k hk, hprev] at h
    rw [h]
    ring

/-- A filter without limit. -/
example := C119_pid (K := ℤ) (fun v : ℤ => |v|) ⟨id, 1, 2, 3, 0, 7, 0, none⟩ rfl rfl 5 4 (by norm_num)

/-- The loop of GoertzelFilter.filter up to the end of the block. -/
theorem Goertzel.loop_block [Zero R] [Add R] [Mul R] [Dot R] (u : R) (cap : ℕ) (hcap : 0 < cap) (xs : List R) :
    ∀ g : Goertzel R F, g.iir.WF → xs ≠ [] → g.index + xs.length = g.w.length →
      ∃ ys y i' g', runLoop Iir.step g.iir (weighted u (g.w.drop g.index) xs) = (.ok (ys ++ [y]), i') ∧ Goertzel.loop u cap g [] xs = (.ok [y], g') := by
  induction xs with
  | nil => intro g _ h; exact absurd rfl h
  | cons x xs ih =>
    intro g hwf _ hl
    have hlt : g.index < g.w.length := by simp at hl; omega
    obtain ⟨hw2, -, -, -⟩ := Iir.step_wf_wf g.iir hwf (u * g.w[g.index] * x)
    rcases hv : Iir.step g.iir (u * g.w[g.index] * x) with ⟨r, i2⟩
    have hst := Iir.step_wf g.iir hwf (u * g.w[g.index] * x)
    rw [hv] at hst hw2
    obtain ⟨v, rfl⟩ : ∃ v, r = .ok v := ⟨_, (Prod.mk.inj hst).1⟩
    have hfilt : Iir.filter g.iir [u * g.w[g.index] * x] = (.ok [v], i2) := by simp [Iir.filter, runLoop, hv]
    have hdrop : g.w.drop g.index = g.w[g.index] :: g.w.drop (g.index + 1) := by rw [List.drop_eq_getElem_cons hlt]
    have hwt : weighted u (g.w.drop g.index) (x :: xs) = (u * g.w[g.index] * x) :: weighted u (g.w.drop (g.index + 1)) xs := by
      rw [hdrop]; rfl
    have hwi : g.w[g.index]? = some g.w[g.index] := List.getElem?_eq_getElem hlt
    rcases xs with _ | ⟨x', xs⟩
    · have hge : g.w.length ≤ g.index + 1 := by simp at hl; omega
      refine ⟨[], v, i2, { g with iir := { i2 with s := i2.s.map (fun _ => i2.cast 0) }, index := 0 }, ?_, ?_⟩
      · rw [hwt]
        simp [weighted, runLoop, hv]
      · simp [Goertzel.loop, Goertzel.step, hwi, hfilt, hge, hcap]
    · have hge : ¬ g.w.length ≤ g.index + 1 := by simp at hl; omega
      obtain ⟨ys, y, i', g', h1, h2⟩ := ih { g with iir := i2, index := g.index + 1 } hw2 (by simp) (by simp at hl ⊢; omega)
      refine ⟨v :: ys, y, i', g', ?_, ?_⟩
      · rw [hwt, runLoop, hv]
        simp only at h1 ⊢
        rw [h1]
        rfl
      · rw [Goertzel.loop]
        have : g.step u x = (.ok none, { g with iir := i2, index := g.index + 1 }) := by
          simp [Goertzel.step, hwi, hfilt, hge]
        rw [this]
        exact h2

/-- The filter within GoertzelFilter has the impulse response `e^{jπfn}`. -/
theorem goertzel_series (f : ℝ) (v : List ℂ) (hv : v ≠ []) :
    ∃ ys f', (⟨id, [0, goertzelC f, -1], [1, -(goertzelE f), 0], [0, 0, 0]⟩ : Iir ℂ).filter v = (.ok ys, f') ∧ ys.length = v.length ∧
      ∀ k < v.length, ys[k]? = some (∑ i ∈ range (k + 1), at0 v i * cexp (I * Real.pi * f) ^ (k - i)) := by
  set i0 : Iir ℂ := ⟨id, [0, goertzelC f, -1], [1, -(goertzelE f), 0], [0, 0, 0]⟩ with hi0
  have hwf : i0.WF := ⟨by simp [hi0], by simp [hi0], by simp [hi0]⟩
  obtain ⟨ys, f', k1, k2, k3⟩ := Iir.filter_series i0 hwf rfl rfl (by simp [hi0]) v hv
  refine ⟨ys, f', k1, k2, fun k hk => ?_⟩
  rw [k3 k hk]
  set E := cexp (I * Real.pi * f) with hE
  have hE' : goertzelE f = E⁻¹ := by rw [goertzelE, hE, ← Complex.exp_neg]
  have hEne : E ≠ 0 := Complex.exp_ne_zero _
  have hEE : E * goertzelE f = 1 := by rw [hE']; exact mul_inv_cancel₀ hEne
  have hsum : E + goertzelE f = goertzelC f := by
    rw [goertzelC, goertzelE, hE, Complex.ofReal_cos, Complex.cos]
    push_cast
    rw [show I * (Real.pi : ℂ) * f = (Real.pi : ℂ) * f * I by ring,
      show -((Real.pi : ℂ) * f * I) = -((Real.pi : ℂ) * f) * I by ring]
    ring
  have hfac := ser_factor E (goertzelE f) (goertzelC f) hEE hsum
  have hb : ser i0.b = 1 - ser [0, goertzelE f] := by
    ext n
    rw [coeff_ser, map_sub, coeff_ser, PowerSeries.coeff_one]
    rcases n with _ | _ | _ | n <;> simp [hi0, at0]
  have hH : ser i0.b * recip i0.a = PowerSeries.mk (fun n => E ^ n) := by
    have hr := mul_recip i0.a (by simp [hi0, at0])
    have hg2 := geom_mul E
    have ha : (1 - ser i0.a) = (1 - ser [0, E]) * (1 - ser [0, goertzelE f]) := hfac
    rw [hb]
    rw [ha] at hr
    calc (1 - ser [0, goertzelE f]) * recip i0.a
        = ((1 - ser [0, E]) * PowerSeries.mk (fun n => E ^ n)) * ((1 - ser [0, goertzelE f]) * recip i0.a) := by
          rw [hg2, one_mul]
      _ = ((1 - ser [0, E]) * (1 - ser [0, goertzelE f]) * recip i0.a) * PowerSeries.mk (fun n => E ^ n) := by ring
      _ = _ := by rw [hr, one_mul]
  rw [← mul_assoc, hH, mul_comm, PowerSeries.coeff_mul, Finset.Nat.sum_antidiagonal_eq_sum_range_succ_mk]
  simp only [coeff_ser, PowerSeries.coeff_mk]

/-- C119, GoertzelFilter: after `reset(v)` of a new filter the value of the first block is wrong by `v e^{jπfN}`, whatever the signal.  (`f ≠ 0`: there the code
divides zero by zero.) -/
theorem C119_goertzel (w : List ℂ) (f : ℝ) (isComplex : Bool) (hw : ∃ v ∈ w, 1e-8 < ‖v‖) (hf : -1 ≤ f ∧ f ≤ 1) (_hf0 : f ≠ 0) (v : ℂ) (x : List ℂ)
    (hx : x.length = w.length) :
    ∃ g g1 y g', Goertzel.new w f = .ok g ∧ g.reset (.scalar v) = (.ok (), g1) ∧ g1.filter (goertzelGain isComplex) x = (.ok [y], g') ∧
      y = cexp (I * Real.pi * f * (w.length - 1)) * dftSum (if isComplex then 1 else 2) f w x + v * cexp (I * Real.pi * f) ^ w.length := by
  have hnew := Goertzel.new_spec w f hw hf
  set i0 : Iir ℂ := ⟨id, [0, goertzelC f, -1], [1, -(goertzelE f), 0], [0, 0, 0]⟩ with hi0
  set i1 : Iir ℂ := ⟨id, [0, goertzelC f, -1], [1, -(goertzelE f), 0], [v, 0, 0]⟩ with hi1
  have hN : 0 < w.length := by obtain ⟨v, hv, _⟩ := hw; exact List.length_pos_of_mem hv
  set u := goertzelGain isComplex w.length with hu
  have hxne : x ≠ [] := by intro h; rw [h] at hx; simp at hx; omega
  have hreset : Goertzel.reset (⟨i0, 0, w, f⟩ : Goertzel ℂ ℝ) (.scalar v) = (.ok (), ⟨i1, 0, w, f⟩) := by
    simp [Goertzel.reset, Iir.reset, hi0, hi1]
  obtain ⟨ys, y, i', g', h1, h2⟩ := Goertzel.loop_block u ((x.length + w.length - 1) / w.length + 1) (Nat.succ_pos _) x (⟨i1, 0, w, f⟩ : Goertzel ℂ ℝ)
    ⟨by simp [hi1], by simp [hi1], by simp [hi1]⟩ hxne (by simpa using hx)
  refine ⟨_, _, y, g', hnew, hreset, ?_, ?_⟩
  · unfold Goertzel.filter
    rw [if_neg (by omega)]
    exact h2
  · simp only [List.drop_zero] at h1
    set z := weighted u w x with hz
    have hzl : z.length = w.length := by simp [hz, weighted, hx]
    have hzat : ∀ k, at0 z k = u * at0 w k * at0 x k := by
      intro k
      by_cases hk : k < w.length
      · rw [at0_of_lt _ _ (by omega), at0_of_lt _ _ hk, at0_of_lt _ _ (by omega)]
        simp [hz, weighted]
      · rw [at0_of_le _ _ (by omega), at0_of_le w _ (by omega)]; simp
    have hylen : (ys ++ [y]).length = w.length := by rw [runLoop_ok_length _ _ _ _ _ h1, hzl]
    obtain ⟨ws, f', k1, k2, k3⟩ := goertzel_series f (v :: z) (by simp)
    have hstep : Iir.step i0 v = (.ok v, i1) := by
      simp [Iir.step, hi0, hi1, shiftRight, bcAdd, dot]
    have hws : ws = v :: (ys ++ [y]) := by
      have : Iir.filter i0 (v :: z) = (.ok (v :: (ys ++ [y])), i') := by
        simp only [Iir.filter, List.length_cons, runLoop, hstep, h1]
        simp
      rw [this] at k1
      simpa using (Prod.mk.inj k1).1.symm
    have hk := k3 w.length (by simp [hzl])
    have hlast : ws[w.length]? = some y := by
      rw [hws]
      have : w.length = ys.length + 1 := by simpa using hylen.symm
      rw [this]
      simp
    rw [hlast] at hk
    rw [Option.some.inj hk, sum_range_succ']
    have hgain : u = (if isComplex then 1 else 2) / (w.length : ℂ) := by
      rw [hu, goertzelGain]; cases isComplex <;> norm_num
    congr 1
    · rw [dftSum, mul_sum, mul_sum]
      apply sum_congr rfl
      intro k hk
      have hk' : k < w.length := mem_range.mp hk
      have hpow : cexp (I * Real.pi * f) ^ (w.length - (k + 1)) = cexp (I * Real.pi * f * (w.length - 1)) * cexp (-(I * Real.pi * f * k)) := by
        rw [← Complex.exp_nat_mul, ← Complex.exp_add]
        congr 1
        push_cast [Nat.cast_sub (show k + 1 ≤ w.length by omega)]
        ring
      have hc : at0 (v :: z) (k + 1) = at0 z k := by simp [at0]
      rw [hpow, hc, hzat, hgain]
      ring

example := C119_goertzel [1, 2] (1 / 4) true ⟨1, by simp, by norm_num⟩ (by norm_num) (by norm_num) 3 [1, Complex.I] rfl

/-- C119, GoertzelFilter: the magnitude of that error is the magnitude of `v`. -/
theorem C119_goertzel_error (f : ℝ) (n : ℕ) (v : ℂ) : ‖v * cexp (I * Real.pi * f) ^ n‖ = ‖v‖ := by
  rw [norm_mul, norm_pow, Complex.norm_exp]
  simp

example := C119_goertzel_error (1 / 4) 8 (3 + Complex.I)

/-- C119, ComplexBandpassFilter: `reset` changes nothing in what `filter` returns. -/
theorem C119_bandpass (hilbert : List ℂ → List ℂ) (f : BandpassS) (a : ResetArg ℂ) (d : List ℂ) :
    ((f.reset a).2.filter hilbert d).1 = (f.filter hilbert d).1 ∧ (f.reset a).2.filt = f.filt := by
  cases a <;> exact ⟨rfl, rfl⟩

/-- The answers of `filter` in a sequence of calls of `reset` and `filter`. -/
noncomputable def bandpassAnswers (hilbert : List ℂ → List ℂ) : BandpassS → List (ResetArg ℂ ⊕ List ℂ) → List (Res (List (ℂ × ℂ × ℂ)))
  | _, [] => []
  | f, .inl a :: t => bandpassAnswers hilbert (f.reset a).2 t
  | f, .inr d :: t => (f.filter hilbert d).1 :: bandpassAnswers hilbert (f.filter hilbert d).2 t

/-- The answers of the filter without the inherited state, to calls of `filter` only. -/
noncomputable def bandpassPlain (hilbert : List ℂ → List ℂ) : Bandpass → List (List ℂ) → List (Res (List (ℂ × ℂ × ℂ)))
  | _, [] => []
  | f, d :: t => (f.filter hilbert d).1 :: bandpassPlain hilbert (f.filter hilbert d).2 t

/-- C119, ComplexBandpassFilter: calls of `reset` anywhere in a sequence of calls change no answer of `filter`, each of which continues from the one before. -/
theorem C119_bandpass_calls (hilbert : List ℂ → List ℂ) (f : BandpassS) (ops : List (ResetArg ℂ ⊕ List ℂ)) :
    bandpassAnswers hilbert f ops = bandpassPlain hilbert f.filt (ops.filterMap Sum.getRight?) := by
  induction ops generalizing f with
  | nil => rfl
  | cons o t ih =>
    rcases o with a | d
    · rw [bandpassAnswers, ih, (C119_bandpass hilbert f a []).2]; rfl
    · simp only [bandpassAnswers, ih, List.filterMap_cons, Sum.getRight?_inr, bandpassPlain]
      rfl

example (f : BandpassS) := C119_bandpass_calls id f [.inr [1, Complex.I], .inl (.scalar 5), .inl .nonScalar, .inr [Complex.I]]

/-- C119, ComplexFrequencyFilter: the frequency set, and `reset` given the sample which precedes the signal, a tone of that frequency is followed without any error
from the first sample. -/
theorem C119_frequency (hilbert : List ℂ → List ℂ) (f0 : FreqF) (v : ℝ) (hv : -1 < v ∧ v ≤ 1) (x : ℂ) (hx : 1e-8 < ‖x‖) (n : ℕ) (hn : 0 < n)
    (hp : prepare hilbert ((List.range n).map fun k : ℕ => x * cexp (I * Real.pi * v) ^ (k + 1)) = (List.range n).map fun k : ℕ => x * cexp (I * Real.pi * v) ^ (k + 1)) :
    ∃ f1 f2 f3, f0.setFrequency v = (.ok (), f1) ∧ f1.reset (.scalar x) = (.ok (), f2) ∧
      f2.filter hilbert ((List.range n).map fun k : ℕ => x * cexp (I * Real.pi * v) ^ (k + 1)) = (.ok (List.replicate n (v, 0, cexp (I * Real.pi * v))), f3) := by
  set E := cexp (I * Real.pi * v) with hE
  have hnE : ‖E‖ = 1 := by rw [hE, Complex.norm_exp]; simp
  have harg : E.arg / Real.pi = v := by
    rw [hE, show I * (Real.pi : ℂ) * v = ((Real.pi * v : ℝ) : ℂ) * I by push_cast; ring, Complex.arg_exp_mul_I, toIocMod_eq_self Real.two_pi_pos |>.mpr]
    · field_simp
    · constructor <;> nlinarith [Real.pi_pos]
  have hx0 : (‖x‖ : ℂ) ≠ 0 := by
    have : (0 : ℝ) < ‖x‖ := lt_trans (by norm_num) hx
    exact_mod_cast this.ne'
  have hloop : ∀ (m k : ℕ) (g : FreqF), g.b = E → g.s = x / ‖x‖ * E ^ k →
      ∃ g', runLoop FreqF.step g ((List.range m).map fun i => x / ‖x‖ * E ^ (k + i + 1)) = (.ok (List.replicate m (v, 0, E)), g') := by
    intro m
    induction m with
    | zero => intro k g _ _; exact ⟨g, rfl⟩
    | succ m ih =>
      intro k g hb hs
      have he : x / ‖x‖ * E ^ (k + 0 + 1) - g.b * g.s = 0 := by rw [hb, hs]; ring
      have hst : FreqF.step g (x / ‖x‖ * E ^ (k + 0 + 1)) = (.ok (v, 0, E), { g with b := E, s := x / ‖x‖ * E ^ (k + 1) }) := by
        rw [hb] at he
        simp only [FreqF.step, hb, harg, he]
        simp
      obtain ⟨g', h⟩ := ih (k + 1) { g with b := E, s := x / ‖x‖ * E ^ (k + 1) } rfl rfl
      refine ⟨g', ?_⟩
      rw [List.range_succ_eq_map, List.map_cons, runLoop, hst]
      simp only [List.map_map, Function.comp_def, Nat.succ_eq_add_one]
      have : ∀ i, k + (i + 1) + 1 = k + 1 + i + 1 := fun i => by omega
      simp only [this, h]
      rfl
  refine ⟨{ f0 with b := E, frequency := v }, { f0 with b := E, frequency := v, s := x / ‖x‖ }, ?_⟩
  obtain ⟨g', h⟩ := hloop n 0 { f0 with b := E, frequency := v, s := x / ‖x‖ } rfl (by simp)
  refine ⟨g', ?_, ?_, ?_⟩
  · simp only [FreqF.setFrequency, hE]
    rw [if_neg (by push Not; constructor <;> linarith [hv.1, hv.2])]
  · simp [FreqF.reset, not_le.mpr hx]
  · unfold FreqF.filter
    rw [if_neg (by simp; omega), hp, List.map_map]
    have : (normalise ∘ fun k : ℕ => x * E ^ (k + 1)) = fun k : ℕ => x / ‖x‖ * E ^ (0 + k + 1) := by
      funext k
      have hn1 : ‖x * E ^ (k + 1)‖ = ‖x‖ := by rw [norm_mul, norm_pow, hnE]; simp
      simp only [Function.comp, normalise, hn1, if_neg (not_le.mpr hx), zero_add]
      field_simp
    rw [this, h]

/-- C119, ComplexFrequencyFilter: `reset` given the first sample of the signal, as documented, leaves the first error `x₀ (1 - b)` for the unit sample `x₀`. -/
theorem C119_frequency_documented (hilbert : List ℂ → List ℂ) (f : FreqF) (x : ℂ) (d : List ℂ) (hx : 1e-8 < ‖x‖) (hp : prepare hilbert (x :: d) = x :: d) :
    ∃ f1 f2 y ys, f.reset (.scalar x) = (.ok (), f1) ∧ f1.filter hilbert (x :: d) = (.ok ((y, x / ‖x‖ * (1 - f.b), f.b) :: ys), f2) := by
  have hr : f.reset (.scalar x) = (.ok (), { f with s := x / ‖x‖ }) := by simp [FreqF.reset, not_le.mpr hx]
  have hs : FreqF.step { f with s := x / ‖x‖ } (x / ‖x‖) =
      (.ok (f.b.arg / Real.pi, x / ‖x‖ * (1 - f.b), f.b), (FreqF.step { f with s := x / ‖x‖ } (x / ‖x‖)).2) := by
    simp only [FreqF.step]
    rw [show x / (‖x‖ : ℂ) - f.b * (x / ‖x‖) = x / ‖x‖ * (1 - f.b) by ring]
  obtain ⟨⟨ys, hy⟩, -⟩ := runLoop_inv FreqF.step (fun _ => True) (fun g z _ => ⟨⟨_, rfl⟩, trivial⟩) (FreqF.step { f with s := x / ‖x‖ } (x / ‖x‖)).2 trivial
    (d.map normalise)
  generalize hg : (FreqF.step { f with s := x / ‖x‖ } (x / ‖x‖)).2 = g at hs hy
  rcases hl : runLoop FreqF.step g (d.map normalise) with ⟨r, g'⟩
  rw [hl] at hy
  simp only at hy
  subst hy
  refine ⟨_, g', f.b.arg / Real.pi, ys, hr, ?_⟩
  unfold FreqF.filter
  rw [if_neg (by simp), hp, List.map_cons, show normalise x = x / ‖x‖ by simp only [normalise, if_neg (not_le.mpr hx)], runLoop, hs]
  simp only [hl]

/-- The hypotheses of `C119_rank` hold for a state of three samples, with the middle rank. -/
example : (0 : ℤ) ≤ (⟨[3, 1, 2], 1⟩ : Rank ℚ).index ∧ (⟨[3, 1, 2], 1⟩ : Rank ℚ).index < ((⟨[3, 1, 2], 1⟩ : Rank ℚ).s.length : ℤ) := by
  constructor <;> norm_num

/-- The hypotheses of `C119_derivative` and `C119_integral` hold for filters of the tables. -/
example : (∃ f : Fir ℚ, Derivative.new 1 2 = .ok f) ∧ ∃ f : Iir ℚ, Integral.new ((1 : ℕ) : ℤ) = .ok f :=
  ⟨⟨_, rfl⟩, ⟨_, rfl⟩⟩

/-- After `reset(1)` the first value of a PidFilter with the gains 0, 1, 0 for a sample 1 is 2, where a new filter gives 1. -/
example : (Pid.filter (R := ℚ) (K := ℚ) abs (⟨id, 0, 1, 0, 0, 0, 0, none⟩ : Pid ℚ ℚ) [1]).1 = .ok [1] ∧
    (Pid.filter (R := ℚ) (K := ℚ) abs (Pid.reset (⟨id, 0, 1, 0, 0, 0, 0, none⟩ : Pid ℚ ℚ) (.scalar 1)).2 [1]).1 = .ok [2] := by
  constructor <;> norm_num [Pid.filter, runLoop, Pid.step, Pid.reset, belowLimit, dot]

/-- The hypotheses of `C119_goertzel` hold for a window of two points at a quarter of the rate. -/
example : (∃ v ∈ ([1, 1] : List ℂ), 1e-8 < ‖v‖) ∧ (-1 : ℝ) ≤ 1 / 2 ∧ (1 / 2 : ℝ) ≤ 1 ∧ (1 / 2 : ℝ) ≠ 0 ∧ ([3, 4] : List ℂ).length = ([1, 1] : List ℂ).length := by
  refine ⟨⟨1, by simp, by norm_num⟩, by norm_num, by norm_num, by norm_num, rfl⟩

/-- The hypotheses of `C119_frequency` hold for the frequency 1/2. -/
example (hilbert : List ℂ → List ℂ) : (-1 : ℝ) < 1 / 2 ∧ (1 / 2 : ℝ) ≤ 1 ∧ (1e-8 : ℝ) < ‖(1 : ℂ)‖ ∧
    prepare hilbert ((List.range 2).map fun k : ℕ => 1 * cexp (I * Real.pi * (1 / 2 : ℝ)) ^ (k + 1)) =
      (List.range 2).map fun k : ℕ => 1 * cexp (I * Real.pi * (1 / 2 : ℝ)) ^ (k + 1) := by
  refine ⟨by norm_num, by norm_num, by norm_num, ?_⟩
  have h : cexp (I * Real.pi * (1 / 2 : ℝ)) = I := by
    rw [show I * (Real.pi : ℂ) * ((1 / 2 : ℝ) : ℂ) = Real.pi / 2 * I by push_cast; ring, Complex.exp_pi_div_two_mul_I]
  rw [h]
  exact if_pos ⟨I, by simp [List.range_succ], by simp⟩

/-- The hypotheses of `C119_frequency_documented` hold for an imaginary sample. -/
example (hilbert : List ℂ → List ℂ) : (1e-8 : ℝ) < ‖I‖ ∧ prepare hilbert [I, 1] = [I, 1] := by
  constructor
  · norm_num
  · simp [prepare]

end Verif.Props
