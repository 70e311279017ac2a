import Verif.Lemmas.Adaptive
import Verif.Lemmas.Loop
import Mathlib.Analysis.SpecialFunctions.Complex.Arg
import Mathlib.Analysis.SpecificLimits.Basic
import Mathlib.Tactic.LinearCombination

/-
Properties C27–C30 of ComplexBandpassFilter and ComplexFrequencyFilter
(diamondback/filters/complex_bandpass_filter.py, diamondback/filters/complex_frequency_filter.py).
-/

namespace Verif.Props

open Finset Spec Complex

/-- ComplexBandpassFilter objects a caller can hold: constructed, then any sequence of public calls, accepted or
rejected. -/
inductive Bandpass.Reach (hilbert : List ℂ → List ℂ) : Bandpass → Prop
  | new {v r f} : Bandpass.new v r = .ok f → Reach hilbert f
  | setFrequency {f} (v) : Reach hilbert f → Reach hilbert (f.setFrequency v).2
  | setRate {f} (v) : Reach hilbert f → Reach hilbert (f.setRate v).2
  | filter {f} (d) : Reach hilbert f → Reach hilbert (f.filter hilbert d).2

theorem Bandpass.Reach.spec {hilbert : List ℂ → List ℂ} {f : Bandpass} (h : Bandpass.Reach hilbert f) :
    (-1 ≤ f.frequency ∧ f.frequency ≤ 1) ∧ 0 ≤ f.rate ∧ f.rate ≤ 1 := by
  induction h with
  | new h =>
    unfold Bandpass.new at h
    split at h
    · cases h
    · split at h
      · cases h
      · rename_i h1 h2
        push Not at h1 h2
        cases h
        exact ⟨h1, h2⟩
  | setFrequency v _ ih =>
    unfold Bandpass.setFrequency
    split
    · exact ih
    · rename_i h1
      push Not at h1
      exact ⟨h1, ih.2⟩
  | setRate v _ ih =>
    unfold Bandpass.setRate
    split
    · exact ih
    · rename_i h1
      push Not at h1
      exact ⟨ih.1, h1⟩
  | filter d _ ih =>
    unfold Bandpass.filter
    split
    · exact ih
    · simp only
      split <;> exact ih

/-- One call on a tone at the filter's frequency that starts at the oscillator's phase. -/
theorem Bandpass.filter_tone (hilbert : List ℂ → List ℂ) (f : Bandpass) (hf : -1 ≤ f.frequency ∧ f.frequency ≤ 1)
    (A : ℂ) (N : ℕ) (hN : N ≠ 0) (d : List ℂ) (hd0 : d ≠ [])
    (hd : prepare hilbert d = tone A f.frequency f.osc.phase N) :
    ∃ o : CExp, (∃ k : ℤ, o.phase = f.osc.phase + f.frequency * N + 2 * k) ∧
      f.filter hilbert d =
        (.ok ((List.range N).map fun n : ℕ =>
          (phasor (f.osc.phase + f.frequency * n) * (A + (1 - f.rate) ^ n * (f.b - A)),
           A * phasor (f.osc.phase + f.frequency * n)
              - phasor (f.osc.phase + f.frequency * n) * (A + (1 - f.rate) ^ n * (f.b - A)),
           A + (1 - f.rate) ^ n * (f.b - A))),
         { f with osc := o, b := A + (1 - f.rate) ^ N * (f.b - A) }) := by
  obtain ⟨o, h1, h2⟩ := CExp.filter_const f.osc f.frequency hf N hN
  refine ⟨o, h2, ?_⟩
  have hl : ¬ d.length = 0 := by simpa using hd0
  have hz : (tone 1 f.frequency f.osc.phase N).zip (tone A f.frequency f.osc.phase N) =
      (List.range N).map fun n : ℕ => (phasor (f.osc.phase + f.frequency * n), A * phasor (f.osc.phase + f.frequency * n)) := by
    simp only [tone, List.zip_map', one_mul]
  have := Bandpass.loop_tone f.rate A N f.b (fun n => phasor (f.osc.phase + f.frequency * n)) (fun n => phasor_norm _)
  simp only [Bandpass.filter, hl, if_false, hd, tone_length, h1, hz, this]

/-- C27.  Chunked calls on a tone `A exp(jπ(p + f n))` at the filter's own frequency `f`, `p` the oscillator's phase (0 after
construction): sample `n` of the concatenated output has coefficient `b[n]` with `b[n] - A = (1-rate)^n (b[0] - A)`,
`y[n] = x[n] b[n]`, `e[n] = d[n] - y[n]`, and `‖e[n]‖ = (1-rate)^n ‖A - b[0]‖`.  The chunks may be real signals: then the tone is
what `hilbert` returns. -/
theorem C27_bandpass_converges (hilbert : List ℂ → List ℂ) (f : Bandpass) (hf : Bandpass.Reach hilbert f) (A : ℂ) (N : ℕ)
    (chunks : List (List ℂ)) (hne : ∀ c ∈ chunks, c ≠ [] ∧ prepare hilbert c ≠ [])
    (hd : (chunks.map (prepare hilbert)).flatten = tone A f.frequency f.osc.phase N) :
    ∃ out f', callChunks (Bandpass.filter hilbert) f chunks = (.ok out, f') ∧ out.length = N ∧
      (∀ n, n < N → ∃ y e b, out[n]? = some (y, e, b) ∧
        b - A = (1 - f.rate) ^ n * (f.b - A) ∧
        y = phasor (f.osc.phase + f.frequency * n) * b ∧
        e = A * phasor (f.osc.phase + f.frequency * n) - y ∧
        ‖e‖ = (1 - f.rate) ^ n * ‖A - f.b‖) ∧
      f'.b - A = (1 - f.rate) ^ N * (f.b - A) := by
  have hspec := hf.spec
  have key : ∀ (chunks : List (List ℂ)) (f : Bandpass) (N : ℕ), (-1 ≤ f.frequency ∧ f.frequency ≤ 1) →
      (∀ c ∈ chunks, c ≠ [] ∧ prepare hilbert c ≠ []) →
      (chunks.map (prepare hilbert)).flatten = tone A f.frequency f.osc.phase N →
      ∃ f', callChunks (Bandpass.filter hilbert) f chunks =
        (.ok ((List.range N).map fun n : ℕ =>
          (phasor (f.osc.phase + f.frequency * n) * (A + (1 - f.rate) ^ n * (f.b - A)),
           A * phasor (f.osc.phase + f.frequency * n)
              - phasor (f.osc.phase + f.frequency * n) * (A + (1 - f.rate) ^ n * (f.b - A)),
           A + (1 - f.rate) ^ n * (f.b - A))), f') ∧
        f'.b = A + (1 - f.rate) ^ N * (f.b - A) := by
    intro chunks
    induction chunks with
    | nil =>
      intro f N _ _ hd
      have : N = 0 := by
        have := congrArg List.length hd
        simpa [tone_length] using this.symm
      subst this
      exact ⟨f, by simp [callChunks], by ring⟩
    | cons c cs ih =>
      intro f N hfr hne hd
      obtain ⟨hc0, hp0⟩ := hne c (by simp)
      obtain ⟨M, hM⟩ : ∃ M, M = (prepare hilbert c).length := ⟨_, rfl⟩
      have hM0 : M ≠ 0 := by rw [hM]; simpa using hp0
      have hNM : N = M + (N - M) := by
        have := congrArg List.length hd
        simp only [List.map_cons, List.flatten_cons, List.length_append, tone_length, ← hM] at this
        omega
      obtain ⟨K, hK⟩ : ∃ K, K = N - M := ⟨_, rfl⟩
      rw [← hK] at hNM
      clear hK
      subst hNM
      rw [List.map_cons, List.flatten_cons, tone_add] at hd
      obtain ⟨hd1, hd2⟩ := List.append_inj hd (by rw [tone_length, hM])
      obtain ⟨o, ⟨k, hk⟩, hfil⟩ := Bandpass.filter_tone hilbert f hfr A M hM0 c hc0 hd1
      have hd3 : (cs.map (prepare hilbert)).flatten = tone A f.frequency o.phase K := by
        rw [hd2, hk, tone_periodic]
      obtain ⟨f', h1, h2⟩ := ih { f with osc := o, b := A + (1 - f.rate) ^ M * (f.b - A) } K hfr
        (fun d hd => hne d (by simp [hd])) hd3
      refine ⟨f', ?_, ?_⟩
      · simp only [callChunks, hfil, h1]
        simp only [List.range_add, List.map_append, List.map_map]
        congr 3
        apply List.map_congr_left
        intro n _
        have hph : phasor (o.phase + f.frequency * n) = phasor (f.osc.phase + f.frequency * ((M + n : ℕ) : ℝ)) := by
          rw [hk, show f.osc.phase + f.frequency * M + 2 * (k : ℝ) + f.frequency * n
            = (f.osc.phase + f.frequency * ((M + n : ℕ) : ℝ)) + 2 * k by push_cast; ring, phasor_periodic]
        simp only [Function.comp_apply, hph, pow_add]
        refine Prod.ext ?_ (Prod.ext ?_ ?_) <;> simp only <;> ring
      · rw [h2]; simp only [pow_add]; ring
  obtain ⟨f', h1, h2⟩ := key chunks f N hspec.1 hne hd
  refine ⟨_, f', h1, by simp, fun n hn => ?_, by rw [h2]; ring⟩
  refine ⟨_, _, _, by rw [List.getElem?_map, List.getElem?_range hn]; rfl, by ring, rfl, rfl, ?_⟩
  have : A * phasor (f.osc.phase + f.frequency * n)
      - phasor (f.osc.phase + f.frequency * n) * (A + (1 - (f.rate : ℂ)) ^ n * (f.b - A))
      = phasor (f.osc.phase + f.frequency * n) * (((1 - f.rate) ^ n : ℝ) * (A - f.b)) := by
    push_cast; ring
  rw [this, norm_mul, phasor_norm, one_mul, norm_mul, Complex.norm_real, Real.norm_of_nonneg]
  apply pow_nonneg; linarith [hspec.2.2]

/-- A reachable filter and a chunked complex tone satisfying the hypotheses. -/
example : ∃ f, Bandpass.Reach id f ∧
    ([[2, 2 * phasor (1/2)], [2 * phasor 1]].map (prepare id)).flatten = tone 2 f.frequency f.osc.phase 3 := by
  refine ⟨⟨(eps : ℂ), ⟨0⟩, 1/2, 1/10⟩, .new (v := 1/2) (r := 1/10) ?_, ?_⟩
  · norm_num [Bandpass.new]
  · simp [tone, List.range_succ, prepare, phasor]

/-- C27.  For *every* signal the error is the primary signal minus the output: `e[n] = d[n] - y[n]`, with the oscillator as
the incident signal. -/
theorem C27_bandpass_error (hilbert : List ℂ → List ℂ) (f : Bandpass) (hf : Bandpass.Reach hilbert f) (d : List ℂ) (hd : d ≠ [])
    (hp : prepare hilbert d ≠ []) :
    ∃ out f', f.filter hilbert d = (.ok out, f') ∧ out.length = (prepare hilbert d).length ∧
      ∀ n (hn : n < (prepare hilbert d).length), ∃ y e b, out[n]? = some (y, e, b) ∧
        y = phasor (f.osc.phase + f.frequency * n) * b ∧ e = (prepare hilbert d)[n] - y := by
  have hl : ¬ d.length = 0 := by simpa using hd
  obtain ⟨o, h1, _⟩ := CExp.filter_const f.osc f.frequency hf.spec.1 (prepare hilbert d).length (by simpa using hp)
  have key : ∀ (l : List (ℂ × ℂ)) (b : ℂ), (Bandpass.loop f.rate b l).1.length = l.length ∧
      ∀ n (hn : n < l.length), ∃ y e b', (Bandpass.loop f.rate b l).1[n]? = some (y, e, b') ∧
        y = l[n].1 * b' ∧ e = l[n].2 - y := by
    intro l
    induction l with
    | nil => intro b; simp [Bandpass.loop]
    | cons a l ih =>
      intro b
      obtain ⟨x, v⟩ := a
      obtain ⟨i1, i2⟩ := ih (b + f.rate * (v - x * b) * (starRingEnd ℂ) x)
      refine ⟨by simp [Bandpass.loop, i1], fun n hn => ?_⟩
      rcases n with _ | n
      · exact ⟨_, _, _, rfl, rfl, rfl⟩
      · simpa [Bandpass.loop] using i2 n (by simpa using hn)
  have hlen : ((tone 1 f.frequency f.osc.phase (prepare hilbert d).length).zip (prepare hilbert d)).length
      = (prepare hilbert d).length := by simp [tone_length]
  obtain ⟨k1, k2⟩ := key ((tone 1 f.frequency f.osc.phase (prepare hilbert d).length).zip (prepare hilbert d)) f.b
  refine ⟨_, _, by simp only [Bandpass.filter, hl, if_false, h1]; rfl, by rw [k1, hlen], fun n hn => ?_⟩
  obtain ⟨y, e, b, e1, e2, e3⟩ := k2 n (by rw [hlen]; exact hn)
  refine ⟨y, e, b, e1, ?_, by simpa using e3⟩
  simpa [tone] using e2

/-- The hypotheses hold: a new filter and a signal of two samples. -/
example : ∃ f, Bandpass.Reach id f ∧ ([I, 2] : List ℂ) ≠ [] ∧ prepare id [I, 2] ≠ [] :=
  ⟨⟨(eps : ℂ), ⟨0⟩, 1/2, 1/10⟩, .new (v := 1/2) (r := 1/10) (by norm_num [Bandpass.new]), by simp, by unfold prepare; split <;> simp⟩

/-! ### ComplexFrequencyFilter -/

/-- One call of the loop body never raises; the outputs and the final object, sample by sample. -/
theorem FreqF.run (xs : List ℂ) : ∀ f : FreqF, ∃ out,
    runLoop FreqF.step f xs = (.ok out, xs.foldl (fun g x => (g.step x).2) f) ∧ out.length = xs.length ∧
    ∀ n (hn : n < xs.length), out[n]? =
      some ((((xs.take n).foldl (fun g x => (g.step x).2) f).b.arg / Real.pi,
        xs[n] - ((xs.take n).foldl (fun g x => (g.step x).2) f).b * ((xs.take n).foldl (fun g x => (g.step x).2) f).s,
        ((xs.take n).foldl (fun g x => (g.step x).2) f).b)) := by
  induction xs with
  | nil => intro f; exact ⟨[], rfl, rfl, by simp⟩
  | cons x xs ih =>
    intro f
    obtain ⟨out, h1, h2, h3⟩ := ih (f.step x).2
    refine ⟨(f.b.arg / Real.pi, x - f.b * f.s, f.b) :: out, ?_, by simp [h2], ?_⟩
    · rw [runLoop_cons_ok FreqF.step f (f.step x).2 x xs _ rfl]
      simp only [thenRun, h1]
      rfl
    · intro n hn
      rcases n with _ | n
      · simp
      · simpa using h3 n (by simpa using hn)

/-- The object after the first `n` samples. -/
noncomputable def FreqF.afterN (f : FreqF) (xs : List ℂ) (n : ℕ) : FreqF := (xs.take n).foldl (fun g x => (g.step x).2) f

theorem FreqF.afterN_succ (f : FreqF) (xs : List ℂ) (n : ℕ) (hn : n < xs.length) :
    FreqF.afterN f xs (n + 1) = ((FreqF.afterN f xs n).step xs[n]).2 := by
  simp only [FreqF.afterN, List.take_add_one, List.getElem?_eq_getElem hn, List.foldl_append, Option.toList]
  rfl

theorem FreqF.afterN_rate (f : FreqF) (xs : List ℂ) (n : ℕ) : (FreqF.afterN f xs n).rate = f.rate := by
  unfold FreqF.afterN
  induction xs.take n generalizing f with
  | nil => rfl
  | cons x l ih => rw [List.foldl_cons, ih]; rfl

theorem normalise_tone (A : ℂ) (hA : 1e-8 < ‖A‖) (v p : ℝ) (N : ℕ) :
    (tone A v p N).map normalise = tone (A / ‖A‖) v p N := by
  simp only [tone, List.map_map]
  apply List.map_congr_left
  intro n _
  simp only [Function.comp_apply, normalise, norm_mul, phasor_norm, mul_one, if_neg (not_le.mpr hA)]
  ring

theorem phasor_arg (v : ℝ) (h1 : -1 < v) (h2 : v ≤ 1) : (phasor v).arg / Real.pi = v := by
  have hpi := Real.pi_pos
  rw [phasor, show I * (Real.pi : ℂ) * v = ((Real.pi * v : ℝ) : ℂ) * I by push_cast; ring, Complex.arg_exp_mul_I,
    (toIocMod_eq_self Real.two_pi_pos).mpr]
  · field_simp
  · constructor
    · nlinarith
    · nlinarith

/-- C28.  A tone `A exp(jπ(p + v n))` of magnitude above the `isclose` threshold: from the first sample on the coefficient
approaches `exp(jπ v)` geometrically, the returned frequency is the angle of the coefficient, and the final object continues
the same way. -/
theorem C28_frequency_locks (hilbert : List ℂ → List ℂ) (f : FreqF) (A : ℂ) (hA : 1e-8 < ‖A‖) (v p : ℝ) (N : ℕ) (d : List ℂ)
    (hd0 : d ≠ []) (hd : prepare hilbert d = tone A v p (N + 1)) :
    ∃ out f' b1, f.filter hilbert d = (.ok out, f') ∧ out.length = N + 1 ∧
      b1 = f.b + f.rate * (A / ‖A‖ * phasor p - f.b * f.s) * (starRingEnd ℂ) f.s ∧
      (∀ n, n ≤ N → ∃ y e b, out[n]? = some (y, e, b) ∧ y = b.arg / Real.pi ∧
        (n = 0 → b = f.b) ∧
        (1 ≤ n → b - phasor v = (1 - f.rate) ^ (n - 1) * (b1 - phasor v))) ∧
      f'.b - phasor v = (1 - f.rate) ^ N * (b1 - phasor v) ∧
      f'.s = A / ‖A‖ * phasor (p + v * N) ∧ f'.rate = f.rate := by
  obtain ⟨out, h1, h2, h3⟩ := FreqF.run (tone (A / ‖A‖) v p (N + 1)) f
  rw [tone_length] at h2
  have hA0 : ‖A‖ ≠ 0 := by
    have : (0:ℝ) < 1e-8 := by norm_num
    linarith
  have hU : ‖A / (‖A‖ : ℂ)‖ = 1 := by
    rw [norm_div, Complex.norm_real, norm_norm]; exact div_self hA0
  have hget : ∀ n (hn : n < (tone (A / ‖A‖) v p (N + 1)).length),
      (tone (A / ‖A‖) v p (N + 1))[n] = A / ‖A‖ * phasor (p + v * n) := by
    intro n hn; simp [tone]
  have hs : ∀ n, n ≤ N → (FreqF.afterN f (tone (A / ‖A‖) v p (N + 1)) (n + 1)).s = A / ‖A‖ * phasor (p + v * n) := by
    intro n hn
    have hn' : n < (tone (A / ‖A‖) v p (N + 1)).length := by rw [tone_length]; omega
    rw [FreqF.afterN_succ f _ n hn', ← hget n hn']; rfl
  have hb1 : (FreqF.afterN f (tone (A / ‖A‖) v p (N + 1)) 1).b =
      f.b + f.rate * (A / ‖A‖ * phasor p - f.b * f.s) * (starRingEnd ℂ) f.s := by
    have hn' : 0 < (tone (A / ‖A‖) v p (N + 1)).length := by rw [tone_length]; omega
    rw [FreqF.afterN_succ f _ 0 hn', hget]
    simp [FreqF.step, FreqF.afterN]
  have hb : ∀ n, n ≤ N → (FreqF.afterN f (tone (A / ‖A‖) v p (N + 1)) (n + 1)).b - phasor v =
      (1 - f.rate) ^ n * (f.b + f.rate * (A / ‖A‖ * phasor p - f.b * f.s) * (starRingEnd ℂ) f.s - phasor v) := by
    intro n
    induction n with
    | zero => intro _; rw [hb1]; ring
    | succ n ih =>
      intro hn
      have hn' : n + 1 < (tone (A / ‖A‖) v p (N + 1)).length := by rw [tone_length]; omega
      rw [FreqF.afterN_succ f _ (n + 1) hn', hget]
      simp only [FreqF.step]
      rw [FreqF.afterN_rate, hs n (by omega)]
      have e1 : phasor (p + v * ((n + 1 : ℕ) : ℝ)) = phasor v * phasor (p + v * n) := by
        rw [← phasor_add]; congr 1; push_cast; ring
      have e2 : (A / ‖A‖ * phasor (p + v * n)) * (starRingEnd ℂ) (A / ‖A‖ * phasor (p + v * n)) = 1 :=
        mul_conj_of_norm_one _ (by rw [norm_mul, hU, phasor_norm, one_mul])
      rw [e1, pow_succ]
      have := ih (by omega)
      linear_combination (1 - (f.rate : ℂ)) * this + f.rate * (phasor v - (FreqF.afterN f (tone (A / ‖A‖) v p (N + 1)) (n + 1)).b) * e2
  refine ⟨out, _, _, ?_, h2, rfl, ?_, hb N le_rfl, ?_, ?_⟩
  · have hl : ¬ d.length = 0 := by simpa using hd0
    simp only [FreqF.filter, hl, if_false, hd, normalise_tone A hA, h1]
    rw [FreqF.afterN, List.take_of_length_le (by rw [tone_length])]
  · intro n hn
    have hn' : n < (tone (A / ‖A‖) v p (N + 1)).length := by rw [tone_length]; omega
    refine ⟨_, _, _, h3 n hn', rfl, ?_, ?_⟩
    · rintro rfl; rfl
    · intro h
      have := hb (n - 1) (by omega)
      rw [Nat.sub_add_cancel h] at this
      exact this
  · exact hs N le_rfl
  · exact FreqF.afterN_rate _ _ _

/-- The hypotheses hold: a tone of ten samples. -/
example := C28_frequency_locks id ⟨1, 1, 0, 1/10⟩ 2 (by norm_num) (1/3) (1/4) 9 (tone 2 (1/3) (1/4) (9 + 1)) (by simp [tone])
  (by unfold prepare; split <;> rfl)

/-- C28.  A coefficient that is exactly `exp(jπ v)`, `v ∈ (-1, 1]`, is reported as `v`. -/
theorem C28_frequency_exact (hilbert : List ℂ → List ℂ) (f : FreqF) (v : ℝ) (h1 : -1 < v) (h2 : v ≤ 1) (hb : f.b = phasor v)
    (d : List ℂ) (hd0 : d ≠ []) (hd : prepare hilbert d ≠ []) :
    ∃ out f', f.filter hilbert d = (.ok out, f') ∧ ∃ e b, out[0]? = some (v, e, b) := by
  obtain ⟨out, e1, e2, e3⟩ := FreqF.run ((prepare hilbert d).map normalise) f
  have hl : ¬ d.length = 0 := by simpa using hd0
  refine ⟨out, _, by simp only [FreqF.filter, hl, if_false]; exact e1, ?_⟩
  have := e3 0 (by simpa [List.length_pos_iff] using hd)
  simp only [List.take_zero, List.foldl_nil, hb, phasor_arg v h1 h2] at this
  exact ⟨_, _, this⟩

/-- The hypotheses hold: the coefficient of the frequency 1/3. -/
example := C28_frequency_exact id ⟨phasor (1/3), 1, 0, 1/10⟩ (1/3) (by norm_num) (by norm_num) rfl [I, 2] (by simp)
  (by unfold prepare; split <;> simp)

/-- C28.  With a positive rate the estimates converge to the frequency of the tone: for every tolerance there is a delay
after which every estimate, whatever the length of the signal, is within the tolerance. -/
theorem C28_frequency_limit (hilbert : List ℂ → List ℂ) (f : FreqF) (hr0 : 0 < f.rate) (hr1 : f.rate ≤ 1) (A : ℂ)
    (hA : 1e-8 < ‖A‖) (v p : ℝ) (hv : |v| < 1) (ε : ℝ) (hε : 0 < ε) :
    ∃ n0, ∀ (N : ℕ) (d : List ℂ), d ≠ [] → prepare hilbert d = tone A v p (N + 1) →
      ∃ out f', f.filter hilbert d = (.ok out, f') ∧
        ∀ n, n0 ≤ n → n ≤ N → ∃ y e b, out[n]? = some (y, e, b) ∧ |y - v| < ε := by
  rw [abs_lt] at hv
  obtain ⟨b1, hb1⟩ : ∃ b1, b1 = f.b + f.rate * (A / ‖A‖ * phasor p - f.b * f.s) * (starRingEnd ℂ) f.s := ⟨_, rfl⟩
  have hpow : Filter.Tendsto (fun n : ℕ => (1 - (f.rate : ℂ)) ^ n) Filter.atTop (nhds 0) := by
    apply tendsto_pow_atTop_nhds_zero_of_norm_lt_one
    rw [show (1 - (f.rate : ℂ)) = ((1 - f.rate : ℝ) : ℂ) by push_cast; ring, Complex.norm_real, Real.norm_eq_abs, abs_lt]
    constructor <;> linarith
  have hseq : Filter.Tendsto (fun n : ℕ => phasor v + (1 - (f.rate : ℂ)) ^ n * (b1 - phasor v)) Filter.atTop (nhds (phasor v)) := by
    have := (hpow.mul_const (b1 - phasor v)).const_add (phasor v)
    simpa using this
  have hslit : phasor v ∈ Complex.slitPlane := by
    rw [Complex.mem_slitPlane_iff_arg]
    constructor
    · intro h
      have := phasor_arg v hv.1 hv.2.le
      rw [h, div_self Real.pi_ne_zero] at this
      linarith
    · intro h
      have := phasor_norm v
      rw [h, norm_zero] at this
      norm_num at this
  have harg : Filter.Tendsto (fun n : ℕ => (phasor v + (1 - (f.rate : ℂ)) ^ n * (b1 - phasor v)).arg / Real.pi) Filter.atTop
      (nhds v) := by
    have := ((Complex.continuousAt_arg hslit).tendsto.comp hseq).div_const Real.pi
    rw [phasor_arg v hv.1 hv.2.le] at this
    exact this
  obtain ⟨m, hm⟩ := (Metric.tendsto_atTop.mp harg) ε hε
  refine ⟨m + 1, fun N d hd0 hd => ?_⟩
  obtain ⟨out, f', b1', h1, h2, h3, h4, -⟩ := C28_frequency_locks hilbert f A hA v p N d hd0 hd
  refine ⟨out, f', h1, fun n hn hnN => ?_⟩
  obtain ⟨y, e, b, g1, g2, g3, g4⟩ := h4 n hnN
  refine ⟨y, e, b, g1, ?_⟩
  have := hm (n - 1) (by omega)
  rw [Real.dist_eq] at this
  rw [g2, show b = phasor v + (1 - (f.rate : ℂ)) ^ (n - 1) * (b1 - phasor v) by
    rw [hb1, ← h3, ← g4 (by omega)]; ring]
  exact this

example : (1e-8 : ℝ) < ‖(2 : ℂ)‖ ∧ |(1/3 : ℝ)| < 1 ∧ prepare id (tone 2 (1/3) (1/4) (9 + 1)) = tone 2 (1/3) (1/4) (9 + 1) := by
  refine ⟨by norm_num, by norm_num [abs_lt], by unfold prepare; split <;> rfl⟩

/-- ComplexFrequencyFilter objects reached from a construction with the given rate through filter, reset and the frequency
setter, accepted or rejected. -/
inductive FreqF.Reach (hilbert : List ℂ → List ℂ) (r : ℝ) : FreqF → Prop
  | new {v f} : FreqF.new v r = .ok f → Reach hilbert r f
  | setFrequency {f} (v) : Reach hilbert r f → Reach hilbert r (f.setFrequency v).2
  | reset {f} (x) : Reach hilbert r f → Reach hilbert r (f.reset x).2
  | filter {f} (d) : Reach hilbert r f → Reach hilbert r (f.filter hilbert d).2

theorem norm_normalise (d : ℂ) : ‖normalise d‖ ≤ 1e-8 ∨ ‖normalise d‖ = 1 := by
  unfold normalise
  split
  · rename_i h; left; simpa using h
  · rename_i h
    right
    have : ‖d‖ ≠ 0 := fun h0 => h (by rw [h0]; norm_num)
    rw [norm_div, Complex.norm_real, norm_norm, div_self this]

theorem FreqF.step_norm (f : FreqF) (x : ℂ) (h0 : 0 ≤ f.rate) (h1 : f.rate ≤ 1) (hs : ‖f.s‖ ≤ 1) :
    ‖(f.step x).2.b‖ ≤ (1 - f.rate * ‖f.s‖ ^ 2) * ‖f.b‖ + f.rate * ‖x‖ * ‖f.s‖ := by
  have e : (f.step x).2.b = ((1 - f.rate * ‖f.s‖ ^ 2 : ℝ) : ℂ) * f.b + (f.rate : ℂ) * (x * (starRingEnd ℂ) f.s) := by
    have : f.s * (starRingEnd ℂ) f.s = ((‖f.s‖ ^ 2 : ℝ) : ℂ) := by
      rw [Complex.mul_conj, Complex.normSq_eq_norm_sq]
    simp only [FreqF.step]
    push_cast at this ⊢
    rw [← this]; ring
  have hn : 0 ≤ 1 - f.rate * ‖f.s‖ ^ 2 := by
    have : ‖f.s‖ ^ 2 ≤ 1 := pow_le_one₀ (norm_nonneg _) hs
    nlinarith
  rw [e]
  refine (norm_add_le _ _).trans ?_
  rw [norm_mul, norm_mul, norm_mul, Complex.norm_real, Complex.norm_real, Real.norm_of_nonneg hn, Real.norm_of_nonneg h0,
    RCLike.norm_conj]
  linarith

/-- Invariant behind C29. -/
def FreqF.Inv (r : ℝ) (f : FreqF) : Prop :=
  f.rate = r ∧ 0 ≤ r ∧ r ≤ 1 ∧
    ((‖f.s‖ ≤ 1e-8 ∧ ‖f.b‖ ≤ 1 + r * ‖f.s‖ ^ 2 / 2) ∨ (‖f.s‖ = 1 ∧ ‖f.b‖ ≤ 1 + r * 1e-8))

theorem FreqF.Inv.bound {r : ℝ} {f : FreqF} (h : FreqF.Inv r f) : ‖f.b‖ ≤ 1 + r * 1e-8 := by
  obtain ⟨_, h0, h1, h | h⟩ := h
  · have := norm_nonneg f.s
    have : ‖f.s‖ ^ 2 ≤ (1e-8) ^ 2 := pow_le_pow_left₀ this h.1 2
    nlinarith [h.2]
  · exact h.2

theorem FreqF.Inv.step {r : ℝ} {f : FreqF} (h : FreqF.Inv r f) (d : ℂ) : FreqF.Inv r (f.step (normalise d)).2 := by
  obtain ⟨hr, h0, h1, h⟩ := h
  refine ⟨hr, h0, h1, ?_⟩
  have hs : ‖f.s‖ ≤ 1 := by
    rcases h with h | h
    · have : (1e-8 : ℝ) ≤ 1 := by norm_num
      linarith [h.1]
    · exact h.1.le
  have hstep := FreqF.step_norm f (normalise d) (by rw [hr]; exact h0) (by rw [hr]; exact h1) hs
  rw [hr] at hstep
  have hS : (f.step (normalise d)).2.s = normalise d := rfl
  rw [hS]
  have hσ := norm_nonneg f.s
  have hξ := norm_nonneg (normalise d)
  have hβ := norm_nonneg f.b
  have hsq : ‖f.s‖ ^ 2 ≤ 1 := pow_le_one₀ hσ hs
  have hc : 0 ≤ 1 - r * ‖f.s‖ ^ 2 := by nlinarith
  rcases h with ⟨g1, g2⟩ | ⟨g1, g2⟩
  · have hmul := mul_le_mul_of_nonneg_left g2 hc
    have hgen : ‖(f.step (normalise d)).2.b‖ ≤ 1 - r * ‖f.s‖ ^ 2 / 2 + r * ‖normalise d‖ * ‖f.s‖ := by
      have : 0 ≤ (r * ‖f.s‖ ^ 2) ^ 2 := sq_nonneg _
      nlinarith
    rcases norm_normalise d with hd | hd
    · left
      refine ⟨hd, hgen.trans ?_⟩
      have := mul_nonneg h0 (sq_nonneg (‖normalise d‖ - ‖f.s‖))
      nlinarith
    · right
      refine ⟨hd, hgen.trans ?_⟩
      rw [hd]
      have := mul_le_mul_of_nonneg_left g1 h0
      have := mul_nonneg h0 (sq_nonneg ‖f.s‖)
      linarith
  · rw [g1] at hstep hc
    have hmul := mul_le_mul_of_nonneg_left g2 hc
    rcases norm_normalise d with hd | hd
    · left
      refine ⟨hd, hstep.trans ?_⟩
      have := mul_le_mul_of_nonneg_left hd h0
      have := mul_nonneg h0 (sq_nonneg ‖normalise d‖)
      nlinarith
    · right
      refine ⟨hd, hstep.trans ?_⟩
      rw [hd]
      nlinarith

theorem FreqF.Inv.run {r : ℝ} (ds : List ℂ) : ∀ {f : FreqF}, FreqF.Inv r f → ∃ out f',
    runLoop FreqF.step f (ds.map normalise) = (.ok out, f') ∧ FreqF.Inv r f' ∧
      ∀ t ∈ out, -1 < t.1 ∧ t.1 ≤ 1 ∧ ‖t.2.2‖ ≤ 1 + r * 1e-8 := by
  induction ds with
  | nil => intro f h; exact ⟨[], f, rfl, h, by simp⟩
  | cons d ds ih =>
    intro f h
    obtain ⟨out, f', h1, h2, h3⟩ := ih (h.step d)
    refine ⟨(f.b.arg / Real.pi, normalise d - f.b * f.s, f.b) :: out, f', ?_, h2, ?_⟩
    · rw [List.map_cons, runLoop_cons_ok FreqF.step f (f.step (normalise d)).2 _ _ _ rfl]
      simp only [thenRun, h1]
      rfl
    · intro t ht
      rcases List.mem_cons.mp ht with rfl | ht
      · have hpi := Real.pi_pos
        refine ⟨?_, ?_, h.bound⟩
        · rw [lt_div_iff₀ hpi]; linarith [Complex.neg_pi_lt_arg f.b]
        · rw [div_le_iff₀ hpi]; linarith [Complex.arg_le_pi f.b]
      · exact h3 t ht

theorem FreqF.Reach.inv {hilbert : List ℂ → List ℂ} {r : ℝ} {f : FreqF} (h : FreqF.Reach hilbert r f) : FreqF.Inv r f := by
  induction h with
  | new h =>
    unfold FreqF.new at h
    split at h
    · cases h
    · split at h
      · cases h
      · rename_i h1 h2
        push Not at h1 h2
        cases h
        refine ⟨rfl, h2.1, h2.2, .inr ⟨by simp, ?_⟩⟩
        rw [norm_one]
        have := h2.1
        linarith [mul_nonneg this (by norm_num : (0:ℝ) ≤ 1e-8)]
  | @setFrequency f v _ ih =>
    unfold FreqF.setFrequency
    split
    · exact ih
    · obtain ⟨a, b, c, d⟩ := ih
      have hb : ‖cexp (I * Real.pi * v)‖ = 1 := phasor_norm v
      refine ⟨a, b, c, ?_⟩
      rcases d with d | d
      · left
        refine ⟨d.1, ?_⟩
        simp only [hb]
        have := mul_nonneg b (sq_nonneg ‖f.s‖)
        linarith
      · right
        refine ⟨d.1, ?_⟩
        simp only [hb]
        linarith [mul_nonneg b (by norm_num : (0:ℝ) ≤ 1e-8)]
  | @reset f x _ ih =>
    cases x with
    | nonScalar => exact ih
    | scalar x =>
      have hb := ih.bound
      obtain ⟨a, b, c, d⟩ := ih
      refine ⟨a, b, c, .inr ⟨?_, hb⟩⟩
      simp only [FreqF.reset]
      split
      · simp
      · rename_i h
        have : ‖x‖ ≠ 0 := fun h0 => h (by rw [h0]; norm_num)
        rw [norm_div, Complex.norm_real, norm_norm, div_self this]
  | @filter f d _ ih =>
    unfold FreqF.filter
    split
    · exact ih
    · obtain ⟨out, f', h1, h2, _⟩ := FreqF.Inv.run (prepare hilbert d) ih
      rw [h1]; exact h2

/-- C29.  At a fixed rate, whatever the signals, resets and frequency assignments: the coefficient magnitude, in the object and
in every returned coefficient, is at most `1 + rate·10⁻⁸`, every returned frequency lies in `(-1, 1]`, and no nonempty signal
fails. -/
theorem C29_frequency_bounded (hilbert : List ℂ → List ℂ) (r : ℝ) (f : FreqF) (hf : FreqF.Reach hilbert r f) :
    ‖f.b‖ ≤ 1 + r * 1e-8 ∧
      ∀ d, d ≠ [] → ∃ out f', f.filter hilbert d = (.ok out, f') ∧
        ∀ t ∈ out, -1 < t.1 ∧ t.1 ≤ 1 ∧ ‖t.2.2‖ ≤ 1 + r * 1e-8 := by
  refine ⟨hf.inv.bound, fun d hd => ?_⟩
  obtain ⟨out, f', h1, _, h3⟩ := FreqF.Inv.run (prepare hilbert d) hf.inv
  have hl : ¬ d.length = 0 := by simpa using hd
  exact ⟨out, f', by simp only [FreqF.filter, hl, if_false]; exact h1, h3⟩

example : ∃ f, FreqF.Reach id (1/10) f := ⟨⟨1, 1, 0, 1/10⟩, .new (v := 0) (by norm_num [FreqF.new])⟩

/-- Objects reached when no (prepared) sample has a magnitude in `(0, 10⁻⁸]`; here the rate may change too. -/
inductive FreqF.ReachClean (hilbert : List ℂ → List ℂ) : FreqF → Prop
  | new {v r f} : FreqF.new v r = .ok f → ReachClean hilbert f
  | setFrequency {f} (v) : ReachClean hilbert f → ReachClean hilbert (f.setFrequency v).2
  | setRate {f} (v) : ReachClean hilbert f → ReachClean hilbert (f.setRate v).2
  | reset {f} (x) : ReachClean hilbert f → ReachClean hilbert (f.reset x).2
  | filter {f} (d) : (∀ v ∈ prepare hilbert d, v = 0 ∨ 1e-8 < ‖v‖) → ReachClean hilbert f →
      ReachClean hilbert (f.filter hilbert d).2

theorem FreqF.clean_run (ds : List ℂ) (hds : ∀ v ∈ ds, v = 0 ∨ 1e-8 < ‖v‖) : ∀ {f : FreqF},
    (0 ≤ f.rate ∧ f.rate ≤ 1 ∧ (‖f.s‖ = 0 ∨ ‖f.s‖ = 1) ∧ ‖f.b‖ ≤ 1) →
    ∃ out f', runLoop FreqF.step f (ds.map normalise) = (.ok out, f') ∧
      (0 ≤ f'.rate ∧ f'.rate ≤ 1 ∧ (‖f'.s‖ = 0 ∨ ‖f'.s‖ = 1) ∧ ‖f'.b‖ ≤ 1) := by
  induction ds with
  | nil => intro f h; exact ⟨[], f, rfl, h⟩
  | cons d ds ih =>
    intro f h
    obtain ⟨h0, h1, hs, hb⟩ := h
    have hd : ‖normalise d‖ = 0 ∨ ‖normalise d‖ = 1 := by
      rcases hds d (by simp) with rfl | h
      · left; unfold normalise; rw [if_pos (by rw [norm_zero]; norm_num)]; simp
      · rcases norm_normalise d with h2 | h2
        · exfalso
          unfold normalise at h2
          rw [if_neg (not_le.mpr h), norm_div, Complex.norm_real, norm_norm, div_self (by
            have : (0:ℝ) < 1e-8 := by norm_num
            linarith)] at h2
          norm_num at h2
        · exact .inr h2
    have hstep := FreqF.step_norm f (normalise d) h0 h1 (by rcases hs with h | h <;> rw [h]; norm_num)
    have hnew : ‖(f.step (normalise d)).2.b‖ ≤ 1 := by
      refine hstep.trans ?_
      have hb0 := norm_nonneg f.b
      rcases hs with h | h <;> rcases hd with g | g <;> rw [h, g] <;> nlinarith
    obtain ⟨out, f', g1, g2⟩ := ih (fun v hv => hds v (by simp [hv])) (f := (f.step (normalise d)).2) ⟨h0, h1, hd, hnew⟩
    refine ⟨(f.b.arg / Real.pi, normalise d - f.b * f.s, f.b) :: out, f', ?_, g2⟩
    rw [List.map_cons, runLoop_cons_ok FreqF.step f (f.step (normalise d)).2 _ _ _ rfl]
    simp only [thenRun, g1]
    rfl

/-- C29.  When every sample is zero or above the `isclose` threshold, the coefficient magnitude is at most one, under any
changes of rate. -/
theorem C29_frequency_unit_bound (hilbert : List ℂ → List ℂ) (f : FreqF) (hf : FreqF.ReachClean hilbert f) : ‖f.b‖ ≤ 1 := by
  have key : 0 ≤ f.rate ∧ f.rate ≤ 1 ∧ (‖f.s‖ = 0 ∨ ‖f.s‖ = 1) ∧ ‖f.b‖ ≤ 1 := by
    induction hf with
    | new h =>
      unfold FreqF.new at h
      split at h
      · cases h
      · split at h
        · cases h
        · rename_i h1 h2
          push Not at h1 h2
          cases h
          exact ⟨h2.1, h2.2, .inr (by simp), by simp⟩
    | setFrequency v _ ih =>
      unfold FreqF.setFrequency
      split
      · exact ih
      · exact ⟨ih.1, ih.2.1, ih.2.2.1, (phasor_norm v).le⟩
    | setRate v _ ih =>
      unfold FreqF.setRate
      split
      · exact ih
      · rename_i h
        push Not at h
        exact ⟨h.1, h.2, ih.2.2⟩
    | reset x _ ih =>
      cases x with
      | nonScalar => exact ih
      | scalar x =>
        refine ⟨ih.1, ih.2.1, .inr ?_, ih.2.2.2⟩
        simp only [FreqF.reset]
        split
        · simp
        · rename_i h
          have : ‖x‖ ≠ 0 := fun h0 => h (by rw [h0]; norm_num)
          rw [norm_div, Complex.norm_real, norm_norm, div_self this]
    | filter d hd _ ih =>
      unfold FreqF.filter
      split
      · exact ih
      · obtain ⟨out, f', h1, h2⟩ := FreqF.clean_run _ hd ih
        rw [h1]; exact h2
  exact key.2.2.2

example : ∀ v ∈ prepare id [0, I, 2], v = 0 ∨ (1e-8 : ℝ) < ‖v‖ := by
  intro v hv
  have : v ∈ [0, I, 2] := by
    unfold prepare at hv; split at hv <;> exact hv
  simp at this
  rcases this with rfl | rfl | rfl
  · simp
  · right; norm_num
  · right; norm_num

/-- C29.  The bound one does fail when a sample of magnitude `10⁻⁸` occurs: it is not normalised.  Rate 1, filter
`[10⁻⁸ j]`, assign frequency 0, filter `[j]`: the coefficient is `1 + 10⁻⁸ - 10⁻¹⁶`. -/
theorem C29_unit_bound_fails : ∃ f, FreqF.Reach id 1 f ∧ 1 < ‖f.b‖ := by
  have h0 : FreqF.new 0 1 = .ok ⟨1, 1, 0, 1⟩ := by norm_num [FreqF.new]
  refine ⟨_, .filter [I] (.setFrequency 0 (.filter [1e-8 * I] (.new h0))), ?_⟩
  have p1 : prepare id [(1e-8 : ℂ) * I] = [1e-8 * I] := by unfold prepare; split <;> rfl
  have p2 : prepare id [I] = [I] := by unfold prepare; split <;> rfl
  have n1 : normalise (1e-8 * I) = 1e-8 * I := by
    unfold normalise
    rw [if_pos, div_one]
    rw [show (1e-8 : ℂ) = ((1e-8 : ℝ) : ℂ) by push_cast; rfl, norm_mul, Complex.norm_real, Complex.norm_I]
    norm_num
  have n2 : normalise I = I := by
    unfold normalise
    rw [if_neg]
    · simp
    · simp; norm_num
  have e : ((((FreqF.filter id ⟨1, 1, 0, 1⟩ [1e-8 * I]).2.setFrequency 0).2.filter id [I]).2).b = ((1 + 1e-8 - 1e-16 : ℝ) : ℂ) := by
    simp only [FreqF.filter, List.length_singleton, one_ne_zero, if_false, p1, p2, List.map_cons, List.map_nil, n1, n2, runLoop,
      FreqF.step, FreqF.setFrequency]
    have hc : ¬ ((0 : ℝ) < -1 ∨ (0 : ℝ) > 1) := by norm_num
    have h8 : (starRingEnd ℂ) (1e-8 : ℂ) = 1e-8 := by
      rw [show (1e-8 : ℂ) = ((1e-8 : ℝ) : ℂ) by push_cast; rfl, Complex.conj_ofReal]
    simp only [hc, if_false, Complex.ofReal_zero, mul_zero, Complex.exp_zero, map_mul, Complex.conj_I, h8]
    push_cast
    linear_combination (-(1e-8 : ℂ) + 1e-16) * Complex.I_mul_I
  rw [e, Complex.norm_real, Real.norm_of_nonneg (by norm_num)]
  norm_num

/-! ### C30 -/

/-- C30, refuted: "a new filter reports the specified frequency as its first estimate" fails, e.g. for frequency 1/2: the
first estimate is 0 for every signal. -/
theorem C30_constructor_ignores_frequency (hilbert : List ℂ → List ℂ) (v r : ℝ) (f : FreqF) (hf : FreqF.new v r = .ok f)
    (d : List ℂ) (hd0 : d ≠ []) (hd : prepare hilbert d ≠ []) :
    ∃ out f', f.filter hilbert d = (.ok out, f') ∧ ∃ e b, out[0]? = some (0, e, b) := by
  apply C28_frequency_exact hilbert f 0 (by norm_num) (by norm_num) _ d hd0 hd
  unfold FreqF.new at hf
  split at hf
  · cases hf
  · split at hf
    · cases hf
    · cases hf; simp [phasor]

/-- The hypotheses hold: the frequency 1/3. -/
example := C30_constructor_ignores_frequency id (1/3) (1/10) ⟨1, 1, 1/3, 1/10⟩ (by norm_num [FreqF.new]) [I, 2] (by simp)
  (by unfold prepare; split <;> simp)

/-- C30, the witness: frequency 1/2, signal `[j]`. -/
theorem C30_constructor_witness : ¬ ∀ (v r : ℝ) (f : FreqF) (d : List ℂ), -1 < v → v ≤ 1 → FreqF.new v r = .ok f → d ≠ [] →
    ∃ out f', f.filter id d = (.ok out, f') ∧ ∃ e b, out[0]? = some (v, e, b) := by
  intro h
  have hn : FreqF.new (1/2) (1/10) = .ok ⟨1, 1, 1/2, 1/10⟩ := by norm_num [FreqF.new]
  have hp : prepare id [I] ≠ [] := by unfold prepare; split <;> simp
  obtain ⟨o1, f1, a1, e1, b1, c1⟩ := h (1/2) (1/10) _ [I] (by norm_num) (by norm_num) hn (by simp)
  obtain ⟨o2, f2, a2, e2, b2, c2⟩ := C30_constructor_ignores_frequency id (1/2) (1/10) _ hn [I] (by simp) hp
  rw [a1] at a2
  simp only [Prod.mk.injEq, Except.ok.injEq] at a2
  rw [a2.1, c2] at c1
  simp at c1

/-- C30, partial.  Full statement (false for the code, see `C30_constructor_witness`): every new filter reports its specified
frequency first.  What holds: after *assigning* the frequency `v ∈ (-1, 1]`, whatever the object, the next estimate is `v`;
and a new filter with frequency 0 reports 0. -/
theorem C30_starts_at_frequency_partial (hilbert : List ℂ → List ℂ) (f f1 : FreqF) (v : ℝ) (h1 : -1 < v) (h2 : v ≤ 1)
    (hf : f.setFrequency v = (.ok (), f1)) (d : List ℂ) (hd0 : d ≠ []) (hd : prepare hilbert d ≠ []) :
    ∃ out f', f1.filter hilbert d = (.ok out, f') ∧ ∃ e b, out[0]? = some (v, e, b) := by
  apply C28_frequency_exact hilbert f1 v h1 h2 _ d hd0 hd
  unfold FreqF.setFrequency at hf
  split at hf
  · cases hf
  · cases hf; rfl

example : ∃ f1, FreqF.setFrequency ⟨1, 1, 0, 1/10⟩ (1/2) = (.ok (), f1) :=
  ⟨_, by unfold FreqF.setFrequency; rw [if_neg (by norm_num)]⟩

end Verif.Props
