import Verif.Lemmas.Hilbert
import Verif.Props.AdaptiveStream
import Verif.Props.Fourier

/-
Real signals given to ComplexBandpassFilter and ComplexFrequencyFilter (C77): the analytic signal has the signal as its real part, and a cosine
with a whole number of periods per call is treated as the complex tone.  A signal divided into real and complex chunks is not treated as the
whole (C76).
-/

namespace Verif.Props

open Finset Spec Complex

theorem prepare_real (hilbert : List ℂ → List ℂ) (d : List ℂ) (h : ∀ v ∈ d, v.im = 0) : prepare hilbert d = hilbert d := by
  unfold prepare
  rw [if_neg]
  rintro ⟨v, hv, hv'⟩
  exact hv' (h v hv)

/-- C77.  A real signal is replaced by a complex one of the same length whose real part is the signal. -/
theorem C77_real_part (d : List ℂ) (hd : ∀ v ∈ d, v.im = 0) :
    (prepare hilbertRef d).length = d.length ∧ ∀ n < d.length, (at0 (prepare hilbertRef d) n).re = (at0 d n).re := by
  rw [prepare_real _ d hd]
  refine ⟨hilbertRef_length d, fun n hn => ?_⟩
  have := congrArg Complex.re (hilbertRef_re d hd n hn)
  simp at this
  linarith

/-- A real signal. -/
example : ∀ v ∈ ([1, 0, -2] : List ℂ), v.im = 0 := by simp

theorem cosine_real (A f p : ℝ) (N : ℕ) : ∀ v ∈ cosine A f p N, v.im = 0 := by
  intro v hv
  simp only [cosine, List.mem_map] at hv
  obtain ⟨n, -, rfl⟩ := hv
  exact Complex.ofReal_im _

theorem cosine_length (A f p : ℝ) (N : ℕ) : (cosine A f p N).length = N := by simp [cosine]

theorem cosine_phasors (A t : ℝ) : ((A * Real.cos (Real.pi * t) : ℝ) : ℂ) = A / 2 * phasor t + A / 2 * phasor (-t) := by
  unfold phasor
  push_cast
  rw [Complex.cos]
  rw [show (Real.pi : ℂ) * t * I = I * Real.pi * t by ring, show -((Real.pi : ℂ) * t) * I = I * Real.pi * (-t) by ring]
  ring

/-- C77.  A cosine with a whole number `m` of periods in the `N` samples of a call, below the Nyquist frequency, is replaced by the complex
tone of the same amplitude, frequency and phase. -/
theorem C77_real_tone (A p : ℝ) (m N : ℕ) (hm0 : 0 < m) (hm : 2 * m < N) :
    prepare hilbertRef (cosine A (2 * (m : ℝ) / N) p N) = tone A (2 * (m : ℝ) / N) p N := by
  have hN0 : (N : ℂ) ≠ 0 := by exact_mod_cast (by omega : N ≠ 0)
  rw [prepare_real _ _ (cosine_real _ _ _ _)]
  have hl : (cosine A (2 * (m : ℝ) / N) p N).length = N := cosine_length _ _ _ _
  have hlp : (hilbertRef (cosine A (2 * (m : ℝ) / N) p N)).length = N := by rw [hilbertRef_length, hl]
  have hp : ∀ n : ℕ, phasor (p + 2 * (m : ℝ) / N * n) = phasor p * turn ((m : ℂ) * (n : ℂ) / (N : ℂ)) := by
    intro n
    rw [phasor_add, ← turn_phasor (2 * (m : ℝ) / N * n)]
    congr 2
    push_cast; ring
  have hp' : ∀ n : ℕ, phasor (-(p + 2 * (m : ℝ) / N * n)) = phasor (-p) * turn (-((m : ℂ) * (n : ℂ) / (N : ℂ))) := by
    intro n
    rw [neg_add, phasor_add, ← turn_phasor (-(2 * (m : ℝ) / N * n))]
    congr 2
    push_cast; ring
  apply List.ext_getElem
  · rw [hlp, tone_length]
  intro n h1 h2
  have hn : n < N := by rw [hlp] at h1; exact h1
  rw [← at0_of_lt _ _ h1, hilbertRef_bins _ (A / 2 * phasor p) (A / 2 * phasor (-p)) m hm0 (by rw [hl]; exact hm) ?_ n (by rw [hl]; exact hn), hl]
  · simp only [tone, List.getElem_map, List.getElem_range]
    rw [hp]; ring
  · intro k hk
    rw [at0_of_lt _ _ hk, hl]
    simp only [cosine, List.getElem_map, List.getElem_range]
    rw [cosine_phasors, hp, hp']; ring

/-- Two periods in eight samples. -/
example : 0 < 2 ∧ 2 * 2 < 8 := by norm_num

/-- C77.  ComplexBandpassFilter called `K` times with the same `N` samples of a real cosine, `m` whole periods at the filter's own frequency and
in phase with its oscillator: the coefficient approaches the amplitude geometrically. -/
theorem C77_bandpass_real (f : Bandpass) (hf : Bandpass.Reach hilbertRef f) (A : ℝ) (m N K : ℕ) (hm0 : 0 < m) (hm : 2 * m < N)
    (hfr : f.frequency = 2 * (m : ℝ) / N) :
    ∃ out f', callChunks (Bandpass.filter hilbertRef) f (List.replicate K (cosine A (2 * (m : ℝ) / N) f.osc.phase N)) = (.ok out, f') ∧
      out.length = K * N ∧
      (∀ n, n < K * N → ∃ y e b, out[n]? = some (y, e, b) ∧ b - A = (1 - f.rate) ^ n * (f.b - A) ∧ ‖e‖ = (1 - f.rate) ^ n * ‖A - f.b‖) ∧
      f'.b - A = (1 - f.rate) ^ (K * N) * (f.b - A) := by
  have hN : (N : ℝ) ≠ 0 := by exact_mod_cast (by omega : N ≠ 0)
  have htone : ∀ K : ℕ, (List.replicate K (tone A f.frequency f.osc.phase N)).flatten = tone A f.frequency f.osc.phase (K * N) := by
    intro K
    induction K with
    | zero => simp [tone]
    | succ K ih =>
      rw [List.replicate_succ, List.flatten_cons, ih, Nat.succ_mul, Nat.add_comm, tone_add]
      congr 1
      have : f.osc.phase + f.frequency * N = f.osc.phase + 2 * ((m : ℤ) : ℝ) := by
        rw [hfr]; push_cast; field_simp
      rw [this, tone_periodic]
  obtain ⟨out, f', h1, h2, h3, h4⟩ := C27_bandpass_converges hilbertRef f hf A (K * N)
    (List.replicate K (cosine A (2 * (m : ℝ) / N) f.osc.phase N)) (by
      intro c hc
      rw [List.eq_of_mem_replicate hc, C77_real_tone A _ m N hm0 hm]
      constructor
      · intro q; have := congrArg List.length q; rw [cosine_length] at this; simp at this; omega
      · intro q; have := congrArg List.length q; rw [tone_length] at this; simp at this; omega)
    (by rw [List.map_replicate, C77_real_tone A _ m N hm0 hm, ← hfr, htone])
  refine ⟨out, f', h1, h2, fun n hn => ?_, h4⟩
  obtain ⟨y, e, b, a1, a2, -, -, a5⟩ := h3 n hn
  exact ⟨y, e, b, a1, a2, a5⟩

/-- A reachable filter at a quarter of the Nyquist frequency. -/
example : ∃ f, Bandpass.Reach hilbertRef f ∧ f.frequency = 2 * ((1 : ℕ) : ℝ) / (8 : ℕ) := by
  refine ⟨⟨(eps : ℂ), ⟨0⟩, 1/4, 1/10⟩, .new (v := 1/4) (r := 1/10) (by norm_num [Bandpass.new]), by norm_num⟩

/-- C77.  ComplexFrequencyFilter given a real cosine with `m` whole periods in `N` samples: after the first sample the coefficient approaches the
phasor of the frequency geometrically. -/
theorem C77_frequency_real (f : FreqF) (A p : ℝ) (hA : 1e-8 < |A|) (m N : ℕ) (hm0 : 0 < m) (hm : 2 * m < N) :
    ∃ out f' b1, f.filter hilbertRef (cosine A (2 * (m : ℝ) / N) p N) = (.ok out, f') ∧ out.length = N ∧
      (∀ n, n < N → ∃ y e b, out[n]? = some (y, e, b) ∧ y = b.arg / Real.pi ∧
        (1 ≤ n → b - phasor (2 * (m : ℝ) / N) = (1 - f.rate) ^ (n - 1) * (b1 - phasor (2 * (m : ℝ) / N)))) ∧
      f'.b - phasor (2 * (m : ℝ) / N) = (1 - f.rate) ^ (N - 1) * (b1 - phasor (2 * (m : ℝ) / N)) := by
  have h1 : (cosine A (2 * (m : ℝ) / N) p N) ≠ [] := by
    intro q; have := congrArg List.length q; rw [cosine_length] at this; simp at this; omega
  have h2 := C77_real_tone A p m N hm0 hm
  obtain ⟨M, hM⟩ : ∃ M, N = M + 1 := ⟨N - 1, by omega⟩
  have h3 : tone A (2 * (m : ℝ) / N) p N = tone A (2 * (m : ℝ) / N) p (M + 1) := by rw [← hM]
  obtain ⟨out, f', b1, e1, e2, -, e4, e5, -, -⟩ := C28_frequency_locks hilbertRef f A (by rwa [Complex.norm_real]) _ p M _ h1 (h2.trans h3)
  refine ⟨out, f', b1, e1, by omega, fun n hn => ?_, by rw [e5]; congr 2; omega⟩
  obtain ⟨y, e, b, a1, a2, -, a4⟩ := e4 n (by omega)
  exact ⟨y, e, b, a1, a2, a4⟩

/-- Amplitude, periods and length satisfying the hypotheses. -/
example : (1e-8 : ℝ) < |(-3 : ℝ)| ∧ 0 < 3 ∧ 2 * 3 < 7 := by norm_num

theorem turn_quarter : turn (1 / 4) = I := by
  unfold turn
  rw [show 2 * (Real.pi : ℂ) * I * (1 / 4) = ((Real.pi / 2 : ℝ) : ℂ) * I by push_cast; ring, Complex.exp_mul_I]
  rw [← Complex.ofReal_cos, ← Complex.ofReal_sin]
  simp

/-- The analytic signal of an impulse of four samples has the imaginary value `i/2` in its second sample. -/
theorem hilbertRef_impulse : at0 (hilbertRef [1, 0, 0, 0]) 1 = I / 2 := by
  have h2 : turn (1 / 2) = -1 := by
    rw [show (1 / 2 : ℂ) = 1 / 4 + 1 / 4 by norm_num, turn_add, turn_quarter]; simp
  rw [at0_hilbertRef _ _ (by simp)]
  have hX : ∀ k : ℕ, ∑ m ∈ range 4, at0 ([1, 0, 0, 0] : List ℂ) m * turn (-((k : ℂ) * (m : ℂ) / ((4 : ℕ) : ℂ))) = 1 := by
    intro k
    simp [sum_range_succ, at0, turn_zero]
  simp only [List.length_cons, List.length_nil, Nat.zero_add, Nat.reduceAdd, hX]
  simp only [sum_range_succ, sum_range_zero, hilbertWeight]
  norm_num [turn_zero, turn_quarter, h2]
  ring

/-- C76.  The condition on the chunks cannot be dropped: a real chunk of four samples followed by an imaginary sample is not treated as the whole
signal, whatever the filter. -/
theorem C76_real_chunk_differs (f : Bandpass) (hf : Bandpass.Reach hilbertRef f) :
    ∃ y1 y2 f1 f2, callChunks (Bandpass.filter hilbertRef) f [[1, 0, 0, 0], [I]] = (.ok y1, f1) ∧
      f.filter hilbertRef [1, 0, 0, 0, I] = (.ok y2, f2) ∧ y1 ≠ y2 := by
  have hr : ∀ v ∈ ([1, 0, 0, 0] : List ℂ), v.im = 0 := by simp
  obtain ⟨H, hH⟩ : ∃ H, H = hilbertRef [1, 0, 0, 0] := ⟨_, rfl⟩
  have hHl : H.length = 4 := by rw [hH, hilbertRef_length]; rfl
  have hH0 : at0 H 1 = I / 2 := by rw [hH]; exact hilbertRef_impulse
  obtain ⟨o, e1, -⟩ := CExp.filter_const f.osc f.frequency hf.spec.1 4 (by norm_num)
  have hfil : f.filter hilbertRef [1, 0, 0, 0] = (.ok (Bandpass.loop f.rate f.b ((tone 1 f.frequency f.osc.phase 4).zip H)).1,
      { f with osc := o, b := (Bandpass.loop f.rate f.b ((tone 1 f.frequency f.osc.phase 4).zip H)).2 }) := by
    simp only [Bandpass.filter, prepare_real _ _ hr, ← hH, hHl, e1]
    simp
  obtain ⟨o2, -, e2⟩ := Bandpass.filter_loop hilbertRef { f with osc := o, b := (Bandpass.loop f.rate f.b ((tone 1 f.frequency f.osc.phase 4).zip H)).2 }
    hf.spec.1 [I] (by simp)
  obtain ⟨o3, -, e3⟩ := Bandpass.filter_loop hilbertRef f hf.spec.1 [1, 0, 0, 0, I] (by simp)
  obtain ⟨z, hz⟩ : ∃ z f1, callChunks (Bandpass.filter hilbertRef) f [[1, 0, 0, 0], [I]] =
      (.ok ((Bandpass.loop f.rate f.b ((tone 1 f.frequency f.osc.phase 4).zip H)).1 ++ z), f1) :=
    ⟨_, _, by simp only [callChunks, hfil, e2]; rfl⟩
  obtain ⟨f1, hz⟩ := hz
  refine ⟨_, _, _, _, hz, e3, ?_⟩
  obtain ⟨a, b, c, d, hH'⟩ : ∃ a b c d, H = [a, b, c, d] := by
    match H, hHl with
    | [a, b, c, d], _ => exact ⟨a, b, c, d, rfl⟩
  have hb : b = I / 2 := by rw [hH'] at hH0; simpa [at0] using hH0
  clear hz e3 e2 hfil e1 hH
  subst hH' hb
  intro q
  simp only [tone, List.length_cons, List.length_nil, Nat.zero_add, Nat.reduceAdd, List.range_succ, List.range_zero, List.nil_append,
    List.cons_append, List.map_cons, List.map_nil, List.zip_cons_cons, Bandpass.loop, List.cons.injEq, Prod.mk.injEq] at q
  obtain ⟨⟨-, q1, -⟩, ⟨q2, q3, -⟩, -⟩ := q
  rw [q2, sub_left_inj] at q3
  simp at q3

/-- A reachable filter. -/
example : ∃ f, Bandpass.Reach hilbertRef f :=
  ⟨⟨(eps : ℂ), ⟨0⟩, 1/2, 1/10⟩, .new (v := 1/2) (r := 1/10) (by norm_num [Bandpass.new])⟩

end Verif.Props
