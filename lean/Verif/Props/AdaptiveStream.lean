import Verif.Props.Adaptive

/-
Streaming of ComplexBandpassFilter and ComplexFrequencyFilter (C76): when every chunk has a sample with nonzero imaginary part, calls chunk by
chunk return what one call on the whole signal returns.
-/

namespace Verif.Props

open Finset Spec Complex

theorem prepare_complex (hilbert : List ℂ → List ℂ) (d : List ℂ) (h : ∃ v ∈ d, v.im ≠ 0) : prepare hilbert d = d := by
  unfold prepare; rw [if_pos h]

theorem Bandpass.loop_append (rate : ℝ) (b : ℂ) (l₁ l₂ : List (ℂ × ℂ)) :
    Bandpass.loop rate b (l₁ ++ l₂) =
      ((Bandpass.loop rate b l₁).1 ++ (Bandpass.loop rate (Bandpass.loop rate b l₁).2 l₂).1,
        (Bandpass.loop rate (Bandpass.loop rate b l₁).2 l₂).2) := by
  induction l₁ generalizing b with
  | nil => simp [Bandpass.loop]
  | cons p t ih =>
    obtain ⟨x, d⟩ := p
    simp only [List.cons_append, Bandpass.loop, ih]

theorem Bandpass.filter_loop (hilbert : List ℂ → List ℂ) (f : Bandpass) (hf : -1 ≤ f.frequency ∧ f.frequency ≤ 1) (d : List ℂ)
    (hd : ∃ v ∈ d, v.im ≠ 0) :
    ∃ o : CExp, (∃ k : ℤ, o.phase = f.osc.phase + f.frequency * (d.length : ℝ) + 2 * (k : ℝ)) ∧
      f.filter hilbert d =
        (.ok (Bandpass.loop f.rate f.b ((tone 1 f.frequency f.osc.phase d.length).zip d)).1,
          { f with osc := o, b := (Bandpass.loop f.rate f.b ((tone 1 f.frequency f.osc.phase d.length).zip d)).2 }) := by
  have hl : ¬ d.length = 0 := by
    obtain ⟨v, hv, -⟩ := hd
    intro q; rw [List.length_eq_zero_iff] at q; subst q; simp at hv
  obtain ⟨o, h1, h2⟩ := CExp.filter_const f.osc f.frequency hf d.length hl
  refine ⟨o, h2, ?_⟩
  simp only [Bandpass.filter, hl, if_false, prepare_complex hilbert d hd, h1]

/-- C76.  ComplexBandpassFilter: any division of a complex signal into chunks, each with a nonzero imaginary part somewhere, gives the
outputs, errors and coefficients of one call, and leaves the same coefficient; the phases left behind differ by whole turns. -/
theorem C76_bandpass_stream (hilbert : List ℂ → List ℂ) (f : Bandpass) (hf : Bandpass.Reach hilbert f) (chunks : List (List ℂ))
    (h0 : chunks ≠ []) (hc : ∀ c ∈ chunks, ∃ v ∈ c, v.im ≠ 0) :
    ∃ y f1 f2, callChunks (Bandpass.filter hilbert) f chunks = (.ok y, f1) ∧ f.filter hilbert chunks.flatten = (.ok y, f2) ∧
      f1.b = f2.b ∧ f1.frequency = f2.frequency ∧ f1.rate = f2.rate ∧ ∃ k : ℤ, f1.osc.phase = f2.osc.phase + 2 * (k : ℝ) := by
  have key : ∀ (cs : List (List ℂ)) (f : Bandpass), (-1 ≤ f.frequency ∧ f.frequency ≤ 1) → (∀ c ∈ cs, ∃ v ∈ c, v.im ≠ 0) →
      ∃ o : CExp, (∃ k : ℤ, o.phase = f.osc.phase + f.frequency * (cs.flatten.length : ℝ) + 2 * (k : ℝ)) ∧
        callChunks (Bandpass.filter hilbert) f cs =
          (.ok (Bandpass.loop f.rate f.b ((tone 1 f.frequency f.osc.phase cs.flatten.length).zip cs.flatten)).1,
            { f with osc := o, b := (Bandpass.loop f.rate f.b ((tone 1 f.frequency f.osc.phase cs.flatten.length).zip cs.flatten)).2 }) := by
    intro cs
    induction cs with
    | nil =>
      intro f _ _
      exact ⟨f.osc, ⟨0, by simp⟩, by simp [callChunks, Bandpass.loop]⟩
    | cons c cs ih =>
      intro f hfr hc
      obtain ⟨o1, ⟨k1, hk1⟩, e1⟩ := Bandpass.filter_loop hilbert f hfr c (hc c (by simp))
      obtain ⟨o, ⟨k, hk⟩, e⟩ := ih
        { f with osc := o1, b := (Bandpass.loop f.rate f.b ((tone 1 f.frequency f.osc.phase c.length).zip c)).2 } hfr
        (fun d hd => hc d (by simp [hd]))
      simp only at hk e
      have hz : (tone 1 f.frequency f.osc.phase (c ++ cs.flatten).length).zip (c ++ cs.flatten) =
          (tone 1 f.frequency f.osc.phase c.length).zip c ++ (tone 1 f.frequency o1.phase cs.flatten.length).zip cs.flatten := by
        rw [List.length_append, tone_add, List.zip_append (by rw [tone_length]), hk1, tone_periodic]
      refine ⟨o, ⟨k + k1, ?_⟩, ?_⟩
      · rw [hk, hk1, List.flatten_cons, List.length_append]; push_cast; ring
      · simp only [callChunks, e1, e, List.flatten_cons, hz, Bandpass.loop_append]
  obtain ⟨o, ⟨k, hk⟩, e⟩ := key chunks f hf.spec.1 hc
  have hw : ∃ v ∈ chunks.flatten, v.im ≠ 0 := by
    obtain ⟨c, hcm⟩ := List.exists_mem_of_ne_nil _ h0
    obtain ⟨v, hv, hv'⟩ := hc c hcm
    exact ⟨v, List.mem_flatten.mpr ⟨c, hcm, hv⟩, hv'⟩
  obtain ⟨o2, ⟨k2, hk2⟩, e2⟩ := Bandpass.filter_loop hilbert f hf.spec.1 _ hw
  exact ⟨_, _, _, e, e2, rfl, rfl, rfl, k - k2, by simp only [hk, hk2]; push_cast; ring⟩

/-- A reachable filter and two chunks. -/
example : (∃ f, Bandpass.Reach id f) ∧ ∀ c ∈ [[1, I], [2 * I]], ∃ v ∈ c, v.im ≠ 0 := by
  refine ⟨⟨⟨(eps : ℂ), ⟨0⟩, 1/2, 1/10⟩, .new (v := 1/2) (r := 1/10) (by norm_num [Bandpass.new])⟩, ?_⟩
  simp

/-- C76.  ComplexFrequencyFilter: any division of a complex signal into such chunks gives the result and the state of one call. -/
theorem C76_frequency_stream (hilbert : List ℂ → List ℂ) (f : FreqF) (chunks : List (List ℂ)) (h0 : chunks ≠ [])
    (hc : ∀ c ∈ chunks, ∃ v ∈ c, v.im ≠ 0) :
    callChunks (FreqF.filter hilbert) f chunks = f.filter hilbert chunks.flatten := by
  have one : ∀ (f : FreqF) (d : List ℂ), (∃ v ∈ d, v.im ≠ 0) → f.filter hilbert d = runLoop FreqF.step f (d.map normalise) := by
    intro f d hd
    have hl : ¬ d.length = 0 := by
      obtain ⟨v, hv, -⟩ := hd
      intro q; rw [List.length_eq_zero_iff] at q; subst q; simp at hv
    simp only [FreqF.filter, hl, if_false, prepare_complex hilbert d hd]
  have key : ∀ (cs : List (List ℂ)) (f : FreqF), (∀ c ∈ cs, ∃ v ∈ c, v.im ≠ 0) →
      callChunks (FreqF.filter hilbert) f cs = runLoop FreqF.step f (cs.flatten.map normalise) := by
    intro cs
    induction cs with
    | nil => intro f _; simp [callChunks, runLoop]
    | cons c cs ih =>
      intro f hc
      simp only [List.flatten_cons, List.map_append, runLoop_append, callChunks, one f c (hc c (by simp))]
      rcases h : runLoop FreqF.step f (c.map normalise) with ⟨r, st⟩
      cases r with
      | error e => simp [thenRun]
      | ok ys =>
        simp only [thenRun, ih st (fun d hd => hc d (by simp [hd]))]
        rcases runLoop FreqF.step st (cs.flatten.map normalise) with ⟨_ | _, _⟩ <;> rfl
  have hw : ∃ v ∈ chunks.flatten, v.im ≠ 0 := by
    obtain ⟨c, hcm⟩ := List.exists_mem_of_ne_nil _ h0
    obtain ⟨v, hv, hv'⟩ := hc c hcm
    exact ⟨v, List.mem_flatten.mpr ⟨c, hcm, hv⟩, hv'⟩
  rw [key chunks f hc, one f _ hw]

/-- Chunks satisfying the hypothesis. -/
example : ([[1, I], [2 * I]] : List (List ℂ)) ≠ [] ∧ ∀ c ∈ [[1, I], [2 * I]], ∃ v ∈ c, v.im ≠ 0 := by
  simp

end Verif.Props
