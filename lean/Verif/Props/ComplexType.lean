import Verif.Model.ComplexType
import Verif.Props.Exponential

/- Property C136: signals whose arrays are of complex type in the complex filters. -/

namespace Verif.Props

open Complex Finset Spec

/-- A signal of real type has no imaginary parts. -/
def WellTyped (d : Signal) : Prop := d.isComplex = false → ∀ v ∈ d.x, v.im = 0

/-- C136.  Where some imaginary part is not zero, or the array is of real type, the type makes no difference to ComplexBandpassFilter and
ComplexFrequencyFilter. -/
theorem C136_same (hilbert : List ℂ → List ℂ) (f : Bandpass) (g : FreqF) (d : Signal) (h : d.isComplex = false ∨ ∃ v ∈ d.x, v.im ≠ 0) :
    f.filterTyped hilbert d = f.filter hilbert d.x ∧ g.filterTyped hilbert d = g.filter hilbert d.x := by
  have hp : ∃ d', prepareTyped hilbert d = .ok d' ∧ d'.x = prepare hilbert d.x := by
    unfold prepareTyped prepare hilbertChecked
    by_cases hi : ∃ v ∈ d.x, v.im ≠ 0
    · exact ⟨d, by rw [if_pos hi], by rw [if_pos hi]⟩
    · rw [if_neg hi, if_neg hi]
      rcases h with h | h
      · exact ⟨⟨true, hilbert d.x⟩, by rw [h]; rfl, rfl⟩
      · exact absurd h hi
  obtain ⟨d', h1, h2⟩ := hp
  constructor
  · unfold Bandpass.filterTyped Bandpass.filter
    simp only [h1, h2]
    rcases f.osc.filter (List.replicate (prepare hilbert d.x).length f.frequency) with ⟨_ | _, _⟩ <;> rfl
  · unfold FreqF.filterTyped FreqF.filter
    simp only [h1, h2]

/-- C136.  A signal of complex type all imaginary parts of which are zero raises ValueError, and nothing changes. -/
theorem C136_refused (hilbert : List ℂ → List ℂ) (f : Bandpass) (g : FreqF) (d : Signal) (hc : d.isComplex = true) (h : ∀ v ∈ d.x, v.im = 0) :
    f.filterTyped hilbert d = (.error .valueError, f) ∧ g.filterTyped hilbert d = (.error .valueError, g) := by
  have hp : prepareTyped hilbert d = .error .valueError := by
    unfold prepareTyped hilbertChecked
    rw [if_neg (by rintro ⟨v, hv, hv'⟩; exact hv' (h v hv)), hc]
    rfl
  constructor
  · unfold Bandpass.filterTyped
    rw [hp]
    split <;> rfl
  · unfold FreqF.filterTyped
    rw [hp]
    split <;> rfl

/-- The hypotheses hold: a complex array of real numbers. -/
example (hilbert : List ℂ → List ℂ) (f : Bandpass) (g : FreqF) := C136_refused hilbert f g ⟨true, [1, 2]⟩ rfl (by simp)

/-- C136.  ComplexExponentialFilter accepts no signal of complex type: TypeError if it is real and of magnitudes at most one, otherwise ValueError; the phase is
unchanged.  Signals of real type are filtered as before. -/
theorem C136_exponential (f : CExp) (x : Signal) (hw : WellTyped x) :
    (x.isComplex = true → (x.x ≠ [] ∧ (∀ v ∈ x.x, v.im = 0 ∧ ‖v‖ ≤ 1) → f.filterTyped x = (.error .typeError, f)) ∧
      (¬ (x.x ≠ [] ∧ ∀ v ∈ x.x, v.im = 0 ∧ ‖v‖ ≤ 1) → f.filterTyped x = (.error .valueError, f))) ∧
    (x.isComplex = false → (f.filterTyped x).2 = (f.filter (x.x.map re)).2 ∧
      (f.filterTyped x).1 = (f.filter (x.x.map re)).1.map fun y => ⟨true, y⟩) := by
  refine ⟨fun hc => ⟨fun h => ?_, fun h => ?_⟩, fun hc => ?_⟩
  · unfold CExp.filterTyped
    rw [if_neg, hc]
    · rfl
    · rintro (⟨v, hv, h'⟩ | h' | ⟨v, hv, h'⟩)
      · exact h' (h.2 v hv).1
      · exact h.1 (List.eq_nil_of_length_eq_zero h')
      · exact absurd (h.2 v hv).2 (not_le.mpr h')
  · unfold CExp.filterTyped
    rw [if_pos]
    by_contra hn
    push Not at hn
    exact h ⟨fun h0 => hn.2.1 (by rw [h0]; rfl), fun v hv => ⟨hn.1 v hv, hn.2.2 v hv⟩⟩
  · have hre : ∀ v ∈ x.x, ‖v‖ = |v.re| := by
      intro v hv
      have : v = (v.re : ℂ) := Complex.ext rfl (by rw [hw hc v hv]; rfl)
      rw [this, Complex.norm_real, Complex.ofReal_re, Real.norm_eq_abs]
    by_cases hbad : x.x.length = 0 ∨ ∃ v ∈ x.x, ‖v‖ > 1
    · have h1 : f.filterTyped x = (.error .valueError, f) := by
        unfold CExp.filterTyped
        rw [if_pos (.inr hbad)]
      have h2 : f.filter (x.x.map re) = (.error .valueError, f) := by
        unfold CExp.filter
        rw [if_pos]
        rcases hbad with h | ⟨v, hv, h⟩
        · exact .inl (by rw [List.length_map, h])
        · exact .inr ⟨v.re, List.mem_map_of_mem hv, by rw [← hre v hv]; exact h⟩
      rw [h1, h2]
      exact ⟨rfl, rfl⟩
    · have h1 : f.filterTyped x = match f.filter (x.x.map re) with
          | (.error e, f') => (.error e, f')
          | (.ok y, f') => (.ok ⟨true, y⟩, f') := by
        unfold CExp.filterTyped
        rw [if_neg, hc]
        · rfl
        · rintro (⟨v, hv, h⟩ | h)
          · exact h (hw hc v hv)
          · exact hbad h
      rw [h1]
      rcases f.filter (x.x.map re) with ⟨_ | _, _⟩ <;> exact ⟨rfl, rfl⟩

/-- C136.  What ComplexExponentialFilter produces at frequency zero from phase zero is of complex type and real, so neither of the other filters accepts it: a tone
of frequency zero is refused. -/
theorem C136_zero (hilbert : List ℂ → List ℂ) (N : ℕ) (hN : 0 < N) (f : Bandpass) (g : FreqF) :
    ∃ y q, (⟨0⟩ : CExp).filterTyped ⟨false, List.replicate N 0⟩ = (.ok y, q) ∧ y = ⟨true, List.replicate N 1⟩ ∧
      f.filterTyped hilbert y = (.error .valueError, f) ∧ g.filterTyped hilbert y = (.error .valueError, g) := by
  have hacc : Accepted (List.replicate N (0 : ℝ)) := by
    refine ⟨?_, ?_⟩
    · intro h; have := congrArg List.length h; simp at this; omega
    · intro v hv; rw [List.eq_of_mem_replicate hv]; norm_num
  obtain ⟨y, q, h1, h2, h3⟩ := C25_exponential_phase ⟨0⟩ (List.replicate N 0) hacc
  have hy : y = List.replicate N 1 := by
    apply List.ext_getElem?
    intro n
    by_cases hn : n < N
    · rw [h3 n (by simpa using hn), List.getElem?_replicate, if_pos hn]
      have : ∑ i ∈ range n, at0 (List.replicate N (0 : ℝ)) i = 0 := by
        apply sum_eq_zero
        intro i hi
        have : i < N := by have := mem_range.mp hi; omega
        simp [at0, this]
      rw [this]
      simp
    · rw [List.getElem?_eq_none (by rw [h2]; simpa using hn), List.getElem?_eq_none (by simpa using hn)]
  have ht := (C136_exponential ⟨0⟩ ⟨false, List.replicate N 0⟩ (by intro _ v hv; rw [List.eq_of_mem_replicate hv]; rfl)).2 rfl
  have hm : (List.replicate N (0 : ℂ)).map re = List.replicate N 0 := by simp
  simp only [hm, h1] at ht
  refine ⟨⟨true, y⟩, q, Prod.ext ht.2 ht.1, by rw [hy], ?_⟩
  apply C136_refused hilbert f g _ rfl
  intro v hv
  simp only [hy] at hv
  rw [List.eq_of_mem_replicate hv]; rfl

example (hilbert : List ℂ → List ℂ) (f : Bandpass) (g : FreqF) := C136_zero hilbert 3 (by norm_num) f g

/-- C136.  Cutting a complex signal into calls may therefore fail where the whole is accepted. -/
theorem C136_cut (hilbert : List ℂ → List ℂ) (f : Bandpass) (g : FreqF) (v w : ℂ) (hv : v.im = 0) (hw : w.im ≠ 0) :
    (∃ out g', g.filterTyped hilbert ⟨true, [v, w]⟩ = (.ok out, g')) ∧ f.filterTyped hilbert ⟨true, [v]⟩ = (.error .valueError, f) ∧
      g.filterTyped hilbert ⟨true, [v]⟩ = (.error .valueError, g) := by
  refine ⟨?_, C136_refused hilbert f g ⟨true, [v]⟩ rfl (by simpa using hv)⟩
  rw [(C136_same hilbert f g ⟨true, [v, w]⟩ (.inr ⟨w, by simp, hw⟩)).2]
  simp [FreqF.filter, prepare, hw, runLoop, FreqF.step]

/-- The hypotheses hold for `[1, j]`, whose first sample alone is refused. -/
example (hilbert : List ℂ → List ℂ) (f : Bandpass) (g : FreqF) : g.filterTyped hilbert ⟨true, [1]⟩ = (.error .valueError, g) ∧
    f.filterTyped hilbert ⟨true, [1, I]⟩ = f.filter hilbert [1, I] :=
  ⟨(C136_cut hilbert f g 1 I rfl (by simp)).2.2, (C136_same hilbert f g ⟨true, [1, I]⟩ (.inr ⟨I, by simp, by simp⟩)).1⟩

example (f : CExp) : f.filterTyped ⟨true, [1 / 2]⟩ = (.error .typeError, f) ∧ f.filterTyped ⟨true, [I]⟩ = (.error .valueError, f) :=
  ⟨((C136_exponential f ⟨true, [1 / 2]⟩ (by intro h; cases h)).1 rfl).1 ⟨by simp, by simp; norm_num⟩,
    ((C136_exponential f ⟨true, [I]⟩ (by intro h; cases h)).1 rfl).2 (by simp)⟩

end Verif.Props
