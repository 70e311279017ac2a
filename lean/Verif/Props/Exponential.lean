import Verif.Model.Adaptive
import Verif.Lemmas.Loop
import Verif.Lemmas.Fir
import Mathlib.Tactic.NormNum
import Mathlib.Tactic.Linarith

/-
Properties C25–C26 of ComplexExponentialFilter (diamondback/filters/complex_exponential_filter.py).
-/

namespace Verif.Props

open Finset Spec Complex

theorem CExp.loop_spec (xs : List ℝ) : ∀ phase : ℝ,
    (CExp.loop phase xs).1.length = xs.length ∧
    (∀ n, n < xs.length →
      (CExp.loop phase xs).1[n]? = some (cexp (I * Real.pi * (phase + ∑ i ∈ range n, at0 xs i : ℝ)))) ∧
    (CExp.loop phase xs).2 = phase + xs.sum := by
  induction xs with
  | nil => intro phase; simp [CExp.loop]
  | cons x xs ih =>
    intro phase
    obtain ⟨h1, h2, h3⟩ := ih (phase + x)
    refine ⟨by simp [CExp.loop, h1], ?_, by simp only [CExp.loop, h3, List.sum_cons]; ring⟩
    intro n hn
    rcases n with _ | n
    · simp [CExp.loop]
    · simp only [CExp.loop, List.getElem?_cons_succ]
      rw [h2 n (by simpa using hn), sum_range_succ']
      simp only [at0_cons_succ, at0_cons_zero]
      congr 4
      ring

theorem truncZ_spec (v : ℝ) : |v - truncZ v| < 1 := by
  unfold truncZ
  split
  · rw [abs_lt]; constructor <;> linarith [Int.floor_le v, Int.lt_floor_add_one v]
  · rw [abs_lt]; constructor <;> linarith [Int.le_ceil v, Int.ceil_lt_add_one v]

theorem fmod2_lt (v : ℝ) : |fmod2 v| < 2 := by
  have h := truncZ_spec (v / 2)
  rw [abs_lt] at h ⊢
  unfold fmod2
  constructor <;> linarith [h.1, h.2]

/-- The wrapped phase lies in `[-1, 1]` and differs from the unwrapped one by an even integer. -/
theorem wrapPhase_spec (v : ℝ) : -1 ≤ wrapPhase v ∧ wrapPhase v ≤ 1 ∧ ∃ k : ℤ, wrapPhase v = v + 2 * k := by
  have h2 := fmod2_lt v
  rw [abs_lt] at h2
  unfold wrapPhase
  simp only
  by_cases h : |fmod2 v| > 1
  · rw [if_pos h]
    rcases lt_trichotomy (fmod2 v) 0 with h0 | h0 | h0
    · rw [abs_of_neg h0] at h
      simp only [sign_neg h0, SignType.coe_neg, SignType.coe_one]
      refine ⟨by linarith, by linarith, -truncZ (v / 2) + 1, ?_⟩
      unfold fmod2; push_cast; ring
    · rw [h0] at h; norm_num at h
    · rw [abs_of_pos h0] at h
      simp only [sign_pos h0, SignType.coe_one]
      refine ⟨by linarith, by linarith, -truncZ (v / 2) - 1, ?_⟩
      unfold fmod2; push_cast; ring
  · rw [if_neg h]
    rw [gt_iff_lt, not_lt, abs_le] at h
    refine ⟨h.1, h.2, -truncZ (v / 2), ?_⟩
    unfold fmod2; push_cast; ring

/-- An accepted signal. -/
def Accepted (x : List ℝ) : Prop := x ≠ [] ∧ ∀ v ∈ x, |v| ≤ 1

theorem CExp.filter_spec (f : CExp) (x : List ℝ) (hx : Accepted x) :
    f.filter x = (.ok (CExp.loop f.phase x).1, ⟨wrapPhase (f.phase + x.sum)⟩) := by
  have h : ¬ (x.length = 0 ∨ ∃ v ∈ x, |v| > 1) := by
    rintro (h | ⟨v, hv, h⟩)
    · exact hx.1 (by simpa using h)
    · exact absurd (hx.2 v hv) (not_le.mpr h)
  obtain ⟨p1, p2, _⟩ := wrapPhase_spec (f.phase + x.sum)
  have hs : ¬ (wrapPhase (f.phase + x.sum) < -1 ∨ wrapPhase (f.phase + x.sum) > 1) := by
    rintro (h | h) <;> linarith
  simp only [CExp.filter, h, if_false, (CExp.loop_spec x f.phase).2.2, CExp.setPhase, hs]

/-- C25.  Every accepted signal: sample `n` is `exp(jπ(phase + x₀ + … + x_{n-1}))`. -/
theorem C25_exponential_phase (f : CExp) (x : List ℝ) (hx : Accepted x) :
    ∃ y f', f.filter x = (.ok y, f') ∧ y.length = x.length ∧
      ∀ n, n < x.length → y[n]? = some (cexp (I * Real.pi * (f.phase + ∑ i ∈ range n, at0 x i : ℝ))) :=
  ⟨_, _, CExp.filter_spec f x hx, (CExp.loop_spec x f.phase).1, (CExp.loop_spec x f.phase).2.1⟩

example := C25_exponential_phase ⟨1 / 4⟩ [1 / 2, -1] ⟨by simp, by norm_num⟩

/-- C25.  Every returned sample has magnitude one. -/
theorem C25_exponential_unit (f : CExp) (x : List ℝ) (hx : Accepted x) :
    ∃ y f', f.filter x = (.ok y, f') ∧ ∀ v ∈ y, ‖v‖ = 1 := by
  obtain ⟨y, f', h1, h2, h3⟩ := C25_exponential_phase f x hx
  refine ⟨y, f', h1, fun v hv => ?_⟩
  obtain ⟨n, hn, rfl⟩ := List.mem_iff_getElem.mp hv
  have := h3 n (by omega)
  rw [List.getElem?_eq_getElem hn] at this
  rw [Option.some.inj this, Complex.norm_exp]
  simp

/-- The hypotheses of `C25_exponential_phase`, `C26_phase_congruent` and `C26_exponential_chunks` hold of a signal in the range. -/
example : Accepted [1/2, -1, 1] := by
  refine ⟨by simp, ?_⟩
  intro v hv
  simp at hv
  rcases hv with rfl | rfl | rfl <;> norm_num [abs_le]

/-- One public call on a ComplexExponentialFilter. -/
inductive CExpOp where
  | filter (x : List ℝ)
  | setPhase (p : ℝ)

/-- Object after one call. -/
noncomputable def CExp.apply (f : CExp) : CExpOp → CExp
  | .filter x => (f.filter x).2
  | .setPhase p => (f.setPhase p).2

/-- C26.  From an accepted construction on, after any history of calls (accepted or rejected), the phase is in `[-1, 1]`,
and no accepted signal ever fails. -/
theorem C26_phase_bounded (p : ℝ) (f : CExp) (hf : CExp.new p = .ok f) (ops : List CExpOp) :
    -1 ≤ (ops.foldl CExp.apply f).phase ∧ (ops.foldl CExp.apply f).phase ≤ 1 ∧
      ∀ x, Accepted x → ∃ y, ((ops.foldl CExp.apply f).filter x).1 = .ok y := by
  have h0 : -1 ≤ f.phase ∧ f.phase ≤ 1 := by
    unfold CExp.new at hf
    split at hf
    · simp at hf
    · rename_i h
      push Not at h
      cases hf; exact h
  have key : ∀ (ops : List CExpOp) (f : CExp), -1 ≤ f.phase ∧ f.phase ≤ 1 →
      -1 ≤ (ops.foldl CExp.apply f).phase ∧ (ops.foldl CExp.apply f).phase ≤ 1 := by
    intro ops
    induction ops with
    | nil => intro f h; exact h
    | cons op ops ih =>
      intro f h
      apply ih
      cases op with
      | filter x =>
        by_cases hx : Accepted x
        · simp only [CExp.apply, CExp.filter_spec f x hx]
          exact ⟨(wrapPhase_spec _).1, (wrapPhase_spec _).2.1⟩
        · have : x.length = 0 ∨ ∃ v ∈ x, |v| > 1 := by
            by_contra hc
            push Not at hc
            exact hx ⟨by simpa using hc.1, hc.2⟩
          simp only [CExp.apply, CExp.filter, this, if_true]
          exact h
      | setPhase q =>
        by_cases hq : q < -1 ∨ q > 1
        · simp only [CExp.apply, CExp.setPhase, hq, if_true]; exact h
        · simp only [CExp.apply, CExp.setPhase, hq, if_false]
          push Not at hq
          exact hq
  obtain ⟨a, b⟩ := key ops f h0
  exact ⟨a, b, fun x hx => ⟨_, by rw [CExp.filter_spec _ x hx]⟩⟩

example : ∃ f, CExp.new 1 = .ok f := ⟨⟨1⟩, by norm_num [CExp.new]⟩

/-- C26.  After a call the phase equals the accumulated phase modulo 2. -/
theorem C26_phase_congruent (f : CExp) (x : List ℝ) (hx : Accepted x) :
    ∃ k : ℤ, (f.filter x).2.phase = f.phase + x.sum + 2 * k := by
  rw [CExp.filter_spec f x hx]
  exact (wrapPhase_spec _).2.2

example := C26_phase_congruent ⟨1 / 4⟩ [1 / 2, -1] ⟨by simp, by norm_num⟩

/-- C26.  Rejected signals (empty, or some |x| > 1) raise ValueError and leave the phase unchanged. -/
theorem C26_rejects_unchanged (f : CExp) (x : List ℝ) (hx : ¬ Accepted x) : f.filter x = (.error .valueError, f) := by
  have : x.length = 0 ∨ ∃ v ∈ x, |v| > 1 := by
    by_contra hc
    push Not at hc
    exact hx ⟨by simpa using hc.1, hc.2⟩
  simp only [CExp.filter, this, if_true]

example : ¬ Accepted [1/2, 3/2] := by
  rintro ⟨_, h⟩
  have := h (3/2) (by simp)
  rw [abs_le] at this; linarith [this.2]

theorem CExp.loop_append (xs ys : List ℝ) : ∀ p : ℝ,
    (CExp.loop p (xs ++ ys)).1 = (CExp.loop p xs).1 ++ (CExp.loop (p + xs.sum) ys).1 := by
  induction xs with
  | nil => intro p; simp [CExp.loop]
  | cons x xs ih =>
    intro p
    simp only [List.cons_append, CExp.loop, ih, List.sum_cons, List.cons_append]
    rw [add_assoc]

theorem CExp.loop_periodic (xs : List ℝ) : ∀ (p : ℝ) (k : ℤ), (CExp.loop (p + 2 * k) xs).1 = (CExp.loop p xs).1 := by
  induction xs with
  | nil => intro p k; rfl
  | cons x xs ih =>
    intro p k
    simp only [CExp.loop]
    rw [show p + 2 * (k : ℝ) + x = (p + x) + 2 * k by ring, ih]
    congr 1
    push_cast
    rw [show I * (Real.pi : ℂ) * (p + 2 * k) = I * Real.pi * p + k * (2 * Real.pi * I) by ring]
    exact Complex.exp_periodic.int_mul k _

/-- C26.  Calling chunk by chunk returns the samples of one call on the whole signal. -/
theorem C26_exponential_chunks (f : CExp) (chunks : List (List ℝ)) (h0 : chunks ≠ []) (hacc : ∀ c ∈ chunks, Accepted c) :
    ∃ y f1 f2, callChunks CExp.filter f chunks = (.ok y, f1) ∧ f.filter chunks.flatten = (.ok y, f2) ∧
      ∃ k : ℤ, f1.phase = f2.phase + 2 * k := by
  have key : ∀ (cs : List (List ℝ)) (f : CExp), (∀ c ∈ cs, Accepted c) →
      ∃ f1, callChunks CExp.filter f cs = (.ok (CExp.loop f.phase cs.flatten).1, f1) ∧
        ∃ k : ℤ, f1.phase = f.phase + cs.flatten.sum + 2 * k := by
    intro cs
    induction cs with
    | nil => intro f _; exact ⟨f, rfl, 0, by simp⟩
    | cons c cs ih =>
      intro f hacc
      have hc := CExp.filter_spec f c (hacc c (by simp))
      obtain ⟨f1, h1, k, hk⟩ := ih ⟨wrapPhase (f.phase + c.sum)⟩ (fun d hd => hacc d (by simp [hd]))
      obtain ⟨_, _, k2, hk2⟩ := wrapPhase_spec (f.phase + c.sum)
      refine ⟨f1, ?_, k + k2, ?_⟩
      · simp only [callChunks, hc, h1, List.flatten_cons, CExp.loop_append]
        rw [hk2, CExp.loop_periodic]
      · rw [hk]
        simp only [List.flatten_cons, List.sum_append, hk2]
        push_cast; ring
  have hwhole : Accepted chunks.flatten := by
    constructor
    · rcases chunks with _ | ⟨c, cs⟩
      · exact absurd rfl h0
      · simp [(hacc c (by simp)).1]
    · intro v hv
      obtain ⟨c, hc, hv⟩ := List.mem_flatten.mp hv
      exact (hacc c hc).2 v hv
  obtain ⟨f1, h1, k, hk⟩ := key chunks f hacc
  obtain ⟨_, _, k2, hk2⟩ := wrapPhase_spec (f.phase + chunks.flatten.sum)
  refine ⟨_, f1, _, h1, CExp.filter_spec f _ hwhole, k - k2, ?_⟩
  rw [hk]
  simp only [hk2]
  push_cast; ring

example := C26_exponential_chunks ⟨1 / 4⟩ [[1 / 2, -1], [1]] (by simp) (by simp [Accepted]; norm_num)

end Verif.Props
