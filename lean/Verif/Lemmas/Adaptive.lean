import Verif.Props.Exponential
import Verif.Spec.Tone

namespace Verif

open Finset Spec Complex

theorem phasor_norm (t : ℝ) : ‖phasor t‖ = 1 := by
  rw [phasor, Complex.norm_exp]; simp

theorem phasor_add (s t : ℝ) : phasor (s + t) = phasor s * phasor t := by
  rw [phasor, phasor, phasor, ← Complex.exp_add]
  congr 1; push_cast; ring

theorem phasor_periodic (t : ℝ) (k : ℤ) : phasor (t + 2 * k) = phasor t := by
  unfold phasor
  push_cast
  rw [show I * (Real.pi : ℂ) * (t + 2 * k) = I * Real.pi * t + k * (2 * Real.pi * I) by ring]
  exact Complex.exp_periodic.int_mul k _

theorem mul_conj_of_norm_one (u : ℂ) (h : ‖u‖ = 1) : u * (starRingEnd ℂ) u = 1 := by
  rw [Complex.mul_conj, Complex.normSq_eq_norm_sq, h]; norm_num

theorem tone_length (A : ℂ) (f p : ℝ) (N : ℕ) : (tone A f p N).length = N := by simp [tone]

theorem tone_add (A : ℂ) (f p : ℝ) (M N : ℕ) : tone A f p (M + N) = tone A f p M ++ tone A f (p + f * M) N := by
  simp only [tone, List.range_add, List.map_append, List.map_map]
  congr 1
  apply List.map_congr_left
  intro n _
  simp only [Function.comp_apply]
  congr 2; push_cast; ring

theorem tone_periodic (A : ℂ) (f p : ℝ) (k : ℤ) (N : ℕ) : tone A f (p + 2 * k) N = tone A f p N := by
  simp only [tone]
  apply List.map_congr_left
  intro n _
  rw [show p + 2 * (k : ℝ) + f * n = (p + f * n) + 2 * k by ring, phasor_periodic]

/-- The oscillator run at a constant frequency. -/
theorem CExp.loop_const (f p : ℝ) (N : ℕ) : (CExp.loop p (List.replicate N f)).1 = tone 1 f p N := by
  induction N generalizing p with
  | zero => rfl
  | succ N ih =>
    simp only [List.replicate_succ, CExp.loop, ih]
    rw [add_comm N 1, tone_add]
    simp [tone, phasor]

theorem Props.CExp.filter_const (o : CExp) (f : ℝ) (hf : -1 ≤ f ∧ f ≤ 1) (N : ℕ) (hN : N ≠ 0) :
    ∃ o' : CExp, o.filter (List.replicate N f) = (.ok (tone 1 f o.phase N), o') ∧
      ∃ k : ℤ, o'.phase = o.phase + f * N + 2 * k := by
  have hacc : Props.Accepted (List.replicate N f) := by
    refine ⟨by simpa using hN, fun v hv => ?_⟩
    rw [(List.mem_replicate.mp hv).2, abs_le]; exact hf
  refine ⟨_, by rw [Props.CExp.filter_spec o _ hacc, CExp.loop_const], ?_⟩
  obtain ⟨_, _, k, hk⟩ := Props.wrapPhase_spec (o.phase + (List.replicate N f).sum)
  refine ⟨k, ?_⟩
  simp only [hk]
  simp only [List.sum_replicate, nsmul_eq_mul]; ring

/-- The adaptive loop on `d = A x` with unit samples `x`. -/
theorem Bandpass.loop_tone (rate : ℝ) (A : ℂ) (N : ℕ) : ∀ (b : ℂ) (u : ℕ → ℂ), (∀ n, ‖u n‖ = 1) →
    Bandpass.loop rate b ((List.range N).map fun n => (u n, A * u n)) =
      ((List.range N).map fun n => (u n * (A + (1 - rate) ^ n * (b - A)),
        A * u n - u n * (A + (1 - rate) ^ n * (b - A)), A + (1 - rate) ^ n * (b - A)),
       A + (1 - rate) ^ N * (b - A)) := by
  induction N with
  | zero => intro b u _; simp [Bandpass.loop]
  | succ N ih =>
    intro b u hu
    have hb : b + rate * (A * u 0 - u 0 * b) * (starRingEnd ℂ) (u 0) = A + (1 - rate) * (b - A) := by
      rw [show (rate : ℂ) * (A * u 0 - u 0 * b) * (starRingEnd ℂ) (u 0)
        = rate * (A - b) * (u 0 * (starRingEnd ℂ) (u 0)) by ring, mul_conj_of_norm_one _ (hu 0)]
      ring
    have := ih (A + (1 - rate) * (b - A)) (fun n => u (n + 1)) (fun n => hu _)
    simp only [List.range_succ_eq_map, List.map_cons, List.map_map, Function.comp_def, Nat.succ_eq_add_one, Bandpass.loop,
      hb, this]
    simp only [pow_zero, pow_succ]
    refine Prod.ext ?_ ?_
    · simp only [List.cons.injEq]
      refine ⟨by simp, List.map_congr_left fun n _ => ?_⟩
      refine Prod.ext ?_ (Prod.ext ?_ ?_) <;> simp only <;> ring
    · simp only; ring

end Verif
