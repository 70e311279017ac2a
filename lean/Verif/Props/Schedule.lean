import Verif.Spec.Schedule
import Verif.Spec.Stability
import Verif.Lemmas.Iir
import Verif.Lemmas.Fir
import Mathlib.Analysis.Complex.Basic
import Mathlib.Tactic.LinearCombination
import Mathlib.Tactic.FieldSimp

/-!
Property C145: coefficients which change while the signal passes (diamondback/filters/fir_filter.py:112-122, 242-263, iir_filter.py:115-117, 288-312).
-/

namespace Verif.Props

open Finset Spec

variable {R : Type*}

private theorem sum_memory [CommRing R] (a : List R) (L : ℕ) (hL : a.length = L) (g : ℕ → R) (w : ℕ → R) (n : ℕ)
    (hg : ∀ i, 1 ≤ i → i < L → g i = if i ≤ n then w (n - i) else 0) :
    ∑ i ∈ Ico 1 L, at0 a i * g i = ∑ k ∈ Icc 1 n, at0 a k * w (n - k) := by
  rw [sum_congr rfl fun i hi => by rw [hg i (mem_Ico.mp hi).1 (mem_Ico.mp hi).2]]
  simp only [mul_ite, mul_zero]
  rw [← sum_filter]
  refine sum_subset_zero_on_sdiff (fun i hi => ?_) (fun i hi => ?_) (fun _ _ => rfl)
  · simp only [mem_filter, mem_Ico, mem_Icc] at hi ⊢; omega
  · simp only [mem_sdiff, mem_filter, mem_Ico, mem_Icc] at hi
    rw [at0_of_le a i (by omega), zero_mul]

/-- C145, IirFilter: the outputs when `a` and `b` are assigned before each sample. -/
theorem C145_iir [CommRing R] (f : Iir R) (L : ℕ) (hL : 0 < L) (hf : f.s = List.replicate L 0) (hc : f.cast = id) (A B : ℕ → List R) (hA : ∀ n, (A n).length = L)
    (hB : ∀ n, (B n).length = L) (h0 : ∀ n, at0 (A n) 0 = 0) (x w : ℕ → R) (hw : Remembered A x w) (N : ℕ) :
    ∃ y g, iirSchedule A B x f N = (.ok y, g) ∧ y.length = N ∧ ∀ n < N, y[n]? = some (scheduledOutput A B x w n) := by
  suffices h : ∃ y g, iirSchedule A B x f N = (.ok y, g) ∧ y.length = N ∧ (∀ n < N, y[n]? = some (scheduledOutput A B x w n)) ∧ g.cast = id ∧ g.s.length = L ∧
      at0 g.s 0 = (if 0 < N then x (N - 1) else 0) ∧ ∀ i, i + 1 < L → at0 g.s (i + 1) = if i + 1 < N then w (N - 1 - (i + 1)) else 0 by
    obtain ⟨y, g, h1, h2, h3, -⟩ := h
    exact ⟨y, g, h1, h2, h3⟩
  induction N with
  | zero =>
    refine ⟨[], f, rfl, rfl, by simp, hc, by simp [hf], ?_, fun i hi => ?_⟩
    · simp [hf, at0_of_lt _ _ (show 0 < (List.replicate L (0 : R)).length by simpa using hL)]
    · simp [hf, at0_of_lt _ _ (show i + 1 < (List.replicate L (0 : R)).length by simpa using hi)]
  | succ N ih =>
    obtain ⟨y, g, h1, h2, h3, h4, h5, h6, h7⟩ := ih
    obtain ⟨g', hg'⟩ : ∃ g', g' = (g.setA (A N)).setB (B N) := ⟨_, rfl⟩
    have ea : g'.a = A N := by rw [hg']; rfl
    have eb : g'.b = B N := by rw [hg']; rfl
    have es : g'.s = g.s := by rw [hg']; rfl
    have ec : g'.cast = id := by rw [hg']; exact h4
    have hwf : g'.WF := ⟨by rw [ea, eb, hA, hB], by rw [eb, es, hB, h5], by rw [eb, hB]; exact hL⟩
    have hst := Iir.step_wf g' hwf (x N)
    obtain ⟨wf2, -, -, -⟩ := Iir.step_wf_wf g' hwf (x N)
    rw [hst] at wf2
    obtain ⟨g2, hg2⟩ : ∃ g2 : Iir R, g2 = { g' with s := g'.cast (x N) :: g'.mem.dropLast } := ⟨_, rfl⟩
    rw [← hg2] at hst wf2
    have s2 : g2.s = x N :: g'.mem.dropLast := by rw [hg2, ec]; rfl
    have hmem : ∀ i, i < L → at0 g'.mem i = if i < N then w (N - 1 - i) else 0 := by
      intro i hi
      rcases i with _ | i
      · rw [Iir.mem, at0_modifyHead_zero _ _ (by rw [es]; intro h; rw [h] at h5; simp at h5; omega), ec, id, es, ea, dot_eq_sum, hA, range_eq_Ico, sum_eq_sum_Ico_succ_bot hL, h0, zero_mul, zero_add, zero_add]
        rcases Nat.eq_zero_or_pos N with hN | hN
        · subst hN
          rw [h6, if_neg (by omega), if_neg (by omega), zero_add]
          refine sum_eq_zero fun i hi => ?_
          have hi := mem_Ico.mp hi
          obtain ⟨j, rfl⟩ : ∃ j, i = j + 1 := ⟨i - 1, by omega⟩
          rw [h7 j hi.2, if_neg (by omega), mul_zero]
        · rw [h6, if_pos hN, if_pos hN, Nat.sub_zero, hw (N - 1), Nat.sub_add_cancel hN, sum_memory (A N) L (hA N) (at0 g.s) w (N - 1)]
          intro i h1 hi
          obtain ⟨j, rfl⟩ : ∃ j, i = j + 1 := ⟨i - 1, by omega⟩
          rw [h7 j hi]
          refine if_congr (by omega) rfl rfl
      · rw [Iir.mem, at0_modifyHead_succ, es, h7 i hi]
    have hs2 : ∀ i, i + 1 < L → at0 g2.s (i + 1) = if i + 1 < N + 1 then w (N - (i + 1)) else 0 := by
      intro i hi
      rw [s2, at0_cons_succ, at0_dropLast _ _ (by rw [Iir.mem_length, es, h5]; omega), hmem i (by omega)]
      refine if_congr (by omega) (congrArg w (by omega)) rfl
    have hfil : g'.filter [x N] = (.ok [g'.cast (dot g'.comb (g'.cast (x N) :: g'.mem.dropLast))], g2) := by
      unfold Iir.filter
      rw [if_neg (by simp), runLoop_cons_ok _ _ _ _ _ _ hst]
      rfl
    have hout : g'.cast (dot g'.comb (g'.cast (x N) :: g'.mem.dropLast)) = scheduledOutput A B x w N := by
      have h := Iir.comb_dot g2 wf2 (by rw [hg2]; exact ec)
      have e1 : g2.comb = g'.comb := by rw [hg2]; rfl
      have e2 : g2.s = g'.cast (x N) :: g'.mem.dropLast := by rw [hg2]
      have e3 : g2.b = B N := by rw [hg2]; exact eb
      have e4 : g2.a = A N := by rw [hg2]; exact ea
      have e5 : g2.cast = id := by rw [hg2]; exact ec
      rw [e1, e2, e3] at h
      rw [h, ec, id, dot_eq_sum, hB, range_eq_Ico, sum_eq_sum_Ico_succ_bot hL, zero_add]
      have key : ∀ a : List R, a.length = L → ∑ i ∈ Ico 1 L, at0 a i * at0 g2.s i = ∑ k ∈ Icc 1 N, at0 a k * w (N - k) := by
        intro a ha
        refine sum_memory a L ha _ w N fun i h1 hi => ?_
        obtain ⟨j, rfl⟩ : ∃ j, i = j + 1 := ⟨i - 1, by omega⟩
        rw [hs2 j hi]
        refine if_congr (by omega) rfl rfl
      unfold scheduledOutput
      congr 1
      · rw [Iir.mem, at0_modifyHead_zero _ _ (by rw [s2]; simp), e5, id, e4, dot_eq_sum, hA, range_eq_Ico, sum_eq_sum_Ico_succ_bot hL, h0, zero_mul, zero_add, zero_add, key _ (hA N), s2, at0_cons_zero]
      · rw [← key _ (hB N)]
        refine sum_congr rfl fun i hi => ?_
        have hi := mem_Ico.mp hi
        obtain ⟨j, rfl⟩ : ∃ j, i = j + 1 := ⟨i - 1, by omega⟩
        rw [Iir.mem, at0_modifyHead_succ]
    refine ⟨y ++ [scheduledOutput A B x w N], g2, ?_, by simp [h2], fun n hn => ?_, by rw [hg2]; exact ec, ?_, ?_, fun i hi => ?_⟩
    · rw [iirSchedule, h1]
      simp only
      rw [← hg', hfil, hout]
    · rcases Nat.lt_succ_iff_lt_or_eq.mp hn with h | h
      · rw [List.getElem?_append_left (by omega), h3 n h]
      · subst h
        rw [List.getElem?_append_right (by omega), h2]
        simp
    · have := wf2.2.1; rw [← this, hg2]; show g'.b.length = L; rw [eb, hB]
    · rw [s2, at0_cons_zero]; simp
    · rw [hs2 i hi]; rfl

/-- A coefficient which changes after two samples; without input nothing is remembered. -/
example := C145_iir (R := ℚ) ⟨id, [0, 1], [1, 0], [0, 0]⟩ 2 (by norm_num) rfl rfl (fun n => if n < 2 then [0, 1] else [0, 1 / 2]) (fun _ => [1, 0])
  (fun n => by split <;> rfl) (fun _ => rfl) (fun n => by split <;> rfl)

/-- C145: what is remembered exists, for any schedule and any signal. -/
theorem C145_remembered [CommRing R] (A : ℕ → List R) (x : ℕ → R) : ∃! w : ℕ → R, Remembered A x w := by
  have huniq : ∀ u v : ℕ → R, Remembered A x u → Remembered A x v → u = v := by
    intro u v hu hv
    funext n
    induction n using Nat.strong_induction_on with
    | _ n ih =>
      rw [hu n, hv n]
      congr 1
      refine sum_congr rfl fun k hk => ?_
      rw [ih (n - k) (by have := mem_Icc.mp hk; omega)]
  obtain ⟨w, hw⟩ : ∃ w : ℕ → R, Remembered A x w := by
    let step : (n : ℕ) → ((m : ℕ) → m < n → R) → R := fun n ih => x n + ∑ k ∈ Icc 1 n, if h : 1 ≤ k ∧ k ≤ n then at0 (A (n + 1)) k * ih (n - k) (by omega) else 0
    refine ⟨WellFounded.fix Nat.lt_wfRel.wf step, fun n => ?_⟩
    rw [WellFounded.fix_eq]
    show x n + _ = _
    congr 1
    refine sum_congr rfl fun k hk => ?_
    rw [dif_pos (mem_Icc.mp hk)]
  exact ⟨w, hw, fun v hv => huniq v w hv hw⟩

/-- Concrete case of C145: an accumulator which is switched to a decaying one before the third sample.  The second sample was given out as 2 by the old coefficients, and is remembered as 1 + 1/2 by the new ones. -/
example : (iirSchedule (fun n => if n < 2 then [0, 1] else [0, 1 / 2]) (fun _ => [1, 0]) (fun _ => 1) (⟨id, [0, 1], [1, 0], [0, 0]⟩ : Iir ℚ) 4).1 = .ok [1, 2, 7 / 4, 15 / 8] := by
  decide +kernel

/-- C145, FirFilter: the outputs when `b` is assigned before each sample. -/
theorem C145_fir [CommRing R] (f : Fir R) (L : ℕ) (hL : 0 < L) (hf : f.s = List.replicate L 0) (hc : f.cast = id) (B : ℕ → List R) (hB : ∀ n, (B n).length = L) (x : ℕ → R) (N : ℕ) :
    ∃ y g, firSchedule B x f N = (.ok y, g) ∧ y.length = N ∧ ∀ n < N, y[n]? = some (∑ k ∈ range (n + 1), at0 (B n) k * x (n - k)) := by
  suffices h : ∃ y g, firSchedule B x f N = (.ok y, g) ∧ y.length = N ∧ (∀ n < N, y[n]? = some (∑ k ∈ range (n + 1), at0 (B n) k * x (n - k))) ∧ g.cast = id ∧ g.s.length = L ∧
      ∀ i, i < L → at0 g.s i = if i < N then x (N - 1 - i) else 0 by
    obtain ⟨y, g, h1, h2, h3, -⟩ := h
    exact ⟨y, g, h1, h2, h3⟩
  induction N with
  | zero =>
    refine ⟨[], f, rfl, rfl, by simp, hc, by simp [hf], fun i hi => ?_⟩
    simp [hf, at0_of_lt _ _ (show i < (List.replicate L (0 : R)).length by simpa using hi)]
  | succ N ih =>
    obtain ⟨y, g, h1, h2, h3, h4, h5, h6⟩ := ih
    obtain ⟨g', hg'⟩ : ∃ g', g' = g.setB (B N) := ⟨_, rfl⟩
    have eb : g'.b = B N := by rw [hg']; rfl
    have es : g'.s = g.s := by rw [hg']; rfl
    have ec : g'.cast = id := by rw [hg']; exact h4
    have hwf : g'.WF := ⟨by rw [eb, es, hB, h5], by rw [eb, hB]; exact hL⟩
    have hst := Fir.step_wf g' hwf (x N)
    obtain ⟨g2, hg2⟩ : ∃ g2 : Fir R, g2 = { g' with s := g'.cast (x N) :: g'.s.dropLast } := ⟨_, rfl⟩
    rw [← hg2] at hst
    have s2 : g2.s = x N :: g.s.dropLast := by rw [hg2, ec, es]; rfl
    have hs2 : ∀ i, i < L → at0 g2.s i = if i < N + 1 then x (N - i) else 0 := by
      intro i hi
      rcases i with _ | i
      · rw [s2, at0_cons_zero]; simp
      · rw [s2, at0_cons_succ, at0_dropLast _ _ (by omega), h6 i (by omega)]
        refine if_congr (by omega) (congrArg x (by omega)) rfl
    have hfil : g'.filter [x N] = (.ok [g'.cast (dot g'.b (g'.cast (x N) :: g'.s.dropLast))], g2) := by
      unfold Fir.filter
      rw [if_neg (by simp), runLoop_cons_ok _ _ _ _ _ _ hst]
      rfl
    have hout : g'.cast (dot g'.b (g'.cast (x N) :: g'.s.dropLast)) = ∑ k ∈ range (N + 1), at0 (B N) k * x (N - k) := by
      have e2 : g2.s = g'.cast (x N) :: g'.s.dropLast := by rw [hg2]
      rw [← e2, ec, id, eb, dot_eq_sum, hB]
      rw [← sum_range_extend (B N) (fun i => if i ≤ N then x (N - i) else 0) N L (hB N).le (fun i hi _ => by simp; omega)
        |>.trans (sum_congr rfl fun i hi => by simp [Nat.lt_succ_iff.mp (mem_range.mp hi)])]
      refine sum_congr rfl fun i hi => ?_
      rw [hs2 i (mem_range.mp hi)]
      simp only [Nat.lt_succ_iff]
    refine ⟨y ++ [∑ k ∈ range (N + 1), at0 (B N) k * x (N - k)], g2, ?_, by simp [h2], fun n hn => ?_, by rw [hg2]; exact ec, ?_, fun i hi => ?_⟩
    · rw [firSchedule, h1]
      simp only
      rw [← hg', hfil, hout]
    · rcases Nat.lt_succ_iff_lt_or_eq.mp hn with h | h
      · rw [List.getElem?_append_left (by omega), h3 n h]
      · subst h
        rw [List.getElem?_append_right (by omega), h2]
        simp
    · rw [s2]; simp; omega
    · rw [hs2 i hi]; rfl

/-- Concrete case: a mean of two samples switched to a difference. -/
example : (firSchedule (R := ℚ) (fun n => if n < 2 then [1 / 2, 1 / 2] else [1, -1]) (fun n => (n : ℚ)) (⟨id, [1, 0], [0, 0]⟩ : Fir ℚ) 4).1 = .ok [0, 1 / 2, 1, 1] := by
  decide +kernel

private theorem sum_Icc_le (a : List R) [NormedCommRing R] (L n : ℕ) (hL : a.length = L) (w : ℕ → R) (K : ℝ) (hw : ∀ m < n, ‖w m‖ ≤ K) (h0 : 0 ≤ K) :
    ‖∑ k ∈ Icc 1 n, at0 a k * w (n - k)‖ ≤ (∑ k ∈ Ico 1 L, ‖at0 a k‖) * K := by
  refine (norm_sum_le _ _).trans ?_
  have h1 : ∑ k ∈ Icc 1 n, ‖at0 a k * w (n - k)‖ ≤ ∑ k ∈ Icc 1 n, ‖at0 a k‖ * K := by
    refine sum_le_sum fun k hk => (norm_mul_le _ _).trans ?_
    exact mul_le_mul_of_nonneg_left (hw _ (by have := mem_Icc.mp hk; omega)) (norm_nonneg _)
  refine h1.trans ?_
  rw [← sum_mul]
  refine mul_le_mul_of_nonneg_right ?_ h0
  rw [← sum_filter_add_sum_filter_not (Icc 1 n) (· < L)]
  have h2 : ∑ k ∈ (Icc 1 n).filter (fun k => ¬ k < L), ‖at0 a k‖ = 0 := by
    refine sum_eq_zero fun k hk => ?_
    rw [at0_of_le a k (by have := (mem_filter.mp hk).2; omega), norm_zero]
  rw [h2, add_zero]
  refine sum_le_sum_of_subset_of_nonneg (fun k hk => ?_) (fun _ _ _ => norm_nonneg _)
  simp only [mem_filter, mem_Icc, mem_Ico] at hk ⊢
  omega

/-- C145: when the moduli of the recursive coefficients always add up to at most `ρ < 1`, no schedule makes the filter unstable. -/
theorem C145_bounded [NormedCommRing R] (f : Iir R) (L : ℕ) (hL : 0 < L) (hf : f.s = List.replicate L 0) (hc : f.cast = id) (A B : ℕ → List R) (hA : ∀ n, (A n).length = L)
    (hB : ∀ n, (B n).length = L) (h0 : ∀ n, at0 (A n) 0 = 0) (x : ℕ → R) (ρ β M : ℝ) (hρ : ρ < 1) (hAρ : ∀ n, ∑ k ∈ Ico 1 L, ‖at0 (A n) k‖ ≤ ρ) (hBβ : ∀ n, ∑ k ∈ range L, ‖at0 (B n) k‖ ≤ β)
    (hx : ∀ n, ‖x n‖ ≤ M) (N : ℕ) : ∃ y g, iirSchedule A B x f N = (.ok y, g) ∧ y.length = N ∧ ∀ v ∈ y, ‖v‖ ≤ β * (M / (1 - ρ)) := by
  obtain ⟨w, hw, -⟩ := C145_remembered A x
  obtain ⟨y, g, h1, h2, h3⟩ := C145_iir f L hL hf hc A B hA hB h0 x w hw N
  have hM : 0 ≤ M := (norm_nonneg _).trans (hx 0)
  have hK : 0 ≤ M / (1 - ρ) := div_nonneg hM (by linarith)
  have hfix : M + ρ * (M / (1 - ρ)) = M / (1 - ρ) := by
    have : 1 - ρ ≠ 0 := by linarith
    field_simp
    ring
  have now : ∀ n (a : List R), a.length = L → ∑ k ∈ Ico 1 L, ‖at0 a k‖ ≤ ρ → (∀ m < n, ‖w m‖ ≤ M / (1 - ρ)) → ‖x n + ∑ k ∈ Icc 1 n, at0 a k * w (n - k)‖ ≤ M / (1 - ρ) := by
    intro n a ha hs hm
    refine (norm_add_le _ _).trans ?_
    rw [← hfix]
    exact add_le_add (hx n) ((sum_Icc_le a L n ha w _ hm hK).trans (mul_le_mul_of_nonneg_right hs hK))
  have hbound : ∀ n, ‖w n‖ ≤ M / (1 - ρ) := by
    intro n
    induction n using Nat.strong_induction_on with
    | _ n ih => rw [hw n]; exact now n _ (hA _) (hAρ _) ih
  refine ⟨y, g, h1, h2, fun v hv => ?_⟩
  obtain ⟨n, hn⟩ := List.getElem?_of_mem hv
  have hnl : n < N := by rw [← h2]; exact (List.getElem?_eq_some_iff.mp hn).1
  rw [h3 n hnl, Option.some.injEq] at hn
  rw [← hn, scheduledOutput]
  have t1 := now n (A n) (hA n) (hAρ n) (fun m _ => hbound m)
  have t2 := sum_Icc_le (B n) L n (hB n) w _ (fun m _ => hbound m) hK
  have t3 := hBβ n
  rw [range_eq_Ico, sum_eq_sum_Ico_succ_bot hL, zero_add] at t3
  calc _ ≤ ‖at0 (B n) 0‖ * (M / (1 - ρ)) + (∑ k ∈ Ico 1 L, ‖at0 (B n) k‖) * (M / (1 - ρ)) :=
        (norm_add_le _ _).trans (add_le_add ((norm_mul_le _ _).trans (mul_le_mul_of_nonneg_left t1 (norm_nonneg _))) t2)
    _ = (‖at0 (B n) 0‖ + ∑ k ∈ Ico 1 L, ‖at0 (B n) k‖) * (M / (1 - ρ)) := by ring
    _ ≤ β * (M / (1 - ρ)) := mul_le_mul_of_nonneg_right t3 hK

/-- Concrete case: `a` between `[0, 1/2]` and `[0, -1/2]`. -/
example : ∀ n : ℕ, ∑ k ∈ Ico 1 2, ‖at0 (if Even n then [0, 1 / 2] else [0, -1 / 2] : List ℝ) k‖ ≤ 1 / 2 := by
  intro n
  split <;> norm_num [at0, abs_of_pos]

/-- Each of the two filters is stable. -/
theorem C145_each_stable (n : ℕ) : Stable (flipped n) := by
  intro z hz
  have hq : ∀ p : ℝ, p ^ 2 = 81 / 25 → z ^ 2 = p * z + ((-(9 / 10) : ℝ) : ℂ) → ‖z‖ < 1 := by
    intro p hp h
    have hre := congrArg Complex.re h
    have him := congrArg Complex.im h
    simp only [pow_two, Complex.mul_re, Complex.mul_im, Complex.add_re, Complex.add_im, Complex.ofReal_re, Complex.ofReal_im] at hre him
    have hn : ‖z‖ ^ 2 = z.re ^ 2 + z.im ^ 2 := by rw [Complex.sq_norm, Complex.normSq_apply]; ring
    have : ‖z‖ ^ 2 < 1 := by
      rw [hn]
      by_cases hi : z.im = 0
      · rw [hi] at hre
        nlinarith [sq_nonneg (z.re - p / 2)]
      · have : 2 * z.re = p := mul_right_cancel₀ hi (by linarith)
        rw [← this] at hre
        nlinarith
    nlinarith [norm_nonneg z]
  unfold Pole flipped at hz
  split at hz
  · refine hq (9 / 5) (by norm_num) ?_
    simpa [at0, sum_Icc_succ_top] using hz
  · refine hq (-(9 / 5)) (by norm_num) ?_
    simpa [at0, sum_Icc_succ_top] using hz

/-- C145: switching between two stable filters at every sample is unstable: the answer to one impulse grows without bound. -/
theorem C145_unstable (f : Iir ℝ) (hf : f.s = [0, 0, 0]) (hc : f.cast = id) (N : ℕ) :
    ∃ y g, iirSchedule flipped (fun _ => [1, 0, 0]) (fun n => if n = 0 then 1 else 0) f N = (.ok y, g) ∧ y.length = N ∧
      ∀ n, 2 ≤ n → n < N → (9 / 5 : ℝ) ^ (n - 1) ≤ |at0 y n| := by
  obtain ⟨w, hw, -⟩ := C145_remembered flipped (fun n => if n = 0 then (1 : ℝ) else 0)
  obtain ⟨y, g, h1, h2, h3⟩ := C145_iir f 3 (by norm_num) hf hc flipped (fun _ => [1, 0, 0]) (fun n => by unfold flipped; split <;> rfl) (fun n => rfl)
    (fun n => by unfold flipped; split <;> rfl) _ w hw N
  have hsum : ∀ (m n : ℕ), ∑ k ∈ Icc 1 (n + 2), at0 (flipped m) k * w (n + 2 - k) = at0 (flipped m) 1 * w (n + 1) + at0 (flipped m) 2 * w n := by
    intro m n
    have hl : (flipped m).length = 3 := by unfold flipped; split <;> rfl
    have : ∑ k ∈ Icc 1 (n + 2), at0 (flipped m) k * w (n + 2 - k) = ∑ k ∈ Icc 1 2, at0 (flipped m) k * w (n + 2 - k) := by
      symm
      refine sum_subset (fun k hk => ?_) (fun k hk hk' => ?_)
      · simp only [mem_Icc] at hk ⊢; omega
      · simp only [mem_Icc] at hk hk'
        rw [at0_of_le _ k (by omega), zero_mul]
    rw [this, sum_Icc_succ_top (by norm_num), Icc_self, sum_singleton]
    rfl
  have hf2 : ∀ m, at0 (flipped m) 2 = -(9 / 10) := fun m => by unfold flipped; split <;> rfl
  have hf1 : ∀ m, at0 (flipped m) 1 = if Even m then 9 / 5 else -(9 / 5) := fun m => by unfold flipped; split <;> rfl
  have hrec : ∀ n, w (n + 2) = at0 (flipped (n + 3)) 1 * w (n + 1) - 9 / 10 * w n := by
    intro n
    rw [hw (n + 2), hsum, hf2]
    simp only [Nat.add_eq_zero_iff, OfNat.ofNat_ne_zero, and_false, if_false]
    ring
  have w0 : w 0 = 1 := by rw [hw 0]; simp
  have w1 : w 1 = 9 / 5 := by
    rw [hw 1]
    simp [w0, hf1]
  have key : ∀ n, 9 / 5 * |w n| ≤ |w (n + 1)| ∧ (9 / 5 : ℝ) ^ n ≤ |w n| ∧ at0 (flipped (n + 3)) 1 * (w (n + 1) * w n) ≤ 0 := by
    intro n
    induction n with
    | zero =>
      rw [w0, w1, hf1, if_neg (by decide)]
      norm_num [abs_of_pos]
    | succ n ih =>
      obtain ⟨i1, i2, i3⟩ := ih
      have hp : at0 (flipped (n + 3)) 1 ^ 2 = 81 / 25 := by rw [hf1]; split <;> norm_num
      have hn : at0 (flipped (n + 1 + 3)) 1 = -at0 (flipped (n + 3)) 1 := by
        rw [hf1, hf1]
        by_cases h : Even (n + 3)
        · rw [if_pos h, if_neg (by rw [show n + 1 + 3 = n + 3 + 1 by ring, Nat.even_add_one]; simpa using h)]
        · rw [if_neg h, if_pos (by rw [show n + 1 + 3 = n + 3 + 1 by ring, Nat.even_add_one]; exact h)]; ring
      refine ⟨?_, ?_, ?_⟩
      · have : |9 / 5 * w (n + 1)| ≤ |w (n + 2)| := by
          refine sq_le_sq.mp ?_
          rw [hrec]
          nlinarith [sq_nonneg (w n)]
        rwa [abs_mul, abs_of_pos (by norm_num : (0 : ℝ) < 9 / 5)] at this
      · rw [pow_succ]; linarith
      · rw [hn, show n + 1 + 1 = n + 2 from rfl, hrec]
        nlinarith [sq_nonneg (w (n + 1))]
  refine ⟨y, g, h1, h2, fun n hn hnN => ?_⟩
  obtain ⟨n, rfl⟩ : ∃ m, n = m + 2 := ⟨n - 2, by omega⟩
  have hy : at0 y (n + 2) = at0 (flipped (n + 2)) 1 * w (n + 1) - 9 / 10 * w n := by
    have e := h3 (n + 2) hnN
    have : at0 y (n + 2) = scheduledOutput flipped (fun _ => [1, 0, 0]) (fun n => if n = 0 then (1 : ℝ) else 0) w (n + 2) := by
      rw [at0, List.getD_eq_getElem?_getD, e]; rfl
    rw [this, scheduledOutput, hsum, hf2]
    have z : ∑ k ∈ Icc 1 (n + 2), at0 ([1, 0, 0] : List ℝ) k * w (n + 2 - k) = 0 := by
      refine sum_eq_zero fun k hk => ?_
      have hk := (mem_Icc.mp hk).1
      have : at0 ([1, 0, 0] : List ℝ) k = 0 := by
        rcases k with _ | _ | _ | k <;> simp_all [at0]
      rw [this, zero_mul]
    rw [z, if_neg (by omega)]
    simp [at0]
    ring
  obtain ⟨k1, -, -⟩ := key n
  obtain ⟨-, k2, -⟩ := key (n + 1)
  have hp : |at0 (flipped (n + 2)) 1| = 9 / 5 := by
    rw [hf1]; split
    · exact abs_of_pos (by norm_num)
    · rw [abs_neg]; exact abs_of_pos (by norm_num)
  have t := abs_sub_abs_le_abs_sub (at0 (flipped (n + 2)) 1 * w (n + 1)) (9 / 10 * w n)
  rw [abs_mul, abs_mul, hp, abs_of_pos (by norm_num : (0 : ℝ) < 9 / 10)] at t
  rw [hy, show n + 2 - 1 = n + 1 from rfl]
  have := abs_nonneg (w n)
  linarith

/-- The instance of C145_unstable exists. -/
example : (Iir.new id (some [0, 9 / 5, -(9 / 10)]) (some [1, 0, 0]) none : Res (Iir ℚ)).isOk := by decide +kernel

end Verif.Props
