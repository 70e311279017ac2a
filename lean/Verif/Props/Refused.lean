import Verif.Model.Refused
import Verif.Lemmas.Fir
import Verif.Lemmas.Iir
import Verif.Lemmas.Rank
import Verif.Lemmas.Adaptive
import Verif.Props.Adaptive
import Verif.Props.Polyphase
import Verif.Props.Rank

/-!
Property C118: what `filter` leaves when it raises because of a sample which is no number (diamondback/filters/*.py).
-/

namespace Verif.Props

open Spec

variable {R K F : Type*}

/-- `f'` is the instance `f` after it has filtered the samples `x`, which may be none. -/
def Heard {σ ι ο : Type*} (filt : σ → List ι → Res (List ο) × σ) (f : σ) (x : List ι) (f' : σ) : Prop :=
  (x = [] → f' = f) ∧ (x ≠ [] → ∃ ys, filt f x = (.ok ys, f'))

private theorem refuse_ok {σ ι ο : Type*} (step : σ → ι → Res ο × σ) (refuse : σ → PyErr × σ) (st st' : σ) (x : List ι) (ys : List ο)
    (h : runLoop step st x = (.ok ys, st')) : refuseAfter step refuse st x = (.error (refuse st').1, (refuse st').2) := by
  unfold refuseAfter; rw [h]

private theorem heard_loop {σ ι ο : Type*} (step : σ → ι → Res ο × σ) (filt : σ → List ι → Res (List ο) × σ)
    (hf : ∀ st x, x ≠ [] → filt st x = runLoop step st x) (st st' : σ) (x : List ι) (ys : List ο) (h : runLoop step st x = (.ok ys, st')) :
    Heard filt st x st' := by
  refine ⟨fun hx => ?_, fun hx => ⟨ys, by rw [hf st x hx, h]⟩⟩
  subst hx
  exact ((Prod.mk.injEq _ _ _ _).mp h).2.symm

/-- C118, FirFilter (so DerivativeFilter and IntegralFilter).  The exception of the refused sample is raised after the samples before it have entered the
state, and the state is then the one which a repetition of the latest sample leaves.  `reset` leads to the same instance as without the call. -/
theorem C118_fir [Dot R] (e : PyErr) (f : Fir R) (hf : f.b.length = f.s.length ∧ 0 < f.b.length) (hc : ∀ v ∈ f.s, f.cast v = v) (hcc : ∀ v, f.cast (f.cast v) = f.cast v)
    (x : List R) :
    ∃ f' v, Heard Fir.filter f x f' ∧ f'.s.head? = some v ∧ f.filterBad e x = (.error e, (f'.filter [v]).2) ∧
      ∀ r, (f.filterBad e x).2.reset (.scalar r) = f.reset (.scalar r) := by
  have hwf : f.WF := hf
  obtain ⟨ys, h1, -, -⟩ := Fir.runLoop_wf f hwf x
  set f' : Fir R := { f with s := ((x.map f.cast).reverse ++ f.s).take f.b.length } with hf'
  have hlen : f'.s.length = f.b.length := by simp [hf', hf.1]
  have hwf' : f'.WF := ⟨hlen.symm, hf.2⟩
  have hcs : ∀ v ∈ f'.s, f.cast v = v := by
    intro v hv
    have := List.mem_of_mem_take hv
    rw [List.mem_append, List.mem_reverse, List.mem_map] at this
    rcases this with ⟨a, -, rfl⟩ | h
    · exact hcc a
    · exact hc v h
  have hheard : Heard Fir.filter f x f' := heard_loop Fir.step Fir.filter (fun st x hx => by simp [Fir.filter, hx]) f f' x ys h1
  have hbad : f.filterBad e x = (.error (Fir.refuse e f').1, (Fir.refuse e f').2) := by
    rw [Fir.filterBad, if_neg (by omega)]
    exact refuse_ok Fir.step (Fir.refuse e) f f' x ys h1
  have hpos := hf.2
  rcases hs : f'.s with _ | ⟨v, t⟩
  · rw [hs] at hlen; simp at hlen; omega
  have hcv : f'.cast v = v := hcs v (by rw [hs]; simp)
  have hrefuse : Fir.refuse e f' = (e, { f' with s := v :: (v :: t).dropLast }) := by
    unfold Fir.refuse
    rcases t with _ | ⟨c, u⟩
    · have h2 : f'.s.length = 1 := by rw [hs]; rfl
      have h3 : ({ f' with s := [v] } : Fir R) = f' := by rw [← hs]
      simp [h2, h3]
    · simp [hs, shiftRight]
  refine ⟨f', v, hheard, by rw [hs]; rfl, ?_, ?_⟩
  · rw [hbad, hrefuse]
    have : f'.filter [v] = (.ok [f'.cast (dot f'.b (f'.cast v :: f'.s.dropLast))], { f' with s := f'.cast v :: f'.s.dropLast }) := by
      simp [Fir.filter, runLoop, Fir.step_wf f' hwf' v]
    rw [this, hs, hcv]
  · intro r
    rw [hbad, hrefuse]
    have hl : (v :: (v :: t).dropLast).length = f.s.length := by
      have : (v :: t).length = f.b.length := by rw [← hs]; exact hlen
      simp at this ⊢; omega
    unfold Fir.reset
    simp only [hf']
    congr 2
    rw [List.map_const', List.map_const', hl]

example : ((⟨id, [1, 2, 3], [5, 6, 7]⟩ : Fir ℤ)).filterBad .typeError [4] = (.error .typeError, ⟨id, [1, 2, 3], [4, 4, 5]⟩) := rfl

/-- C118, IirFilter with real or complex coefficients: the state which the exception leaves is that of one more sample, whose value is the recursive sum. -/
theorem C118_iir [Field R] [Dot R] (e : PyErr) (f : Iir R) (hf : f.a.length = f.b.length ∧ f.b.length = f.s.length ∧ 1 < f.b.length) (hc : f.cast = id) (x : List R) :
    ∃ f' s0, Heard Iir.filter f x f' ∧ f'.s.head? = some s0 ∧ f.filterBad e x = (.error e, (f'.filter [s0 + dot f'.a f'.s]).2) ∧
      ∀ r, (f.filterBad e x).2.reset (.scalar r) = f.reset (.scalar r) := by
  have hwf : f.WF := ⟨hf.1, hf.2.1, by omega⟩
  have key := runLoop_inv Iir.step (fun g => g.WF ∧ g.a = f.a ∧ g.b = f.b ∧ g.cast = f.cast)
    (fun st v h => ⟨⟨_, by rw [Iir.step_wf st h.1 v]⟩, (Iir.step_wf_wf st h.1 v).1, by rw [(Iir.step_wf_wf st h.1 v).2.1, h.2.1],
      by rw [(Iir.step_wf_wf st h.1 v).2.2.1, h.2.2.1], by rw [(Iir.step_wf_wf st h.1 v).2.2.2, h.2.2.2]⟩) f ⟨hwf, rfl, rfl, rfl⟩ x
  obtain ⟨⟨ys, hys⟩, hwf', ha, hb, hc'⟩ := key
  have h1 : runLoop Iir.step f x = (.ok ys, (runLoop Iir.step f x).2) := by rw [← hys]
  generalize (runLoop Iir.step f x).2 = f' at *
  have hheard : Heard Iir.filter f x f' := heard_loop Iir.step Iir.filter (fun st x hx => by simp [Iir.filter, hx]) f f' x ys h1
  have hbad : f.filterBad e x = (.error (Iir.refuse e f').1, (Iir.refuse e f').2) := by
    rw [Iir.filterBad, if_neg (by omega)]
    exact refuse_ok Iir.step (Iir.refuse e) f f' x ys h1
  have hlen : f'.s.length = f.b.length := by rw [← hwf'.2.1, hb]
  rcases hs : f'.s with _ | ⟨s0, t⟩
  · rw [hs] at hlen; simp at hlen; omega
  have hcid : f'.cast = id := by rw [hc', hc]
  have hgt : f'.s.length > 1 := by omega
  have hrefuse : Iir.refuse e f' = (e, { f' with s := (s0 + dot f'.a f'.s) :: ((s0 + dot f'.a f'.s) :: t).dropLast }) := by
    unfold Iir.refuse
    rw [if_pos hgt, if_pos (by rw [hwf'.1, hwf'.2.1]), hcid]
    rw [hs]
    rfl
  refine ⟨f', s0, hheard, by rw [hs]; rfl, ?_, ?_⟩
  · rw [hbad, hrefuse]
    have hst := Iir.step_wf f' hwf' (s0 + dot f'.a f'.s)
    have : (f'.filter [s0 + dot f'.a f'.s]).2 = { f' with s := f'.cast (s0 + dot f'.a f'.s) :: f'.mem.dropLast } := by
      simp [Iir.filter, runLoop, hst]
    rw [this, hcid]
    unfold Iir.mem
    rw [hs, hcid]
    rfl
  · intro r
    rw [hbad, hrefuse]
    rcases hs2 : f.s with _ | ⟨q, u⟩
    · rw [hf.2.1, hs2] at hf; simp at hf
    have hl : ((s0 + dot f'.a f'.s) :: t).dropLast.length = u.length := by
      have h3 : (s0 :: t).length = f.b.length := by rw [← hs]; exact hlen
      have h4 : f.b.length = u.length + 1 := by rw [hf.2.1, hs2]; rfl
      simp at h3 ⊢; omega
    unfold Iir.reset
    rw [hs2]
    rw [ha] at hl
    simp only [ha, hb, hc']
    congr 3
    rw [List.map_const', List.map_const', hl]

example : ((⟨id, [0, 1, -1], [1, 2, 3], [5, 6, 7]⟩ : Iir ℚ)).filterBad .valueError [] = (.error .valueError, ⟨id, [0, 1, -1], [1, 2, 3], [4, 4, 6]⟩) := by
  simp [Iir.filterBad, refuseAfter, runLoop, Iir.refuse, shiftRight, dot]
  norm_num

/-- C118.  With an empty `b` assigned, the sample type cannot be read and neither a call with a refused sample nor any other reaches the loop: IndexError,
and nothing is changed. -/
theorem C118_fir_empty [Dot R] (e : PyErr) (f : Fir R) (hf : f.b = []) (x y : List R) (hy : y ≠ []) :
    f.filterBad e x = (.error .indexError, f) ∧ f.filter y = (.error .indexError, f) := by
  obtain ⟨v, t, rfl⟩ := List.exists_cons_of_ne_nil hy
  simp [Fir.filterBad, Fir.filter, runLoop, Fir.step, hf]

example := C118_fir_empty .typeError (⟨id, [], [5, 6, 7]⟩ : Fir ℤ) rfl [4] [1, 2] (by simp)

/-- The same of IirFilter. -/
theorem C118_iir_empty [Add R] [Mul R] [Dot R] (e : PyErr) (f : Iir R) (hf : f.b = []) (x y : List R) (hy : y ≠ []) :
    f.filterBad e x = (.error .indexError, f) ∧ f.filter y = (.error .indexError, f) := by
  obtain ⟨v, t, rfl⟩ := List.exists_cons_of_ne_nil hy
  simp [Iir.filterBad, Iir.filter, runLoop, Iir.step, hf]

example := C118_iir_empty .typeError (⟨id, [0, 1], [], [5, 6]⟩ : Iir ℤ) rfl [4] [1, 2] (by simp)

/-- C118, RankFilter and PidFilter: the exception leaves the samples before the refused one, and nothing of it. -/
theorem C118_rank [LinearOrder K] (e : PyErr) (argsort : List K → List ℕ) (ha : IsArgsort argsort) (key : R → K) (f : Rank R) (h0 : 0 ≤ f.index) (h1 : f.index < f.s.length)
    (x : List R) : ∃ f', Heard (Rank.filter argsort key) f x f' ∧ f.filterBad e argsort key x = (.error e, f') := by
  have hk := runLoop_inv (Rank.step argsort key) (fun g => g.index = f.index ∧ g.s.length = f.s.length) (fun st v h => by
    obtain ⟨y, hstep, -⟩ := Rank.step_spec argsort ha key st (by rw [h.1]; exact h0) (by rw [h.1, h.2]; exact h1) v
    rw [hstep]
    exact ⟨⟨y, rfl⟩, h.1, by rw [← h.2]; simp; omega⟩) f ⟨rfl, rfl⟩ x
  obtain ⟨⟨ys, hys⟩, hi, hl⟩ := hk
  have hr : runLoop (Rank.step argsort key) f x = (.ok ys, (runLoop (Rank.step argsort key) f x).2) := by rw [← hys]
  generalize (runLoop (Rank.step argsort key) f x).2 = f' at *
  refine ⟨f', heard_loop _ _ (fun st x hx => by simp [Rank.filter, hx]) f f' x ys hr, ?_⟩
  unfold Rank.filterBad
  rw [refuse_ok _ _ f f' x ys hr]
  have : f'.s.length ≠ 0 := by omega
  simp [this]

example : ((⟨[0, 7, 0], 1⟩ : Rank ℤ)).filterBad .valueError argsortRef (fun v => |v|) [5] = (.error .valueError, ⟨[5, 5, 7], 1⟩) := by
  obtain ⟨f', h1, h2⟩ := C118_rank .valueError argsortRef argsortRef_isArgsort (fun v : ℤ => |v|) ⟨[0, 7, 0], 1⟩ (by decide) (by decide) [5]
  obtain ⟨ys, h3⟩ := h1.2 (by decide)
  have h4 : (Rank.filter argsortRef (fun v : ℤ => |v|) ⟨[0, 7, 0], 1⟩ [5]).2.s = [5, 5, 7] ∧
      (Rank.filter argsortRef (fun v : ℤ => |v|) ⟨[0, 7, 0], 1⟩ [5]).2.index = 1 := by decide +kernel
  rw [h3] at h4
  rw [h2]
  rcases f' with ⟨s, i⟩
  simp only at h4
  rw [h4.1, h4.2]

theorem C118_pid [Add R] [Sub R] [Dot R] [LT K] [DecidableLT K] [IsNan K] (e : PyErr) (mag : R → K) (f : Pid R K) (x : List R) :
    ∃ f', Heard (Pid.filter mag) f x f' ∧ f.filterBad e mag x = (.error e, f') := by
  obtain ⟨⟨ys, hys⟩, -⟩ := runLoop_inv (Pid.step mag) (fun _ => True) (fun st v _ => ⟨⟨_, rfl⟩, trivial⟩) f trivial x
  have hr : runLoop (Pid.step mag) f x = (.ok ys, (runLoop (Pid.step mag) f x).2) := by rw [← hys]
  exact ⟨_, heard_loop _ _ (fun st x hx => by simp [Pid.filter, hx]) f _ x ys hr, refuse_ok _ _ f _ x ys hr⟩

example : ∃ f f', Pid.new (K := ℤ) id [1, 10, 100] = .ok f ∧ f.filterBad .typeError (fun v : ℤ => |v|) [3] = (.error .typeError, f') ∧ f'.s1 = 3 := ⟨_, _, rfl, rfl, rfl⟩

/-- C118, GoertzelFilter with a two dimensional array: the block in progress has one more sample in the recursion, which is not counted. -/
theorem C118_goertzel [Field R] [Dot R] (g : Goertzel R F) (hg : g.iir.a.length = g.iir.b.length ∧ g.iir.b.length = g.iir.s.length ∧ 1 < g.iir.b.length)
    (hc : g.iir.cast = id) (hi : g.index < g.w.length) (n : ℕ) (hn : 0 < n) :
    ∃ s0 i', g.iir.s.head? = some s0 ∧ (g.iir.filter [s0 + dot g.iir.a g.iir.s]).2 = i' ∧ g.filterRows n = (.error .valueError, { g with iir := i' }) := by
  obtain ⟨f', s0, h1, h2, h3, -⟩ := C118_iir .valueError g.iir hg hc []
  have hf := h1.1 rfl
  subst hf
  refine ⟨s0, _, h2, rfl, ?_⟩
  unfold Goertzel.filterRows
  rw [if_neg (by omega), List.getElem?_eq_getElem hi]
  have h4 : g.iir.filterBad .valueError [] = (.error (g.iir.refuse .valueError).1, (g.iir.refuse .valueError).2) := by
    rw [Iir.filterBad, if_neg (by omega)]
    rfl
  rw [h4, Prod.mk.injEq] at h3
  simp only [h3.2]
  have := h3.1
  simp only [Except.error.injEq] at this
  rw [this]

example : ((⟨⟨id, [0, 2, -1], [1, -1, 0], [3, 1, 0]⟩, 1, [1, 1], ()⟩ : Goertzel ℚ Unit)).filterRows 4 =
    (.error .valueError, ⟨⟨id, [0, 2, -1], [1, -1, 0], [5, 5, 1]⟩, 1, [1, 1], ()⟩) := by
  simp [Goertzel.filterRows, Iir.refuse, shiftRight, dot]
  norm_num

/-- C118, PolyphaseRateFilter with a two dimensional array.  If an output is due, the exception leaves the time of the output after it: a later call begins
one output period late, also after `reset`.  If none is due, nothing happens and nothing is raised. -/
theorem C118_polyphase (cc : ℕ) (B : List (List ℝ)) (hB : IsBank cc B) (p : Polyphase) (hp : PPReach cc p) (hr : 0 < p.rate) (n : ℕ) (hn : 0 < n) :
    ∃ m : ℤ, IsRound (n * p.rate) m ∧ (m = 0 → p.filterRows B n = (.ok [], p)) ∧
      (m ≠ 0 → B.length ≤ p.index → p.filterRows B n = (.error .valueError, p)) ∧
      (m ≠ 0 → p.index < B.length → ∃ p', p.filterRows B n = (.error .valueError, p') ∧ PPReach cc p' ∧ (∀ r, (p'.reset r).index ≠ (p.reset r).index) ∧
        ∀ x ≠ [], ∃ y q, p'.filter B x = (.ok y, q) ∧ ∀ k < y.length, ∃ (i : ℕ) (j : ℤ) (row : List ℝ), i < x.length ∧
          (i : ℝ) ≤ p.index / B.length + (k + 1) / p.rate ∧ p.index / B.length + (k + 1) / p.rate < i + 1 ∧
          IsRound (B.length * (p.index / B.length + (k + 1) / p.rate - i)) j ∧ 0 ≤ j ∧ B[(min j (B.length - 1)).toNat]? = some row ∧ y[k]? = some (weigh row x p.s i)) := by
  have hpos : (0 : ℝ) < B.length := by exact_mod_cast List.length_pos_of_ne_nil hB.1
  have hm0 : 0 ≤ np.round (n * p.rate) := np.round_nonneg _ (by positivity)
  have hstep : 0 < (B.length : ℝ) / p.rate := by positivity
  refine ⟨np.round (n * p.rate), np.round_spec _, ?_, ?_, ?_⟩
  · intro h
    unfold Polyphase.filterRows
    rw [if_neg (by omega), h, if_pos (by rfl)]
  · intro h hi
    unfold Polyphase.filterRows
    rw [if_neg (by omega), if_neg (by omega), if_neg (not_lt.mpr hi)]
  · intro h hi
    have hp' : PPReach cc { p with index := p.index + B.length / p.rate } := ⟨by have := hp.1; simp only; positivity, hp.2.1, hp.2.2⟩
    refine ⟨{ p with index := p.index + B.length / p.rate }, ?_, hp', ?_, ?_⟩
    · unfold Polyphase.filterRows
      rw [if_neg (by omega), if_neg (by omega), if_pos hi, if_neg hr.ne']
    · intro r
      simp only [Polyphase.reset]
      linarith
    · intro x hx
      obtain ⟨y, q, m, g1, -, -, -, -, -, g2⟩ := C36_filter cc B hB _ hp' x hx
      refine ⟨y, q, g1, fun k hk => ?_⟩
      obtain ⟨i, j, row, t1, t2, t3, t4, t5, t6, t7⟩ := g2 k hk
      have e : (p.index + B.length / p.rate) / B.length + k / p.rate = p.index / B.length + (k + 1) / p.rate := by field_simp; ring
      simp only [e] at t2 t3 t4
      exact ⟨i, j, row, t1, t2, t3, t4, t5, t6, t7⟩

example : ∃ p', ({ index := 0, rate := 1 / 2, s := [0, 0] } : Polyphase).filterRows [[1, 0], [1 / 2, 1 / 2]] 4 = (.error .valueError, p') ∧ p'.index = 4 := by
  have hm : np.round (((4 : ℕ) : ℝ) * (1 / 2)) = 2 := IsRound.unique (np.round_spec _) (by norm_num [IsRound])
  refine ⟨{ index := 4, rate := 1 / 2, s := [0, 0] }, ?_, rfl⟩
  unfold Polyphase.filterRows
  rw [hm]
  norm_num

/-- C118, ComplexExponentialFilter and ComplexFrequencyFilter with a two dimensional array: ValueError, nothing changes. -/
theorem C118_exponential (f : CExp) (large : Bool) (n : ℕ) : f.filterRows large n = (.error .valueError, f) := by
  unfold CExp.filterRows
  by_cases h : n = 0 ∨ large
  · rw [if_pos h]
  · rw [if_neg h]
    push Not at h
    obtain ⟨m, rfl⟩ := Nat.exists_eq_succ_of_ne_zero h.1
    rcases m with _ | m <;> rfl

example := C118_exponential ⟨1 / 4⟩ true 3

theorem C118_frequency (f : FreqF) (n : ℕ) : f.filterRows n = (.error .valueError, f) := by
  unfold FreqF.filterRows
  split_ifs <;> rfl

private theorem bandpass_first (hilbert : List ℂ → List ℂ) (f : Bandpass) (hf : -1 ≤ f.frequency ∧ f.frequency ≤ 1) (d : List ℂ) (d0 : ℂ) (hd : d ≠ [])
    (h0 : (prepare hilbert d).head? = some d0) :
    ∃ out g, f.filter hilbert d = (.ok out, g) ∧ out.head? = some (phasor f.osc.phase * f.b, d0 - phasor f.osc.phase * f.b, f.b) := by
  rcases hp : prepare hilbert d with _ | ⟨a, t⟩
  · rw [hp] at h0; cases h0
  rw [hp] at h0
  obtain rfl : a = d0 := by simpa using h0
  obtain ⟨o, h1, -⟩ := CExp.filter_const f.osc f.frequency hf (a :: t).length (by simp)
  refine ⟨_, _, by unfold Bandpass.filter; rw [if_neg (by simpa using hd)]; simp only [hp, h1]; exact rfl, ?_⟩
  have ht : tone 1 f.frequency f.osc.phase (a :: t).length = phasor f.osc.phase :: (tone 1 f.frequency f.osc.phase (a :: t).length).tail := by
    simp [tone, List.range_succ_eq_map]
  rw [ht]
  rfl

/-- C118, ComplexBandpassFilter with a two dimensional array of `n` rows: the coefficient is kept but the oscillator moves by `n` samples.  A filter without error at
its next sample then has an error, unless the frequency times `n` is an even number; no method puts the oscillator back. -/
theorem C118_bandpass (hilbert : List ℂ → List ℂ) (f : Bandpass) (hf : Bandpass.Reach hilbert f) (n : ℕ) (hn : 0 < n) :
    ∃ f', f.filterRows n = (.error .valueError, f') ∧ f'.b = f.b ∧ f'.frequency = f.frequency ∧ f'.rate = f.rate ∧
      phasor f'.osc.phase = phasor (f.osc.phase + f.frequency * n) ∧
      ∀ d d0, d ≠ [] → (prepare hilbert d).head? = some d0 → d0 = phasor f.osc.phase * f.b →
        (∃ out g, f.filter hilbert d = (.ok out, g) ∧ ∃ y b, out.head? = some (y, 0, b)) ∧
        ∃ out g, f'.filter hilbert d = (.ok out, g) ∧ ∃ y b, out.head? = some (y, d0 * (1 - phasor (f.frequency * n)), b) := by
  have hfr := hf.spec.1
  obtain ⟨o, h1, k, hk⟩ := CExp.filter_const f.osc f.frequency hfr n (by omega)
  have hph : phasor o.phase = phasor (f.osc.phase + f.frequency * n) := by rw [hk, phasor_periodic]
  refine ⟨{ f with osc := o }, ?_, rfl, rfl, rfl, hph, ?_⟩
  · unfold Bandpass.filterRows
    rw [if_neg (by omega), h1]
  · intro d d0 hd h0 hl
    obtain ⟨out, g, a1, a2⟩ := bandpass_first hilbert f hfr d d0 hd h0
    obtain ⟨out', g', b1, b2⟩ := bandpass_first hilbert { f with osc := o } hfr d d0 hd h0
    refine ⟨⟨out, g, a1, _, _, by rw [a2, ← hl, sub_self]⟩, out', g', b1, phasor o.phase * f.b, f.b, ?_⟩
    rw [b2]
    simp only
    rw [hph, phasor_add]
    congr 3
    rw [hl]
    ring

/-- The oscillator of a new filter with the frequency 1/2 is moved by a quarter of a turn by one refused row. -/
example : ∃ f f' : Bandpass, Bandpass.new (1 / 2) (1 / 10) = .ok f ∧ f.filterRows 1 = (.error .valueError, f') ∧ phasor f'.osc.phase = Complex.I := by
  have hnew : Bandpass.new (1 / 2) (1 / 10) = .ok ⟨(eps : ℂ), ⟨0⟩, 1 / 2, 1 / 10⟩ := by
    unfold Bandpass.new
    rw [if_neg (by norm_num), if_neg (by norm_num)]
  obtain ⟨f', h1, -, -, -, h2, -⟩ := C118_bandpass id _ (Bandpass.Reach.new hnew) 1 one_pos
  refine ⟨_, f', hnew, h1, ?_⟩
  rw [h2]
  simp only [phasor]
  rw [show Complex.I * (Real.pi : ℂ) * ((0 + 1 / 2 * ((1 : ℕ) : ℝ) : ℝ) : ℂ) = (Real.pi : ℂ) / 2 * Complex.I by push_cast; ring]
  exact Complex.exp_pi_div_two_mul_I

/-- C118.  A two dimensional array without rows is refused like an empty signal, and changes nothing. -/
theorem C118_no_rows [Add R] [Dot R] (g : Goertzel R F) (B : List (List ℝ)) (p : Polyphase) (c : CExp) (b : Bandpass) (f : FreqF) :
    g.filterRows 0 = (.error .valueError, g) ∧ p.filterRows B 0 = (.error .valueError, p) ∧ c.filterRows false 0 = (.error .valueError, c) ∧
      b.filterRows 0 = (.error .valueError, b) ∧ f.filterRows 0 = (.error .valueError, f) := by
  simp [Goertzel.filterRows, Polyphase.filterRows, CExp.filterRows, Bandpass.filterRows, FreqF.filterRows]

example (g : Goertzel ℂ ℝ) := C118_no_rows g [[1]] ⟨0, 1, [0]⟩ ⟨0⟩ ⟨1, ⟨0⟩, 0, 1⟩ ⟨1, 1, 0, 1⟩

/-- C118.  With an empty `s` assigned there is no place for the sample: IndexError instead of the exception of the store. -/
theorem C118_no_state [Add R] [Mul R] [Dot R] (e : PyErr) (argsort : List K → List Nat) (key : R → K) (f : Fir R) (hf : f.b ≠ [] ∧ f.s = []) (i : Iir R)
    (hi : i.b ≠ [] ∧ i.s = []) (r : Rank R) (hr : r.s = []) :
    f.filterBad e [] = (.error .indexError, f) ∧ i.filterBad e [] = (.error .indexError, i) ∧ r.filterBad e argsort key [] = (.error .indexError, r) := by
  refine ⟨?_, ?_, ?_⟩
  · rcases f with ⟨c, b, s⟩
    obtain ⟨h1, rfl⟩ : b ≠ [] ∧ s = [] := hf
    simp [Fir.filterBad, h1, refuseAfter, runLoop, Fir.refuse]
  · simp [Iir.filterBad, hi.1, refuseAfter, runLoop, Iir.refuse, hi.2]
  · simp [Rank.filterBad, refuseAfter, runLoop, hr]

example := C118_no_state .typeError argsortRef (fun v : ℤ => |v|) ⟨id, [1, 2], []⟩ ⟨by simp, rfl⟩ ⟨id, [0, 1], [1, 2], []⟩ ⟨by simp, rfl⟩ ⟨[], 1⟩ rfl

end Verif.Props
