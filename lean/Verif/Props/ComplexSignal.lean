import Verif.Model.ComplexSignal
import Verif.Spec.ComplexRate
import Verif.Props.RateLinear
import Verif.Props.Wavelet

/- Property C151: signals of complex type in the classes whose coefficients are real. -/

namespace Verif.Props

open Complex Finset Spec Verif

local notation "toC" => (fun v : ℝ => (v : ℂ))

private theorem store_eq (z : ℂ) : ElemType.real.store z = ((z.re : ℝ) : ℂ) := rfl

private theorem dot_ofReal : ∀ u v : List ℝ, dot (u.map toC) (v.map toC) = ((dot u v : ℝ) : ℂ) := by
  intro u v
  rw [dot_def, dot_def]
  induction u generalizing v with
  | nil => simp
  | cons a u ih =>
    cases v with
    | nil => simp
    | cons b v => simp only [List.map_cons, List.zipWith_cons_cons, List.sum_cons, ih]; push_cast; rfl

/-- Two loops which run in step. -/
theorem runLoop_re {σ τ : Type*} (R : σ → τ → Prop) (F : σ → ℂ → Res ℂ × σ) (G : τ → ℝ → Res ℝ × τ)
    (h : ∀ f g x, R f g → (F f x).1 = (G g x.re).1.map toC ∧ R (F f x).2 (G g x.re).2) :
    ∀ (x : List ℂ) f g, R f g → (runLoop F f x).1 = (runLoop G g (x.map re)).1.map (List.map toC) ∧
      R (runLoop F f x).2 (runLoop G g (x.map re)).2 := by
  intro x
  induction x with
  | nil => intro f g hr; exact ⟨rfl, hr⟩
  | cons a x ih =>
    intro f g hr
    obtain ⟨h1, h2⟩ := h f g a hr
    rw [List.map_cons, runLoop, runLoop]
    rcases hF : F f a with ⟨r, f'⟩
    rcases hG : G g a.re with ⟨q, g'⟩
    rw [hF, hG] at h1 h2
    simp only at h1 h2
    cases q with
    | error e => subst h1; exact ⟨rfl, h2⟩
    | ok v =>
      subst h1
      obtain ⟨i1, i2⟩ := ih f' g' h2
      simp only [Except.map]
      rcases hF' : runLoop F f' x with ⟨r', f''⟩
      rcases hG' : runLoop G g' (x.map re) with ⟨q', g''⟩
      rw [hF', hG'] at i1 i2
      simp only at i1 i2
      cases q' with
      | error e => subst i1; exact ⟨rfl, i2⟩
      | ok v' => subst i1; exact ⟨rfl, i2⟩

/-- Calls on chunk after chunk. -/
theorem chunks_re {σ τ : Type*} (R : σ → τ → Prop) (F : σ → List ℂ → Res (List ℂ) × σ) (G : τ → List ℝ → Res (List ℝ) × τ)
    (h : ∀ f g x, R f g → (F f x).1 = (G g (x.map re)).1.map (List.map toC) ∧ R (F f x).2 (G g (x.map re)).2) :
    ∀ (cs : List (List ℂ)) f g, R f g →
      (callChunks F f cs).1 = (callChunks G g (cs.map (List.map re))).1.map (List.map toC) ∧
      R (callChunks F f cs).2 (callChunks G g (cs.map (List.map re))).2 := by
  intro cs
  induction cs with
  | nil => intro f g hr; exact ⟨rfl, hr⟩
  | cons a cs ih =>
    intro f g hr
    obtain ⟨h1, h2⟩ := h f g a hr
    rw [List.map_cons, callChunks, callChunks]
    rcases hF : F f a with ⟨r, f'⟩
    rcases hG : G g (a.map re) with ⟨q, g'⟩
    rw [hF, hG] at h1 h2
    simp only at h1 h2
    cases q with
    | error e => subst h1; exact ⟨rfl, h2⟩
    | ok v =>
      subst h1
      obtain ⟨i1, i2⟩ := ih f' g' h2
      simp only [Except.map]
      rcases hF' : callChunks F f' cs with ⟨r', f''⟩
      rcases hG' : callChunks G g' (cs.map (List.map re)) with ⟨q', g''⟩
      rw [hF', hG'] at i1 i2
      simp only at i1 i2
      cases q' with
      | error e => subst i1; exact ⟨rfl, i2⟩
      | ok v' => subst i1; exact ⟨by simp [Except.map], i2⟩

/-! FirFilter -/

/-- The same real coefficients and state. -/
def FirSimRe (f : Fir ℂ) (g : Fir ℝ) : Prop :=
  f.cast = ElemType.real.store ∧ g.cast = id ∧ f.b = g.b.map toC ∧ f.s = g.s.map toC

private theorem map_shiftRight (l : List ℝ) : shiftRight (l.map toC) = (shiftRight l).map toC := by
  unfold shiftRight
  cases l <;> simp [List.map_dropLast]

private theorem fir_step (f : Fir ℂ) (g : Fir ℝ) (x : ℂ) (h : FirSimRe f g) :
    (f.step x).1 = (g.step x.re).1.map toC ∧ FirSimRe (f.step x).2 (g.step x.re).2 := by
  obtain ⟨fc, fb, fs⟩ := f
  obtain ⟨gc, gb, gs⟩ := g
  obtain ⟨h1, h2, h3, h4⟩ := h
  simp only at h1 h2 h3 h4
  subst h1 h2 h3 h4
  unfold Fir.step
  simp only [List.length_map]
  by_cases hb : gb.length = 0
  · simp [hb, FirSimRe, Except.map]
  · rw [if_neg hb, if_neg hb]
    have e : (if gs.length > 1 then shiftRight (gs.map toC) else gs.map toC) = (if gs.length > 1 then shiftRight gs else gs).map toC := by
      split <;> simp [map_shiftRight]
    rw [e]
    cases (if gs.length > 1 then shiftRight gs else gs) with
    | nil => simp [FirSimRe, Except.map]
    | cons a t =>
      simp only [List.map_cons, List.length_cons, List.length_map]
      have hc : (ElemType.real.store x :: t.map toC) = (id x.re :: t).map toC := rfl
      by_cases hl : gb.length = t.length + 1
      · rw [if_pos hl, if_pos hl]
        refine ⟨?_, rfl, rfl, rfl, hc⟩
        simp only [Except.map]
        rw [hc, dot_ofReal]; rfl
      · rw [if_neg hl, if_neg hl]
        exact ⟨rfl, rfl, rfl, rfl, hc⟩

theorem fir_filter_sim (f : Fir ℂ) (g : Fir ℝ) (x : List ℂ) (h : FirSimRe f g) :
    (f.filter x).1 = (g.filter (x.map re)).1.map (List.map toC) ∧ FirSimRe (f.filter x).2 (g.filter (x.map re)).2 := by
  unfold Fir.filter
  rw [List.length_map]
  split
  · exact ⟨rfl, h⟩
  · exact runLoop_re FirSimRe Fir.step Fir.step fir_step x f g h

theorem fir_new (b : List ℝ) (s : Option (List ℝ)) (hb : b ≠ []) : ∃ f g,
    Fir.new ElemType.real.store (b.map toC) (s.map (List.map toC)) = .ok f ∧ Fir.new id b s = .ok g ∧ FirSimRe f g := by
  have hl : ¬ b.length = 0 := by simpa using hb
  unfold Fir.new
  have hs : (s.map (List.map toC)).getD [] = (s.getD []).map toC := by cases s <;> rfl
  have hp : ∀ n (l : List ℝ), padTo n (l.map toC) = (padTo n l).map toC := by intro n l; simp [padTo]
  simp only [hs, List.length_map, hl, if_false]
  refine ⟨_, _, rfl, rfl, rfl, rfl, ?_, ?_⟩
  · simp only
    split <;> simp [hp]
  · simp only
    have e : (if b.length < (s.getD []).length then padTo (s.getD []).length (b.map toC) else b.map toC) =
        (if b.length < (s.getD []).length then padTo (s.getD []).length b else b).map toC := by split <;> simp [hp]
    rw [e, List.length_map]
    generalize (if b.length < (s.getD []).length then padTo (s.getD []).length b else b).length = n
    have e2 : (if (s.getD []).length < n then padTo n ((s.getD []).map toC) else (s.getD []).map toC) =
        (if (s.getD []).length < n then padTo n (s.getD []) else s.getD []).map toC := by split <;> simp [hp]
    rw [e2, List.map_map, List.map_id]
    apply List.map_congr_left
    intro a _
    rw [Function.comp_apply, store_eq, ofReal_re]

/-- C151: a FirFilter with real coefficients returns for complex signals, in any number of calls, what it returns for their real parts. -/
theorem C151_fir (b : List ℝ) (s : Option (List ℝ)) (hb : b ≠ []) (cs : List (List ℂ)) : ∃ f g,
    Fir.new ElemType.real.store (b.map toC) (s.map (List.map toC)) = .ok f ∧ Fir.new id b s = .ok g ∧
      (callChunks Fir.filter f cs).1 = (callChunks Fir.filter g (cs.map (List.map re))).1.map (List.map toC) := by
  obtain ⟨f, g, h1, h2, h3⟩ := fir_new b s hb
  exact ⟨f, g, h1, h2, (chunks_re FirSimRe Fir.filter Fir.filter fir_filter_sim cs f g h3).1⟩

example : ([1, -1] : List ℝ) ≠ [] := by simp

/-! IirFilter -/

private def IirRel (f : Iir ℂ) (g : Iir ℝ) : Prop :=
  f.cast = ElemType.real.store ∧ g.cast = id ∧ f.a = g.a.map toC ∧ f.b = g.b.map toC ∧ f.s = g.s.map toC

private theorem bcAdd_ofReal (u v : List ℝ) : bcAdd (u.map toC) (v.map toC) = (bcAdd u v).map (List.map toC) := by
  have hz : ∀ u v : List ℝ, List.zipWith (· + ·) (u.map toC) (v.map toC) = (List.zipWith (· + ·) u v).map toC := by
    intro u v
    rw [List.zipWith_map, List.map_zipWith]
    congr 1
    funext a b
    push_cast; rfl
  unfold bcAdd
  rw [List.length_map, List.length_map]
  split
  · simp [Except.map, hz]
  · rcases u with _ | ⟨a, _ | ⟨a', u⟩⟩ <;> rcases v with _ | ⟨b, _ | ⟨b', v⟩⟩ <;> simp_all [Except.map]

private theorem iir_step (f : Iir ℂ) (g : Iir ℝ) (x : ℂ) (h : IirRel f g) :
    (f.step x).1 = (g.step x.re).1.map toC ∧ IirRel (f.step x).2 (g.step x.re).2 := by
  obtain ⟨fc, fa, fb, fs⟩ := f
  obtain ⟨gc, ga, gb, gs⟩ := g
  obtain ⟨h1, h2, h3, h4, h5⟩ := h
  simp only at h1 h2 h3 h4 h5
  subst h1 h2 h3 h4 h5
  unfold Iir.step
  simp only [List.length_map]
  cases gb with
  | nil => simp [IirRel, Except.map]
  | cons b0 gb =>
    have hne : ¬ (b0 :: gb).length = 0 := by simp
    rw [if_neg hne, if_neg hne]
    have e : (if gs.length > 1 then (if ga.length = gs.length then
          (.ok (shiftRight ((gs.map toC).modifyHead fun s0 => ElemType.real.store (s0 + dot (ga.map toC) (gs.map toC)))) : Res (List ℂ))
          else .error .valueError) else .ok (gs.map toC)) =
        (if gs.length > 1 then (if ga.length = gs.length then (.ok (shiftRight (gs.modifyHead fun s0 => id (s0 + dot ga gs))) : Res (List ℝ))
          else .error .valueError) else .ok gs).map (List.map toC) := by
      split
      · split
        · simp only [Except.map]
          rw [← map_shiftRight]
          congr 2
          rw [dot_ofReal]
          cases gs with
          | nil => rfl
          | cons a t => simp [store_eq]
        · rfl
      · rfl
    rw [e]
    cases (if gs.length > 1 then (if ga.length = gs.length then (.ok (shiftRight (gs.modifyHead fun s0 => id (s0 + dot ga gs))) : Res (List ℝ))
          else .error .valueError) else .ok gs) with
    | error e => exact ⟨rfl, rfl, rfl, rfl, rfl, rfl⟩
    | ok s1 =>
      cases s1 with
      | nil => exact ⟨rfl, rfl, rfl, rfl, rfl, rfl⟩
      | cons a t =>
        simp only [Except.map, List.map_cons]
        have ha : (ga.map toC).map (· * ((b0 : ℝ) : ℂ)) = (ga.map (· * b0)).map toC := by
          rw [List.map_map, List.map_map]
          apply List.map_congr_left
          intro v _
          simp
        have hb : ((b0 : ℝ) : ℂ) :: gb.map toC = (b0 :: gb).map toC := rfl
        have hc : (ElemType.real.store x :: t.map toC) = (id x.re :: t).map toC := rfl
        rw [ha, hb, bcAdd_ofReal]
        cases bcAdd (ga.map (· * b0)) (b0 :: gb) with
        | error e => exact ⟨rfl, rfl, rfl, rfl, rfl, hc⟩
        | ok c =>
          simp only [Except.map, List.length_map, List.length_cons]
          by_cases hl : c.length = t.length + 1
          · rw [if_pos hl, if_pos hl]
            refine ⟨?_, rfl, rfl, rfl, rfl, hc⟩
            rw [hc, dot_ofReal]; rfl
          · rw [if_neg hl, if_neg hl]
            exact ⟨rfl, rfl, rfl, rfl, rfl, hc⟩

private theorem iir_filter_sim (f : Iir ℂ) (g : Iir ℝ) (x : List ℂ) (h : IirRel f g) :
    (f.filter x).1 = (g.filter (x.map re)).1.map (List.map toC) ∧ IirRel (f.filter x).2 (g.filter (x.map re)).2 := by
  unfold Iir.filter
  rw [List.length_map]
  split
  · exact ⟨rfl, h⟩
  · exact runLoop_re IirRel Iir.step Iir.step iir_step x f g h

/-- C151: so does an IirFilter (and the classes built on it), in whatever state of real numbers it is. -/
theorem C151_iir (a b s : List ℝ) (cs : List (List ℂ)) :
    (callChunks Iir.filter (Iir.mk ElemType.real.store (a.map toC) (b.map toC) (s.map toC)) cs).1 =
      (callChunks Iir.filter (Iir.mk id a b s) (cs.map (List.map re))).1.map (List.map toC) :=
  (chunks_re IirRel Iir.filter Iir.filter iir_filter_sim cs _ _ ⟨rfl, rfl, rfl, rfl, rfl⟩).1

example := C151_iir [0, 1 / 2] [1, 2] [0, 3] [[1, Complex.I], [2 + Complex.I]]

/-! PidFilter -/

private def PidRel (f : Pid ℂ ℝ) (g : Pid ℝ ℝ) : Prop :=
  f.cast = ElemType.real.store ∧ g.cast = id ∧ f.b0 = g.b0 ∧ f.b1 = g.b1 ∧ f.b2 = g.b2 ∧ f.s0 = g.s0 ∧ f.s1 = g.s1 ∧ f.s2 = g.s2 ∧
    f.limit = none ∧ g.limit = none

private theorem pid_step (f : Pid ℂ ℝ) (g : Pid ℝ ℝ) (x : ℂ) (h : PidRel f g) :
    (f.step norm x).1 = (g.step abs x.re).1.map toC ∧ PidRel (f.step norm x).2 (g.step abs x.re).2 := by
  obtain ⟨fc, f0, f1, f2, t0, t1, t2, fl⟩ := f
  obtain ⟨gc, b0, b1, b2, s0, s1, s2, gl⟩ := g
  obtain ⟨h1, h2, h3, h4, h5, h6, h7, h8, h9, h10⟩ := h
  simp only at h1 h2 h3 h4 h5 h6 h7 h8 h9 h10
  subst h1 h2 h3 h4 h5 h6 h7 h8 h9 h10
  unfold Pid.step
  simp only [belowLimit, isNan_noNan, Bool.not_false, if_true]
  have e0 : ElemType.real.store x = ((id x.re : ℝ) : ℂ) := rfl
  have e1 : ElemType.real.store ((s1 : ℂ) + x) = ((id (s1 + x.re) : ℝ) : ℂ) := by simp [store_eq]
  have e2 : ElemType.real.store (x - (s0 : ℂ)) = ((id (x.re - s0) : ℝ) : ℂ) := by simp [store_eq]
  rw [e0, e1, e2]
  refine ⟨?_, rfl, rfl, rfl, rfl, rfl, rfl, rfl, rfl, rfl, rfl⟩
  simp only [Except.map]
  have := dot_ofReal [b0, b1, b2] [id x.re, id (s1 + x.re), id (x.re - s0)]
  simp only [List.map_cons, List.map_nil] at this
  rw [this]; rfl

/-- C151: so does a PidFilter without a limit. -/
theorem C151_pid (b0 b1 b2 s0 s1 s2 : ℝ) (cs : List (List ℂ)) :
    (callChunks (Pid.filter norm) (Pid.mk ElemType.real.store b0 b1 b2 s0 s1 s2 none : Pid ℂ ℝ) cs).1 =
      (callChunks (Pid.filter abs) (Pid.mk id b0 b1 b2 s0 s1 s2 none : Pid ℝ ℝ) (cs.map (List.map re))).1.map (List.map toC) := by
  refine (chunks_re PidRel (Pid.filter norm) (Pid.filter abs) ?_ cs _ _ ⟨rfl, rfl, rfl, rfl, rfl, rfl, rfl, rfl, rfl, rfl⟩).1
  intro f g x h
  unfold Pid.filter
  rw [List.length_map]
  split
  · exact ⟨rfl, h⟩
  · exact runLoop_re PidRel _ _ pid_step x f g h

example := C151_pid 1 2 3 0 0 0 [[1, Complex.I], [2 + Complex.I]]

/-- C151: with a limit it does not: the limit is compared with the magnitude of the complex number, of which the integral keeps the real part.
A sample of real part `r` and imaginary part `r` does not reach the integral of a fresh filter if `r < limit ≤ r √2`. -/
theorem C151_pid_limit (b0 b1 b2 l r : ℝ) (h1 : 0 < r) (h2 : r < l) (h3 : l ^ 2 ≤ 2 * r ^ 2) :
    (Pid.filter norm (Pid.mk ElemType.real.store b0 b1 b2 0 0 0 (some l) : Pid ℂ ℝ) [⟨r, r⟩]).1 = .ok [((b0 * r + b2 * r : ℝ) : ℂ)] ∧
      (Pid.filter abs (Pid.mk id b0 b1 b2 0 0 0 (some l) : Pid ℝ ℝ) [r]).1 = .ok [b0 * r + b1 * r + b2 * r] := by
  have hn : ¬ ‖(0 : ℂ) + ⟨r, r⟩‖ < l := by
    rw [zero_add, Complex.norm_def, not_lt]
    apply Real.le_sqrt_of_sq_le
    simp [Complex.normSq_apply]; nlinarith
  have hm : |(0 : ℝ) + r| < l := by rw [zero_add, abs_of_pos h1]; exact h2
  constructor
  · simp only [Pid.filter, runLoop, Pid.step, belowLimit, List.length_cons, List.length_nil]
    simp only [hn, store_eq, dot_def]
    simp
  · simp only [Pid.filter, runLoop, Pid.step, belowLimit, List.length_cons, List.length_nil]
    simp only [hm, dot_def]
    simp
    ring

example : (0 : ℝ) < 1 ∧ (1 : ℝ) < 1.2 ∧ (1.2 : ℝ) ^ 2 ≤ 2 * 1 ^ 2 := by norm_num

end Verif.Props
