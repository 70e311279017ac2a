import Verif.Model.NanParameter
import Verif.Model.Exact
import Verif.Props.Nan
import Verif.Props.Goertzel

/-
C129: what nan does as a parameter.
-/

namespace Verif.Props

open Verif.Spec Verif.Spec.Num

/-! ## PolyphaseRateFilter -/

/-- The filter of numbers, among those with rates which may be nan. -/
def nanPolyphase (p : Polyphase) : NanPolyphase := ⟨p.index, val p.rate, p.s⟩

/-- C129: with rates which are numbers the model is that of the other properties. -/
theorem C129_polyphase_numbers (rr cc : ℕ) (B : List (List ℝ)) (p : Polyphase) (r : ℝ) (x : List ℝ) (v : ℝ) :
    (NanPolyphase.new rr cc B (val r)) = ((Polyphase.new rr cc B r).1.map nanPolyphase, (Polyphase.new rr cc B r).2) ∧
    (nanPolyphase p).setRate rr (val r) = ((p.setRate rr r).1, nanPolyphase (p.setRate rr r).2) ∧
    (nanPolyphase p).filter B x = ((p.filter B x).1, nanPolyphase (p.filter B x).2) ∧
    (nanPolyphase p).reset v = nanPolyphase (p.reset v) := by
  have ho : outside 0 rr (val r) ↔ r < 0 ∨ r > rr := Iff.rfl
  refine ⟨?_, ?_, ?_, rfl⟩
  · unfold NanPolyphase.new Polyphase.new
    by_cases h : r < 0 ∨ r > rr
    · rw [if_pos (ho.mpr h), if_pos h]; rfl
    · rw [if_neg (mt ho.mp h), if_neg h]
      dsimp only
      split_ifs with h2
      · cases fir.design (some .hann) (0.85 / rr) (cc * rr - 1) 1 false 1 <;> rfl
      · rfl
  · unfold NanPolyphase.setRate Polyphase.setRate
    by_cases h : r < 0 ∨ r > rr
    · rw [if_pos (ho.mpr h), if_pos h]
    · rw [if_neg (mt ho.mp h), if_neg h]; rfl
  · unfold NanPolyphase.filter
    by_cases h : x = []
    · rw [if_pos h, Polyphase.filter, if_pos h]
    · rw [if_neg h]; rfl

/-- C129: the constructor of PolyphaseRateFilter accepts nan whenever it accepts the rate one. -/
theorem C129_polyphase_new (rr cc : ℕ) (B : List (List ℝ)) (hr : 0 < rr) :
    (NanPolyphase.new rr cc B nan) = ((Polyphase.new rr cc B 1).1.map fun p => { nanPolyphase p with rate := nan }, (Polyphase.new rr cc B 1).2) := by
  have h1 : ¬ outside 0 rr nan := by rintro (h | h) <;> exact h
  have h2 : ¬ ((1 : ℝ) < 0 ∨ (1 : ℝ) > rr) := by
    have : (1 : ℝ) ≤ rr := by exact_mod_cast hr
    rintro (h | h) <;> linarith
  unfold NanPolyphase.new Polyphase.new
  rw [if_neg h1, if_neg h2]
  dsimp only
  split_ifs with h2
  · cases fir.design (some .hann) (0.85 / rr) (cc * rr - 1) 1 false 1 <;> rfl
  · rfl

/-- Two rows of three coefficients. -/
example := C129_polyphase_new 2 3 [[1, 0, 0], [0, 1, 0]] (by norm_num)

/-- The samples which a PolyphaseRateFilter keeps are replaced by those of a sequence of resets. -/
def resetAll (s : List ℝ) : List NanPolyphaseOp → List ℝ
  | [] => s
  | .reset v :: ops => resetAll (s.map fun _ => v) ops
  | _ :: ops => resetAll s ops

/-- C129: assigning nan to the rate succeeds and drops the phase; until a number is assigned every call of filter raises ValueError, and changes nothing,
whatever else is called in between; a number then begins anew with the samples kept, as if nan had never been there and the phase were
that of a new filter. -/
theorem C129_polyphase_nan (B : List (List ℝ)) (p : NanPolyphase) (ops : List NanPolyphaseOp)
    (hops : ∀ r, .rate (val r) ∉ ops) (x : List ℝ) (r : ℝ) (hr : 0 ≤ r ∧ r ≤ B.length) :
    ∃ q, p.apply B (.rate nan) = (.ok [], q) ∧
      ((ops.foldl (fun q op => (q.apply B op).2) q).apply B (.filter x)).1 = .error .valueError ∧
      (ops.foldl (fun q op => (q.apply B op).2) q).apply B (.rate (val r)) = (.ok [], ⟨0, val r, resetAll p.s ops⟩) := by
  have h1 : ¬ outside 0 B.length nan := by rintro (h | h) <;> exact h
  have hc : ∀ v, np.iscloseNan v nan = false := by intro v; cases v <;> rfl
  have hq : ∀ q : NanPolyphase, q.apply B (.rate nan) = (.ok [], ⟨0, nan, q.s⟩) := by
    intro q
    simp only [NanPolyphase.apply, NanPolyphase.setRate, if_neg h1, hc]
    rfl
  have hfold : ∀ (ops : List NanPolyphaseOp) (s : List ℝ), (∀ r, .rate (val r) ∉ ops) →
      ops.foldl (fun q op => (NanPolyphase.apply B q op).2) (⟨0, nan, s⟩ : NanPolyphase) = ⟨0, nan, resetAll s ops⟩ := by
    intro ops
    induction ops with
    | nil => intro s _; rfl
    | cons op ops ih =>
      intro s ho
      have ho' : ∀ r, NanPolyphaseOp.rate (val r) ∉ ops := fun r h => ho r (List.mem_cons_of_mem _ h)
      rw [List.foldl_cons]
      cases op with
      | filter x =>
        have : (NanPolyphase.apply B (⟨0, nan, s⟩ : NanPolyphase) (.filter x)).2 = ⟨0, nan, s⟩ := by
          simp only [NanPolyphase.apply, NanPolyphase.filter]
          split_ifs <;> rfl
        rw [this]; exact ih s ho'
      | rate v =>
        cases v with
        | val v => exact absurd (List.mem_cons_self ..) (ho v)
        | nan => rw [hq]; exact ih s ho'
      | reset v => exact ih _ ho'
  refine ⟨_, hq p, ?_, ?_⟩
  · rw [hfold ops p.s hops]
    simp only [NanPolyphase.apply, NanPolyphase.filter]
    split_ifs <;> rfl
  · rw [hfold ops p.s hops]
    have h2 : ¬ outside 0 B.length (val r) := by
      rintro (h | h)
      · exact absurd (show r < 0 from h) (not_lt.mpr hr.1)
      · exact absurd (show (B.length : ℝ) < r from h) (not_lt.mpr hr.2)
    simp only [NanPolyphase.apply, NanPolyphase.setRate, if_neg h2]
    rfl

/-- C129: other values are accepted as the comparisons say. -/
theorem C129_polyphase_rejected (B : List (List ℝ)) (p : NanPolyphase) (r : Num ℝ) :
    p.apply B (.rate r) = (.error .valueError, p) ↔ ∃ v, r = val v ∧ (v < 0 ∨ (B.length : ℝ) < v) := by
  cases r with
  | nan =>
    have h1 : ¬ outside 0 B.length nan := by rintro (h | h) <;> exact h
    simp [NanPolyphase.apply, NanPolyphase.setRate, if_neg h1]
  | val v =>
    have ho : outside 0 B.length (val v) ↔ v < 0 ∨ v > B.length := Iff.rfl
    by_cases h : v < 0 ∨ v > B.length
    · simp only [NanPolyphase.apply, NanPolyphase.setRate, if_pos (ho.mpr h), true_iff]
      exact ⟨v, rfl, h⟩
    · simp only [NanPolyphase.apply, NanPolyphase.setRate, if_neg (mt ho.mp h)]
      constructor
      · intro h; simp at h
      · rintro ⟨w, hw, hv⟩
        obtain rfl : v = w := by simpa using hw
        exact absurd hv h

/-- Concrete case of C129: a filter at the rate one with the phase 100 and three samples; nan, a call and a reset; then one again. -/
example : ∃ q, (⟨100, val 1, [1, 2, 3]⟩ : NanPolyphase).apply [[1, 0, 0], [0, 1, 0]] (.rate nan) = (.ok [], q) ∧
    ([NanPolyphaseOp.filter [5, 6], .reset 7].foldl (fun q op => (q.apply [[1, 0, 0], [0, 1, 0]] op).2) q).apply [[1, 0, 0], [0, 1, 0]]
      (.rate (val 1)) = (.ok [], ⟨0, val 1, [7, 7, 7]⟩) := by
  obtain ⟨q, h1, -, h3⟩ := C129_polyphase_nan [[1, 0, 0], [0, 1, 0]] ⟨100, val 1, [1, 2, 3]⟩ [.filter [5, 6], .reset 7] (by simp) [1] 1 (by simp)
  exact ⟨q, h1, h3⟩

/-! ## PolynomialRateFilter -/

/-- C129: PolynomialRateFilter takes nan for a rate, in the constructor and in the setter, and raises ValueError in every call; a number brings it back. -/
theorem C129_polynomial (polyfit : ℕ → List ℝ → List ℝ) (order : ℤ) (x : Option (List ℝ)) (p : NanPolyRate) (r : ℝ) (hr : 0 ≤ r) :
    (NanPolyRate.new nan order = if order ≤ 0 then .error .valueError else .ok ⟨order, nan⟩) ∧
    p.setRate nan = (.ok (), ⟨p.order, nan⟩) ∧
    NanPolyRate.filter polyfit ⟨order, nan⟩ x = .error .valueError ∧
    p.setRate (val r) = (.ok (), ⟨p.order, val r⟩) ∧
    NanPolyRate.filter polyfit ⟨order, val r⟩ x = PolyRate.filter polyfit ⟨order, r⟩ x := by
  have h1 : ¬ (nan : Num ℝ) < val 0 := fun h => h
  have h2 : ¬ (val r : Num ℝ) < val 0 := fun h => absurd (show r < 0 from h) (not_lt.mpr hr)
  refine ⟨by simp [NanPolyRate.new, if_neg h1], by simp [NanPolyRate.setRate, if_neg h1], ?_, by simp [NanPolyRate.setRate, if_neg h2], ?_⟩
  · cases x with
    | none => rfl
    | some x => simp only [NanPolyRate.filter]; split_ifs <;> rfl
  · cases x with
    | none => rfl
    | some x =>
      simp only [NanPolyRate.filter]
      split_ifs with h
      · simp [PolyRate.filter, h]
      · rfl

/-- Concrete case of C129: order three. -/
example : NanPolyRate.new nan 3 = .ok ⟨3, nan⟩ ∧ NanPolyRate.filter (fun _ l => l) ⟨3, nan⟩ (some [1, 2, 3]) = .error .valueError := by
  obtain ⟨h1, -, h3, -⟩ := C129_polynomial (fun _ l => l) 3 (some [1, 2, 3]) ⟨3, nan⟩ 0 le_rfl
  exact ⟨by rw [h1]; rfl, h3⟩

/-- C129: given numbers, the constructor and the setter of PolynomialRateFilter are those of the other properties. -/
theorem C129_polynomial_numbers (r : ℝ) (order : ℤ) (p : PolyRate) :
    NanPolyRate.new (val r) order = (PolyRate.new r order).map (fun p => ⟨p.order, val p.rate⟩) ∧
    (⟨p.order, val p.rate⟩ : NanPolyRate).setRate (val r) = ((p.setRate r).1, ⟨(p.setRate r).2.order, val (p.setRate r).2.rate⟩) := by
  have h : ((val r : Num ℝ) < val 0) ↔ r < 0 := Iff.rfl
  unfold NanPolyRate.new PolyRate.new NanPolyRate.setRate PolyRate.setRate
  by_cases h1 : r < 0
  · rw [if_pos (h.mpr h1), if_pos h1, if_pos (h.mpr h1), if_pos h1]; exact ⟨rfl, rfl⟩
  · rw [if_neg (mt h.mp h1), if_neg h1, if_neg (mt h.mp h1), if_neg h1]
    exact ⟨by split_ifs <;> rfl, rfl⟩

example := C129_polynomial_numbers (-1) 3 ⟨3, 2⟩

/-! ## PidFilter -/

/-- C129: PidFilter accepts nan for the limit.  The integral is then frozen: each output is the one of a controller without integral plus a constant, in
all calls, until another limit is assigned. -/
theorem C129_pid (f : Pid ℝ (Num ℝ)) (hc : f.cast = id) (calls : List (List ℝ)) (hne : ∀ c ∈ calls, c ≠ []) :
    ∃ g, f.setLimit nan = (.ok (), g) ∧ ∃ y g', callChunks (Pid.filter fun v => val |v|) g calls = (.ok y, g') ∧
      y = List.zipWith (fun x before => f.b0 * x + f.b1 * f.s1 + f.b2 * (x - before)) calls.flatten (f.s0 :: calls.flatten) ∧ g'.s1 = f.s1 := by
  have h1 : ¬ (nan : Num ℝ) < 0 := fun h => h
  refine ⟨{ f with limit := some nan }, by simp [Pid.setLimit, if_neg h1], ?_⟩
  have hrun : ∀ (x : List ℝ) (s0 s2 : ℝ), ∃ s0' s2', runLoop (Pid.step fun v : ℝ => val |v|) { f with s0 := s0, s2 := s2, limit := some nan } x =
      (.ok (List.zipWith (fun x before => f.b0 * x + f.b1 * f.s1 + f.b2 * (x - before)) x (s0 :: x)),
        { f with s0 := s0', s2 := s2', limit := some nan }) := by
    intro x
    induction x with
    | nil => intro s0 s2; exact ⟨s0, s2, rfl⟩
    | cons a x ih =>
      intro s0 s2
      obtain ⟨s0', s2', h⟩ := ih a (a - s0)
      refine ⟨s0', s2', ?_⟩
      have hb : ∀ v : ℝ, belowLimit (val |v|) (some nan) = false := fun v => rfl
      have hst : Pid.step (fun v : ℝ => val |v|) { f with s0 := s0, s2 := s2, limit := some nan } a =
          (.ok (f.b0 * a + f.b1 * f.s1 + f.b2 * (a - s0)), { f with s0 := a, s2 := a - s0, limit := some nan }) := by
        simp [Pid.step, hc, hb, dot_def, add_assoc]
      rw [runLoop, hst]
      simp only [h]
      rfl
  rw [callChunks_eq_runLoop (Pid.step fun v : ℝ => val |v|) _ (fun st x hx => by simp [Pid.filter, hx]) _ _ hne]
  obtain ⟨s0', s2', h⟩ := hrun calls.flatten f.s0 f.s2
  exact ⟨_, _, h, rfl, rfl⟩

/-- Concrete case of C129: the unit controller with the integral at five. -/
example : ∃ g, (⟨id, 1, 1, 1, 0, 5, 0, none⟩ : Pid ℝ (Num ℝ)).setLimit nan = (.ok (), g) ∧
    ∃ y g', callChunks (Pid.filter fun v => val |v|) g [[1, 2], [4]] = (.ok y, g') ∧ y = [1 + 5 + 1, 2 + 5 + 1, 4 + 5 + 2] ∧ g'.s1 = 5 := by
  obtain ⟨g, h1, y, g', h2, h3, h4⟩ := C129_pid ⟨id, 1, 1, 1, 0, 5, 0, none⟩ rfl [[1, 2], [4]] (by simp)
  refine ⟨g, h1, y, g', h2, ?_, h4⟩
  rw [h3]
  norm_num

/-! ## Design of FirFilter and IirFilter -/

/-- C129: as long as no deviation is nan the search is that of the other properties. -/
theorem C129_search {α β : Type*} (cand : ℝ → Res α) (dev : α → ℝ) (cand' : Num ℝ → Res β) (dev' : β → Num ℝ) (j : α → β)
    (hc : ∀ s, cand' (val s) = (cand s).map j) (hd : ∀ v, dev' (j v) = val (dev v)) (rate : ℝ) (n : ℕ) :
    ∀ (s : ℝ) (best : Option (α × ℝ)), search.loopNan cand' dev' rate n (val s) (best.map fun p => (j p.1, p.2)) =
      (search.loop cand dev rate n s best).map (Option.map j) := by
  induction n with
  | zero => intro s best; cases best <;> rfl
  | succ n ih =>
    intro s best
    simp only [search.loopNan, search.loop, hc]
    cases hs : cand s with
    | error e => rfl
    | ok v =>
      simp only [Except.map, hd]
      cases best with
      | none =>
        simp only [Option.map_none]
        split_ifs
        · rfl
        · exact ih _ (some (v, |dev v|))
      | some b =>
        obtain ⟨w, e⟩ := b
        simp only [Option.map_some]
        split_ifs
        · rfl
        · exact ih _ (some (v, |dev v|))
        · exact ih _ (some (w, e))

/-- C129: with nan for the frequency FirFilter raises ValueError, whatever the other arguments. -/
theorem C129_fir (style : Option WStyle) (order count : ℤ) (complement : Bool) (gain : ℝ) :
    fir.designNan style nan order count complement gain = .error .valueError := by
  cases style with
  | none => rfl
  | some style =>
    simp only [fir.designNan]
    split_ifs
    · rfl
    · rfl
    · simp [search.loopNan, fir.candidateNan]

/-- C129: IirFilter does not notice nan for the frequency; no candidate is ever kept, and the constructor fails with IndexError or, with complement,
ZeroDivisionError. -/
theorem C129_iir (residue : List ℝ → List ℝ → List ℂ × List ℂ) (style : IStyle) (order count : ℤ) (ho : 0 < order) (hn : 0 < count)
    (complement : Bool) (gain : ℝ) :
    iir.designNan residue (some style) nan order count complement gain =
      .error (if complement then .zeroDivisionError else .indexError) := by
  have hl : ∀ (rate : ℝ) (n : ℕ) (s : Num ℝ), search.loopNan (fun scale => iir.evaluateNan residue style (scale * nan) order.toNat) (fun _ => nan)
      rate n s none = .ok none := by
    intro rate n
    induction n with
    | zero => intro s; rfl
    | succ n ih =>
      intro s
      have he : iir.evaluateNan residue style (s * nan) order.toNat = .ok (val 0 :: List.replicate order.toNat nan, List.replicate (order.toNat + 1) nan) := by
        rw [mul_nan]; rfl
      rw [search.loopNan, he]
      exact ih _
  simp only [iir.designNan, if_neg (not_le.mpr ho), if_neg (not_le.mpr hn), hl]
  cases complement <;> rfl

/-- C129: so that neither constructor returns a filter, whatever the arguments. -/
theorem C129_iir_none (residue : List ℝ → List ℝ → List ℂ × List ℂ) (style : Option IStyle) (order count : ℤ) (complement : Bool) (gain : ℝ) :
    ∃ e, iir.designNan residue style nan order count complement gain = .error e := by
  cases style with
  | none => exact ⟨_, rfl⟩
  | some style =>
    by_cases ho : order ≤ 0
    · exact ⟨.valueError, by simp only [iir.designNan, if_pos ho]⟩
    · by_cases hn : count ≤ 0
      · exact ⟨.valueError, by simp only [iir.designNan, if_neg ho, if_pos hn]⟩
      · exact ⟨_, C129_iir residue style order count (not_le.mp ho) (not_le.mp hn) complement gain⟩

/-- C129: a missing style and orders or counts which are not positive are refused with ValueError as for numbers. -/
theorem C129_iir_refused (residue : List ℝ → List ℝ → List ℂ × List ℂ) (style : Option IStyle) (order count : ℤ) (h : style = none ∨ order ≤ 0 ∨ count ≤ 0)
    (complement : Bool) (gain : ℝ) : iir.designNan residue style nan order count complement gain = .error .valueError := by
  cases style with
  | none => rfl
  | some style =>
    by_cases ho : order ≤ 0
    · simp only [iir.designNan, if_pos ho]
    · have hn : count ≤ 0 := by simpa [ho] using h
      simp only [iir.designNan, if_neg ho, if_pos hn]

example (residue : List ℝ → List ℝ → List ℂ × List ℂ) := C129_iir_refused residue (some .bessel) 2 0 (by simp) true 1

/-- Concrete case of C129: a Butterworth filter of order two. -/
example (residue : List ℝ → List ℝ → List ℂ × List ℂ) : iir.designNan residue (some .butterworth) nan 2 1 true 1 = .error .zeroDivisionError :=
  C129_iir residue .butterworth 2 1 (by norm_num) (by norm_num) true 1

/-! ## GoertzelFilter -/

/-- C129: GoertzelFilter takes nan for the frequency; then all the blocks, as many as with a number, are nan, for ever. -/
theorem C129_goertzel (b : List ℂ) (hb : ∃ v ∈ b, 1e-8 < ‖v‖) (gain : ℕ → Num ℂ) (calls : List (List (Num ℂ))) (hne : ∀ c ∈ calls, c ≠ []) :
    ∃ g, Goertzel.newNan b nan = .ok g ∧ ∃ g', callChunks (Goertzel.filter gain) g calls =
      (.ok (List.replicate (calls.flatten.length / b.length) nan), g') := by
  classical
  have hb0 : ¬ ((b.map (val : ℂ → Num ℂ)).length = 0 ∨ allClose0 (vals (b.map (val : ℂ → Num ℂ)))) := by
    obtain ⟨v, hv, hn⟩ := hb
    rw [vals_map, List.length_map]
    rintro (h | h)
    · have := List.length_pos_of_mem hv; omega
    · rw [allClose0, decide_eq_true_eq] at h
      exact absurd (h v hv) (not_le.mpr hn)
  have hr : ¬ outside (-1) 1 (nan : Num ℝ) := by rintro (h | h) <;> exact h
  let i0 : Iir (Num ℂ) := ⟨id, [0, nan, -1], [1, -nan, 0], [0, 0, 0]⟩
  have hnew : Goertzel.newNan b nan = .ok ⟨i0, 0, b.map val, nan⟩ := by
    unfold Goertzel.newNan Goertzel.make
    rw [if_neg hb0, if_neg (by simp [hr])]
    simp [Iir.new, Fir.new, i0, padTo, Num.map]
  have hbl : 0 < b.length := by
    obtain ⟨v, hv, -⟩ := hb
    exact List.length_pos_of_mem hv
  have hwf : i0.WF := ⟨rfl, rfl, by simp [i0]⟩
  have hinv : (⟨i0, 0, b.map val, nan⟩ : Goertzel (Num ℂ) (Num ℝ)).Inv i0 (gain (b.map (val : ℂ → Num ℂ)).length) [] := by
    refine ⟨hwf, rfl, rfl, by simpa using hbl, ?_⟩
    simp [feed, weighted, runLoop]
  obtain ⟨vs, g', h1, -, -, h4, -⟩ := Goertzel.chunks_spec i0 gain calls _ [] hinv hne
  refine ⟨_, hnew, g', ?_⟩
  rw [h1]
  congr 2
  simp only [List.nil_append, List.length_map] at h4
  -- every output of the recursion is nan
  have hall : ∀ x : List (Num ℂ), ∃ f', runLoop Iir.step i0 x = (.ok (List.replicate x.length nan), f') := by
    have hgen : ∀ (x : List (Num ℂ)) (f : Iir (Num ℂ)), f.WF → f.cast = id → f.a = i0.a → f.b = i0.b →
        ∃ f', runLoop Iir.step f x = (.ok (List.replicate x.length nan), f') := by
      intro x
      induction x with
      | nil => intro f _ _ _ _; exact ⟨f, rfl⟩
      | cons a x ih =>
        intro f hf hc ha hb
        have hst := Iir.step_wf f hf a
        obtain ⟨k1, k2, k3, k4⟩ := Iir.step_wf_wf f hf a
        rw [hst] at k1 k2 k3 k4
        obtain ⟨f', h⟩ := ih _ k1 (k4.trans hc) (k2.trans ha) (k3.trans hb)
        have hcomb : nan ∈ f.comb := by
          simp [Iir.comb, ha, hb, i0]
          exact Or.inr (Or.inl rfl)
        have hdot : dot f.comb (f.cast a :: f.mem.dropLast) = nan := if_pos (Or.inl hcomb)
        rw [hdot, hc] at hst
        refine ⟨f', ?_⟩
        rw [hc] at h
        rw [runLoop, hst]
        simp only [h]
        rfl
    exact fun x => hgen x i0 hwf rfl rfl rfl
  have hblock : ∀ blk ∈ blocks b.length calls.flatten, blockValue i0 (gain b.length) (b.map val) blk = some nan := by
    intro blk hblk
    obtain ⟨k, hk, rfl⟩ := List.mem_map.mp hblk
    rw [List.mem_range] at hk
    have hlen : ((calls.flatten.drop (k * b.length)).take b.length).length = b.length := by
      have h := Nat.div_mul_le_self calls.flatten.length b.length
      have h' : (k + 1) * b.length ≤ calls.flatten.length / b.length * b.length := Nat.mul_le_mul_right _ hk
      rw [Nat.succ_mul] at h'
      rw [List.length_take, List.length_drop]; omega
    obtain ⟨f', h⟩ := hall (weighted (gain b.length) (b.map val) ((calls.flatten.drop (k * b.length)).take b.length))
    have hwl : (weighted (gain b.length) (b.map val) ((calls.flatten.drop (k * b.length)).take b.length)).length = b.length := by
      simp only [weighted, List.length_zipWith, List.length_map, hlen, min_self]
    rw [blockValue, feed, h, hwl]
    simp only [List.getLast?_replicate]
    rw [if_neg (by omega)]
  have h5 : vs.map some = (List.replicate (calls.flatten.length / b.length) (nan : Num ℂ)).map some := by
    rw [h4, List.map_congr_left hblock, List.map_const', blocks_length, List.map_replicate]
  exact (List.map_injective_iff.mpr (Option.some_injective _)) h5

/-- Concrete case of C129: a window of two ones and five samples. -/
example : ∃ g, Goertzel.newNan [1, 1] nan = .ok g ∧ ∃ g', callChunks (Goertzel.filter fun n => val (goertzelGain false n)) g
    [[val 1, val 2], [val 3, val 4, val 5]] = (.ok [nan, nan], g') :=
  C129_goertzel [1, 1] ⟨1, by simp, by norm_num⟩ _ _ (by simp)

end Verif.Props
