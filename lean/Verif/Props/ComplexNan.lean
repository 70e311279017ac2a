import Verif.Model.ComplexNan
import Verif.Props.Exponential

/-!
Property C126: nan in the complex filters (diamondback/filters/complex_exponential_filter.py, complex_bandpass_filter.py, complex_frequency_filter.py).
-/

namespace Verif.Props

open Spec Spec.Num Complex

/-! ### Parameters -/

/-- C126.  The range checks let nan pass, in constructors and setters alike. -/
theorem C126_parameters (e : NanExp) (f : NanBandpass) (g : NanFreq) (v : Num ℝ) (hv : v = nan) :
    NanExp.new v = .ok ⟨v⟩ ∧ e.setPhase v = (.ok (), ⟨v⟩) ∧
    (∀ rate : ℝ, 0 ≤ rate → rate ≤ 1 → ∃ f, NanBandpass.new v (val rate) = .ok f ∧ f.frequency = nan) ∧ (∃ f, NanBandpass.new v v = .ok f) ∧
    (f.setFrequency v).1 = .ok () ∧ (f.setRate v).1 = .ok () ∧ (∃ g, NanFreq.new v v = .ok g) ∧ (g.setFrequency v).1 = .ok () ∧ (g.setRate v).1 = .ok () := by
  subst hv
  have h : ∀ a b : ℝ, ¬ outside a b nan := fun a b h => by rcases h with h | h <;> exact h
  refine ⟨if_neg (h _ _), if_neg (h _ _), fun rate h0 h1 => ⟨⟨val (eps : ℂ), ⟨val 0⟩, nan, val rate⟩, ?_, rfl⟩, ⟨⟨val (eps : ℂ), ⟨val 0⟩, nan, nan⟩, ?_⟩, ?_, ?_, ⟨⟨val 1, val 1, nan, nan⟩, ?_⟩, ?_, ?_⟩
  pick_goal 3
  · unfold NanBandpass.setFrequency; rw [if_neg (h _ _)]
  pick_goal 3
  · unfold NanBandpass.setRate; rw [if_neg (h _ _)]
  pick_goal 4
  · unfold NanFreq.setFrequency; rw [if_neg (h _ _)]
  pick_goal 4
  · unfold NanFreq.setRate; rw [if_neg (h _ _)]
  · unfold NanBandpass.new
    rw [if_neg (h _ _), if_neg]
    rintro (h' | h')
    · exact absurd h' (not_lt.mpr h0)
    · exact absurd h' (not_lt.mpr h1)
  · unfold NanBandpass.new
    rw [if_neg (h _ _), if_neg (h _ _)]
  · unfold NanFreq.new
    rw [if_neg (h _ _), if_neg (h _ _)]

/-- Instances with parameters which are numbers. -/
example : NanExp.new nan = .ok ⟨nan⟩ ∧ ((⟨val 1, ⟨val 0⟩, val 0, val 1⟩ : NanBandpass).setFrequency nan).1 = .ok () := by
  have h := C126_parameters ⟨val 0⟩ ⟨val 1, ⟨val 0⟩, val 0, val 1⟩ ⟨val 1, val 1, val 0, val 1⟩ nan rfl
  exact ⟨h.1, h.2.2.2.2.1⟩

/-! ### ComplexExponentialFilter -/

private theorem exp_loop_vals (l : List ℝ) : ∀ p, NanExp.loop (val p) (l.map val) = ((CExp.loop p l).1.map val, val (CExp.loop p l).2) := by
  induction l with
  | nil => intro p; rfl
  | cons x t ih =>
    intro p
    have : (val p + val x : Num ℝ) = val (p + x) := rfl
    rw [List.map_cons, NanExp.loop, CExp.loop, this, ih]
    rfl

private theorem exp_loop_append (a b : List (Num ℝ)) : ∀ p, NanExp.loop p (a ++ b) = ((NanExp.loop p a).1 ++ (NanExp.loop (NanExp.loop p a).2 b).1, (NanExp.loop (NanExp.loop p a).2 b).2) := by
  induction a with
  | nil => intro p; rfl
  | cons x t ih =>
    intro p
    rw [List.cons_append, NanExp.loop, NanExp.loop, ih]
    rfl

private theorem exp_loop_nan (l : List (Num ℝ)) : NanExp.loop nan l = (List.replicate l.length nan, nan) := by
  induction l with
  | nil => rfl
  | cons x t ih =>
    have : (nan + x : Num ℝ) = nan := rfl
    rw [NanExp.loop, this, ih]
    rfl

private theorem cexp_loop_append (a b : List ℝ) : ∀ p, CExp.loop p (a ++ b) = ((CExp.loop p a).1 ++ (CExp.loop (CExp.loop p a).2 b).1, (CExp.loop (CExp.loop p a).2 b).2) := by
  induction a with
  | nil => intro p; rfl
  | cons x t ih =>
    intro p
    rw [List.cons_append, CExp.loop, CExp.loop, ih]
    rfl

private theorem nan_set (f : NanExp) : f.setPhase nan = (.ok (), ⟨nan⟩) := if_neg (fun h => by rcases h with h | h <;> exact h)

/-- C126.  ComplexExponentialFilter without nan is that of the other properties. -/
theorem C126_exponential_numbers (f : CExp) (x : List ℝ) :
    NanExp.filter ⟨val f.phase⟩ (x.map val) = ((f.filter x).1.map (List.map val), ⟨val (f.filter x).2.phase⟩) := by
  unfold NanExp.filter CExp.filter
  have hc : ((x.map val).length = 0 ∨ ∃ v ∈ x.map val, val 1 < Num.map (|·|) v) ↔ (x.length = 0 ∨ ∃ v ∈ x, |v| > 1) := by
    simp only [List.length_map, List.mem_map, exists_exists_and_eq_and]
    rfl
  by_cases h : x.length = 0 ∨ ∃ v ∈ x, |v| > 1
  · rw [if_pos (hc.mpr h), if_pos h]; rfl
  · rw [if_neg (fun h' => h (hc.mp h')), if_neg h]
    dsimp only
    rw [exp_loop_vals]
    obtain ⟨w1, w2, -⟩ := wrapPhase_spec (CExp.loop f.phase x).2
    unfold NanExp.setPhase CExp.setPhase
    have h1 : ¬ outside (-1) 1 (Num.map wrapPhase (val (CExp.loop f.phase x).2)) := by
      rintro (h' | h')
      · exact absurd h' (not_lt.mpr w1)
      · exact absurd h' (not_lt.mpr w2)
    have h2 : ¬ (wrapPhase (CExp.loop f.phase x).2 < -1 ∨ wrapPhase (CExp.loop f.phase x).2 > 1) := by push Not; exact ⟨w1, w2⟩
    rw [if_neg h1, if_neg h2]
    rfl

example := C126_exponential_numbers ⟨1 / 4⟩ [1 / 2, -1, 1]

/-- C126.  The output up to and including the place of the first nan is that for any number in its place; all later outputs are nan, and the phase is nan. -/
theorem C126_exponential (f : CExp) (pre : List ℝ) (v : ℝ) (rest : List (Num ℝ)) (hpre : ∀ w ∈ pre ++ [v], |w| ≤ 1) (hrest : ∀ w, val w ∈ rest → |w| ≤ 1) :
    ∃ y fz, f.filter (pre ++ [v]) = (.ok y, fz) ∧ NanExp.filter ⟨val f.phase⟩ (pre.map val ++ nan :: rest) = (.ok (y.map val ++ List.replicate rest.length nan), ⟨nan⟩) := by
  obtain ⟨w1, w2, -⟩ := wrapPhase_spec (CExp.loop f.phase (pre ++ [v])).2
  refine ⟨(CExp.loop f.phase (pre ++ [v])).1, ⟨wrapPhase (CExp.loop f.phase (pre ++ [v])).2⟩, ?_, ?_⟩
  · unfold CExp.filter CExp.setPhase
    rw [if_neg]
    · dsimp only
      rw [if_neg (by push Not; exact ⟨w1, w2⟩)]
    · push Not
      exact ⟨by simp, hpre⟩
  · unfold NanExp.filter
    rw [if_neg]
    · dsimp only
      rw [exp_loop_append, exp_loop_vals, NanExp.loop]
      have : ∀ p : ℝ, (val p + nan : Num ℝ) = nan := fun p => rfl
      dsimp only
      rw [this, exp_loop_nan]
      dsimp only
      have hs := nan_set ⟨val f.phase⟩
      have hm : Num.map wrapPhase nan = nan := rfl
      rw [hm, hs, cexp_loop_append]
      simp only [CExp.loop, List.map_append, List.map_cons, List.map_nil, List.append_assoc, List.singleton_append]
      rfl
    · rintro (h | ⟨w, hw, h⟩)
      · simp at h
      · rcases w with w | _
        · have h' : 1 < |w| := h
          rcases List.mem_append.mp hw with hw | hw
          · obtain ⟨a, ha, e⟩ := List.mem_map.mp hw
            obtain rfl : a = w := by injection e
            linarith [hpre a (by simp [ha])]
          · rcases List.mem_cons.mp hw with hw | hw
            · cases hw
            · linarith [hrest w hw]
        · exact h

/-- C126.  From then on every output of every call is nan, until `phase` is assigned a number, which leaves nothing of the nan. -/
theorem C126_exponential_after (x : List (Num ℝ)) (hx : x ≠ []) (hv : ∀ w, val w ∈ x → |w| ≤ 1) :
    NanExp.filter ⟨nan⟩ x = (.ok (List.replicate x.length nan), ⟨nan⟩) ∧ ∀ (f : NanExp) (p : ℝ), -1 ≤ p → p ≤ 1 → f.setPhase (val p) = (.ok (), ⟨val p⟩) := by
  constructor
  · unfold NanExp.filter
    rw [if_neg]
    · dsimp only
      have hm : Num.map wrapPhase nan = nan := rfl
      rw [exp_loop_nan, hm, nan_set]
    · rintro (h | ⟨w, hw, h⟩)
      · exact hx (List.length_eq_zero_iff.mp h)
      · rcases w with w | _
        · have h' : 1 < |w| := h
          linarith [hv w hw]
        · exact h
  · intro f p h0 h1
    unfold NanExp.setPhase
    rw [if_neg]
    rintro (h | h)
    · exact absurd h (not_lt.mpr h0)
    · exact absurd h (not_lt.mpr h1)

/-- Half a turn, then nan. -/
example : ∃ y fz, CExp.filter ⟨0⟩ [1, 1 / 2] = (.ok y, fz) ∧
    NanExp.filter ⟨val 0⟩ [val 1, nan, val 0, nan] = (.ok (y.map val ++ [nan, nan]), ⟨nan⟩) := by
  refine C126_exponential ⟨0⟩ [1] (1 / 2) [val 0, nan] ?_ ?_
  · intro w hw
    simp only [List.cons_append, List.nil_append, List.mem_cons, List.not_mem_nil, or_false] at hw
    rcases hw with rfl | rfl <;> norm_num [abs_le]
  · intro w hw
    simp only [List.mem_cons, List.not_mem_nil, or_false, reduceCtorEq, Num.val.injEq] at hw
    subst hw; norm_num

/-- Numbers do not help. -/
example : NanExp.filter ⟨nan⟩ [val 0, val 1] = (.ok [nan, nan], ⟨nan⟩) :=
  (C126_exponential_after [val 0, val 1] (by simp) (by intro w hw; simp at hw; rcases hw with rfl | rfl <;> simp)).1

/-! ### ComplexBandpassFilter -/

/-- An instance whose parts are numbers. -/
def ofBandpass (f : Bandpass) : NanBandpass := ⟨val f.b, ⟨val f.osc.phase⟩, val f.frequency, val f.rate⟩

/-- A triple of numbers. -/
def triple {A B C : Type} (t : A × B × C) : Num A × Num B × Num C := (val t.1, val t.2.1, val t.2.2)

private theorem bp_loop_vals (r : ℝ) (l : List (ℂ × ℂ)) : ∀ b, NanBandpass.loop (val r) (val b) (l.map (fun p => (val p.1, val p.2))) =
    ((Bandpass.loop r b l).1.map triple, val (Bandpass.loop r b l).2) := by
  induction l with
  | nil => intro b; rfl
  | cons p t ih =>
    intro b
    obtain ⟨x, d⟩ := p
    have h : (val b + nanReal (val r) * (val d - val x * val b) * nanConj (val x) : Num ℂ) = val (b + r * (d - x * b) * (starRingEnd ℂ) x) := rfl
    rw [List.map_cons, NanBandpass.loop, Bandpass.loop]
    dsimp only
    rw [h, ih]
    rfl

private theorem bp_loop_append (r : Num ℝ) (l m : List (Num ℂ × Num ℂ)) : ∀ b, NanBandpass.loop r b (l ++ m) =
    ((NanBandpass.loop r b l).1 ++ (NanBandpass.loop r (NanBandpass.loop r b l).2 m).1, (NanBandpass.loop r (NanBandpass.loop r b l).2 m).2) := by
  induction l with
  | nil => intro b; rfl
  | cons p t ih =>
    intro b
    obtain ⟨x, d⟩ := p
    rw [List.cons_append, NanBandpass.loop, NanBandpass.loop]
    dsimp only
    rw [ih]
    rfl

private theorem bp_num_append (r : ℝ) (l m : List (ℂ × ℂ)) : ∀ b, Bandpass.loop r b (l ++ m) =
    ((Bandpass.loop r b l).1 ++ (Bandpass.loop r (Bandpass.loop r b l).2 m).1, (Bandpass.loop r (Bandpass.loop r b l).2 m).2) := by
  induction l with
  | nil => intro b; rfl
  | cons p t ih =>
    intro b
    obtain ⟨x, d⟩ := p
    rw [List.cons_append, Bandpass.loop, Bandpass.loop]
    dsimp only
    rw [ih]
    rfl

private theorem bp_num_length (r : ℝ) (l : List (ℂ × ℂ)) : ∀ b, (Bandpass.loop r b l).1.length = l.length := by
  induction l with
  | nil => intro b; rfl
  | cons p t ih => intro b; obtain ⟨x, d⟩ := p; rw [Bandpass.loop]; simp [ih]

private theorem cmul_nan (v : Num ℂ) : v * nan = nan := by cases v <;> rfl
private theorem csub_nan (v : Num ℂ) : v - nan = nan := by cases v <;> rfl
private theorem cnan_mul (v : Num ℂ) : nan * v = nan := by cases v <;> rfl
private theorem cadd_nan (v : Num ℂ) : v + nan = nan := by cases v <;> rfl
private theorem cnan_add (v : Num ℂ) : nan + v = nan := by cases v <;> rfl

private theorem bp_loop_nan (r : Num ℝ) (l : List (Num ℂ × Num ℂ)) : NanBandpass.loop r nan l = (List.replicate l.length (nan, nan, nan), nan) := by
  induction l with
  | nil => rfl
  | cons p t ih =>
    obtain ⟨x, d⟩ := p
    rw [NanBandpass.loop]
    rw [cnan_add, ih, cmul_nan, csub_nan]
    rfl

private theorem cexp_loop_length (l : List ℝ) : ∀ p, (CExp.loop p l).1.length = l.length := by
  induction l with
  | nil => intro p; rfl
  | cons x t ih => intro p; rw [CExp.loop]; simp [ih]

private theorem exp_loop_length (l : List (Num ℝ)) : ∀ p, (NanExp.loop p l).1.length = l.length := by
  induction l with
  | nil => intro p; rfl
  | cons x t ih => intro p; rw [NanExp.loop]; simp [ih]

private theorem cexp_filter_ok (f : CExp) (x : List ℝ) (hx : x ≠ []) (hv : ∀ w ∈ x, |w| ≤ 1) :
    f.filter x = (.ok (CExp.loop f.phase x).1, ⟨wrapPhase (CExp.loop f.phase x).2⟩) := by
  obtain ⟨w1, w2, -⟩ := wrapPhase_spec (CExp.loop f.phase x).2
  unfold CExp.filter CExp.setPhase
  rw [if_neg]
  · dsimp only
    rw [if_neg (by push Not; exact ⟨w1, w2⟩)]
  · push Not
    exact ⟨fun h => hx (List.length_eq_zero_iff.mp h), hv⟩

private theorem nexp_filter_ok (f : CExp) (x : List ℝ) (hx : x ≠ []) (hv : ∀ w ∈ x, |w| ≤ 1) :
    NanExp.filter ⟨val f.phase⟩ (x.map val) = (.ok ((CExp.loop f.phase x).1.map val), ⟨val (wrapPhase (CExp.loop f.phase x).2)⟩) := by
  rw [C126_exponential_numbers, cexp_filter_ok f x hx hv]
  rfl

private theorem prepare_vals (hil : List ℂ → List ℂ) (hiln : List (Num ℂ) → List (Num ℂ)) (d : List ℂ) (hh : hiln (d.map val) = (hil d).map val) :
    nanPrepare hiln (d.map val) = (prepare hil d).map val := by
  have hc : (∃ v, val v ∈ d.map val ∧ v.im ≠ 0) ↔ ∃ v ∈ d, v.im ≠ 0 := by
    simp only [List.mem_map, Num.val.injEq, exists_eq_right]
  unfold nanPrepare prepare
  by_cases h : ∃ v ∈ d, v.im ≠ 0
  · rw [if_pos (hc.mpr h), if_pos h]
  · rw [if_neg (fun h' => h (hc.mp h')), if_neg h, hh]

/-- C126.  ComplexBandpassFilter without nan is that of the other properties. -/
theorem C126_bandpass_numbers (hil : List ℂ → List ℂ) (hiln : List (Num ℂ) → List (Num ℂ)) (f : Bandpass) (d : List ℂ)
    (hh : hiln (d.map val) = (hil d).map val) :
    (ofBandpass f).filter hiln (d.map val) = ((f.filter hil d).1.map (List.map triple), ofBandpass (f.filter hil d).2) := by
  unfold NanBandpass.filter Bandpass.filter
  rw [List.length_map]
  by_cases h0 : d.length = 0
  · rw [if_pos h0, if_pos h0]; rfl
  · rw [if_neg h0, if_neg h0, prepare_vals hil hiln d hh]
    dsimp only
    have hr : List.replicate ((prepare hil d).map val).length (ofBandpass f).frequency = (List.replicate (prepare hil d).length f.frequency).map val := by
      rw [List.length_map, List.map_replicate]; rfl
    have ho : (ofBandpass f).osc = ⟨val f.osc.phase⟩ := rfl
    rw [hr, ho, C126_exponential_numbers]
    rcases f.osc.filter (List.replicate (prepare hil d).length f.frequency) with ⟨r, o⟩
    cases r with
    | error e => rfl
    | ok x =>
      have hz : (x.map val).zip ((prepare hil d).map val) = (x.zip (prepare hil d)).map (fun p : ℂ × ℂ => ((val p.1, val p.2) : Num ℂ × Num ℂ)) := by
        rw [List.zip_map]; rfl
      have hl := bp_loop_vals f.rate (x.zip (prepare hil d)) f.b
      rw [← hz] at hl
      have hfr : (ofBandpass f).rate = val f.rate := rfl
      have hfb : (ofBandpass f).b = val f.b := rfl
      simp only [Except.map]
      rw [hfr, hfb, hl]
      rfl

/-- The hypothesis on the two functions for the analytic signal holds of the identity. -/
example := C126_bandpass_numbers id id ⟨1, ⟨0⟩, 1 / 2, 1 / 10⟩ [I, 2] rfl

/-- C126.  A complex signal with nan: the outputs before the first nan are those of the filter for numbers, with any complex number in the place of the
nan; there the error is nan, y and b are still numbers; all later outputs are nan, and so is the coefficient left behind. -/
theorem C126_bandpass (hil : List ℂ → List ℂ) (hiln : List (Num ℂ) → List (Num ℂ)) (f : Bandpass) (hf : |f.frequency| ≤ 1) (pre : List ℂ) (v : ℂ)
    (rest : List (Num ℂ)) (hv : v.im ≠ 0) (hc : ∃ w, val w ∈ pre.map val ++ nan :: rest ∧ w.im ≠ 0) :
    ∃ out y e b fz g, out.length = pre.length ∧ f.filter hil (pre ++ [v]) = (.ok (out ++ [(y, e, b)]), fz) ∧
      (ofBandpass f).filter hiln (pre.map val ++ nan :: rest) =
        (.ok (out.map triple ++ (val y, nan, val b) :: List.replicate rest.length (nan, nan, nan)), g) ∧
      g.b = nan ∧ g.frequency = val f.frequency ∧ g.rate = val f.rate ∧ ∃ p, g.osc.phase = val p := by
  have hbd : ∀ n, ∀ w ∈ List.replicate n f.frequency, |w| ≤ 1 := fun n w hw => by rw [List.eq_of_mem_replicate hw]; exact hf
  set xs := (CExp.loop f.osc.phase (List.replicate pre.length f.frequency)).1 with hxs
  set p1 := (CExp.loop f.osc.phase (List.replicate pre.length f.frequency)).2 with hp1
  have hxl : xs.length = pre.length := by rw [hxs, cexp_loop_length, List.length_replicate]
  set xv := cexp (I * Real.pi * p1) with hxv
  set b1 := (Bandpass.loop f.rate f.b (xs.zip pre)).2 with hb1
  have hnum : f.filter hil (pre ++ [v]) = (.ok ((Bandpass.loop f.rate f.b (xs.zip pre)).1 ++ [(xv * b1, v - xv * b1, b1)]),
      ⟨b1 + f.rate * (v - xv * b1) * (starRingEnd ℂ) xv, ⟨wrapPhase (p1 + f.frequency)⟩, f.frequency, f.rate⟩) := by
    unfold Bandpass.filter
    have hp : prepare hil (pre ++ [v]) = pre ++ [v] := if_pos ⟨v, by simp, hv⟩
    rw [if_neg (by simp), hp]
    dsimp only
    have hr : List.replicate (pre ++ [v]).length f.frequency = List.replicate pre.length f.frequency ++ [f.frequency] := by
      rw [List.length_append, List.replicate_add]; rfl
    rw [hr, cexp_filter_ok _ _ (by simp) (by rw [← hr]; exact hbd _), cexp_loop_append]
    dsimp only
    rw [← hxs, ← hp1, List.zip_append hxl, bp_num_append]
    rfl
  obtain ⟨q, hq⟩ : ∃ q, q = CExp.loop (p1 + f.frequency) (List.replicate rest.length f.frequency) := ⟨_, rfl⟩
  have hnan : (ofBandpass f).filter hiln (pre.map val ++ nan :: rest) =
      (.ok ((Bandpass.loop f.rate f.b (xs.zip pre)).1.map triple ++ (val (xv * b1), nan, val b1) :: List.replicate rest.length (nan, nan, nan)),
        ⟨nan, ⟨val (wrapPhase q.2)⟩, val f.frequency, val f.rate⟩) := by
    unfold NanBandpass.filter
    have hp : nanPrepare hiln (pre.map val ++ nan :: rest) = pre.map val ++ nan :: rest := if_pos hc
    rw [if_neg (by simp), hp]
    dsimp only
    have hr : List.replicate (pre.map val ++ nan :: rest).length (ofBandpass f).frequency =
        (List.replicate pre.length f.frequency ++ f.frequency :: List.replicate rest.length f.frequency).map val := by
      rw [List.length_append, List.length_map, List.length_cons, List.replicate_add, List.replicate_succ]
      simp [ofBandpass]
    have hosc : (ofBandpass f).osc = ⟨val f.osc.phase⟩ := rfl
    rw [hr, hosc, nexp_filter_ok f.osc _ (by simp) ?_]
    swap
    · intro w hw
      rcases List.mem_append.mp hw with hw | hw
      · exact hbd _ w hw
      · rcases List.mem_cons.mp hw with rfl | hw
        · exact hf
        · exact hbd _ w hw
    rw [cexp_loop_append, ← hp1, ← hxs, CExp.loop]
    dsimp only
    rw [← hq, List.map_append, List.map_cons, List.zip_append (by rw [List.length_map, List.length_map, hxl]), List.zip_cons_cons, bp_loop_append]
    have hz : (xs.map val).zip (pre.map val) = (xs.zip pre).map (fun p : ℂ × ℂ => ((val p.1, val p.2) : Num ℂ × Num ℂ)) := by
      rw [List.zip_map]; rfl
    have hfr : (ofBandpass f).rate = val f.rate := rfl
    have hfb : (ofBandpass f).b = val f.b := rfl
    rw [hz, hfr, hfb, bp_loop_vals, ← hb1]
    dsimp only
    rw [NanBandpass.loop]
    dsimp only
    have hs : (nan - val xv * val b1 : Num ℂ) = nan := rfl
    rw [hs, cmul_nan, cnan_mul, cadd_nan, bp_loop_nan]
    have hl : ((q.1.map val).zip rest).length = rest.length := by
      rw [List.length_zip, List.length_map, hq, cexp_loop_length, List.length_replicate, min_self]
    rw [hl]
    rfl
  exact ⟨_, _, _, _, _, _, by rw [bp_num_length, List.length_zip, hxl, min_self], hnum, hnan, rfl, rfl, rfl, _, rfl⟩

/-- A nan after one sample. -/
example (hil : List ℂ → List ℂ) (hiln : List (Num ℂ) → List (Num ℂ)) : ∃ out y e b fz g, out.length = 1 ∧
    Bandpass.filter hil ⟨1, ⟨0⟩, 1 / 2, 1 / 10⟩ ([I] ++ [I]) = (.ok (out ++ [(y, e, b)]), fz) ∧
    (ofBandpass ⟨1, ⟨0⟩, 1 / 2, 1 / 10⟩).filter hiln ([I].map val ++ nan :: [val 1]) = (.ok (out.map triple ++ (val y, nan, val b) :: [(nan, nan, nan)]), g) ∧ g.b = nan := by
  obtain ⟨out, y, e, b, fz, g, h1, h2, h3, h4, -⟩ := C126_bandpass hil hiln ⟨1, ⟨0⟩, 1 / 2, 1 / 10⟩ (by norm_num [abs_le]) [I] I [val 1] (by simp) ⟨I, by simp, by simp⟩
  exact ⟨out, y, e, b, fz, g, h1, h2, h3, h4⟩

/-- What a program may do to a ComplexBandpassFilter: the methods and properties of the class, and the coefficient, which FirFilter lets one assign. -/
inductive BandpassOp where
  | filter (d : List (Num ℂ))
  | frequency (v : Num ℝ)
  | rate (v : Num ℝ)
  | coefficient (v : Num ℂ)

/-- One operation: the outputs of `filter`, none for the others and for an error. -/
noncomputable def BandpassOp.run (hil : List (Num ℂ) → List (Num ℂ)) (f : NanBandpass) : BandpassOp → List (Num ℂ × Num ℂ × Num ℂ) × NanBandpass
  | .filter d => match f.filter hil d with
    | (.ok y, f') => (y, f')
    | (.error _, f') => ([], f')
  | .frequency v => ([], (f.setFrequency v).2)
  | .rate v => ([], (f.setRate v).2)
  | .coefficient v => ([], { f with b := v })

/-- A program: all outputs in order. -/
noncomputable def runBandpass (hil : List (Num ℂ) → List (Num ℂ)) : NanBandpass → List BandpassOp → List (Num ℂ × Num ℂ × Num ℂ) × NanBandpass
  | f, [] => ([], f)
  | f, op :: t => ((op.run hil f).1 ++ (runBandpass hil (op.run hil f).2 t).1, (runBandpass hil (op.run hil f).2 t).2)

private theorem setFrequency_keeps (f : NanBandpass) (v : Num ℝ) : (f.setFrequency v).2.b = f.b ∧ (f.setFrequency v).2.osc = f.osc := by
  unfold NanBandpass.setFrequency; split_ifs <;> exact ⟨rfl, rfl⟩

private theorem setRate_keeps (f : NanBandpass) (v : Num ℝ) : (f.setRate v).2.b = f.b ∧ (f.setRate v).2.osc = f.osc := by
  unfold NanBandpass.setRate; split_ifs <;> exact ⟨rfl, rfl⟩

private theorem filter_nan_b (hil : List (Num ℂ) → List (Num ℂ)) (f : NanBandpass) (hb : f.b = nan) (d : List (Num ℂ)) :
    (∀ t ∈ (BandpassOp.run hil f (.filter d)).1, t = (nan, nan, nan)) ∧ (BandpassOp.run hil f (.filter d)).2.b = nan := by
  unfold BandpassOp.run NanBandpass.filter
  dsimp only
  by_cases hd : d.length = 0
  · rw [if_pos hd]; exact ⟨fun t ht => absurd ht List.not_mem_nil, hb⟩
  · rw [if_neg hd]
    rcases f.osc.filter (List.replicate (nanPrepare hil d).length f.frequency) with ⟨r, o⟩
    cases r with
    | error e => exact ⟨fun t ht => absurd ht List.not_mem_nil, hb⟩
    | ok x =>
      dsimp only
      rw [hb, bp_loop_nan]
      exact ⟨fun t ht => List.eq_of_mem_replicate ht, rfl⟩

/-- C126.  Once the coefficient is nan, every output of every later call is nan, whatever signals are filtered and whatever is assigned to frequency and
rate; only the coefficient itself can be assigned. -/
theorem C126_bandpass_after (hil : List (Num ℂ) → List (Num ℂ)) (ops : List BandpassOp) (hops : ∀ v, BandpassOp.coefficient v ∉ ops) (f : NanBandpass)
    (hb : f.b = nan) : (∀ t ∈ (runBandpass hil f ops).1, t = (nan, nan, nan)) ∧ (runBandpass hil f ops).2.b = nan := by
  induction ops generalizing f with
  | nil => exact ⟨fun t ht => absurd ht List.not_mem_nil, hb⟩
  | cons op t ih =>
    have h1 : (∀ t ∈ (op.run hil f).1, t = (nan, nan, nan)) ∧ (op.run hil f).2.b = nan := by
      cases op with
      | filter d => exact filter_nan_b hil f hb d
      | frequency v => exact ⟨fun t ht => absurd ht List.not_mem_nil, (setFrequency_keeps f v).1.trans hb⟩
      | rate v => exact ⟨fun t ht => absurd ht List.not_mem_nil, (setRate_keeps f v).1.trans hb⟩
      | coefficient v => exact absurd List.mem_cons_self (hops v)
    obtain ⟨h2, h3⟩ := ih (fun v hv => hops v (List.mem_cons_of_mem _ hv)) _ h1.2
    refine ⟨fun s hs => ?_, h3⟩
    rcases List.mem_append.mp hs with hs | hs
    · exact h1.1 s hs
    · exact h2 s hs

/-- Such a program. -/
example (hil : List (Num ℂ) → List (Num ℂ)) : (runBandpass hil ⟨nan, ⟨val 0⟩, val 0, val 1⟩ [.frequency (val (1 / 2)), .filter [val I], .rate (val 0), .filter [val 1, val I]]).2.b = nan :=
  (C126_bandpass_after hil _ (by simp) _ rfl).2

private theorem bp_loop_x_nan (r : Num ℝ) (d : List (Num ℂ)) : ∀ n b, ∀ t ∈ (NanBandpass.loop r b ((List.replicate n nan).zip d)).1, t.1 = nan ∧ t.2.1 = nan := by
  induction d with
  | nil => intro n b t ht; rw [List.zip_nil_right] at ht; exact absurd ht List.not_mem_nil
  | cons x xs ih =>
    intro n b t ht
    cases n with
    | zero => exact absurd ht List.not_mem_nil
    | succ n =>
      rw [List.replicate_succ, List.zip_cons_cons, NanBandpass.loop] at ht
      rcases List.mem_cons.mp ht with rfl | ht
      · dsimp only
        rw [cnan_mul]
        exact ⟨rfl, csub_nan x⟩
      · exact ih n _ t ht

/-- C126.  A call while frequency is nan leaves a nan in the exponential filter inside, which no operation on the object removes: from then on y and e
are nan in every output, also when frequency and coefficient have been assigned numbers. -/
theorem C126_bandpass_frequency (hil : List (Num ℂ) → List (Num ℂ)) (f : NanBandpass) (hf : f.frequency = nan) (d : List (Num ℂ)) (hd : nanPrepare hil d ≠ [])
    (hn : d ≠ []) (ops : List BandpassOp) :
    (f.filter hil d).2.osc.phase = nan ∧ ∀ t ∈ (runBandpass hil (f.filter hil d).2 ops).1, t.1 = nan ∧ t.2.1 = nan := by
  have hcheck : ∀ (o : NanExp) n, n ≠ 0 → ∃ y, o.filter (List.replicate n nan) = (.ok y, ⟨nan⟩) := by
    intro o n h0
    unfold NanExp.filter
    rw [if_neg]
    · dsimp only
      obtain ⟨m, rfl⟩ := Nat.exists_eq_succ_of_ne_zero h0
      have hp : (o.phase + nan : Num ℝ) = nan := by cases o.phase <;> rfl
      rw [List.replicate_succ, NanExp.loop, hp, exp_loop_nan]
      have hm : Num.map wrapPhase nan = nan := rfl
      dsimp only
      rw [hm, nan_set]
      exact ⟨_, rfl⟩
    · rintro (h | ⟨w, hw, h⟩)
      · exact h0 (by simpa using h)
      · rw [List.eq_of_mem_replicate hw] at h; exact h
  have h0 : (f.filter hil d).2.osc.phase = nan := by
    unfold NanBandpass.filter
    rw [if_neg (fun h => hn (List.length_eq_zero_iff.mp h))]
    dsimp only
    obtain ⟨y, hy⟩ := hcheck f.osc (nanPrepare hil d).length (fun h => hd (List.length_eq_zero_iff.mp h))
    rw [hf, hy]
  refine ⟨h0, ?_⟩
  generalize (f.filter hil d).2 = g at h0
  induction ops generalizing g with
  | nil => exact fun t ht => absurd ht List.not_mem_nil
  | cons op t ih =>
    have h1 : (∀ t ∈ (op.run hil g).1, t.1 = nan ∧ t.2.1 = nan) ∧ (op.run hil g).2.osc.phase = nan := by
      cases op with
      | frequency v => exact ⟨fun t ht => absurd ht List.not_mem_nil, by show (g.setFrequency v).2.osc.phase = nan; rw [(setFrequency_keeps g v).2, h0]⟩
      | rate v => exact ⟨fun t ht => absurd ht List.not_mem_nil, by show (g.setRate v).2.osc.phase = nan; rw [(setRate_keeps g v).2, h0]⟩
      | coefficient v => exact ⟨fun t ht => absurd ht List.not_mem_nil, h0⟩
      | filter d' =>
        unfold BandpassOp.run NanBandpass.filter
        dsimp only
        by_cases hd' : d'.length = 0
        · rw [if_pos hd']; exact ⟨fun t ht => absurd ht List.not_mem_nil, h0⟩
        · rw [if_neg hd']
          have ho : g.osc = ⟨nan⟩ := by rw [← h0]
          have hfl : ∀ x, NanExp.filter ⟨nan⟩ x = (.error .valueError, ⟨nan⟩) ∨ NanExp.filter ⟨nan⟩ x = (.ok (List.replicate x.length nan), ⟨nan⟩) := by
            intro x
            unfold NanExp.filter
            split_ifs
            · exact Or.inl rfl
            · right
              dsimp only
              have hm : Num.map wrapPhase nan = nan := rfl
              rw [exp_loop_nan, hm, nan_set]
          rw [ho]
          rcases hfl (List.replicate (nanPrepare hil d').length g.frequency) with h | h
          · rw [h]; exact ⟨fun t ht => absurd ht List.not_mem_nil, rfl⟩
          · rw [h]; exact ⟨fun t ht => bp_loop_x_nan _ _ _ _ t ht, rfl⟩
    intro s hs
    rcases List.mem_append.mp hs with hs | hs
    · exact h1.1 s hs
    · exact ih _ h1.2 s hs

/-- One sample with frequency nan, then everything assigned anew. -/
example (hil : List (Num ℂ) → List (Num ℂ)) : ∀ t ∈ (runBandpass hil ((⟨val 1, ⟨val 0⟩, nan, val 1⟩ : NanBandpass).filter hil [val I]).2
    [.frequency (val 0), .coefficient (val 1), .filter [val I, val I]]).1, t.1 = nan ∧ t.2.1 = nan := by
  have hp : nanPrepare hil [val I] = [val I] := if_pos ⟨I, by simp, by simp⟩
  exact (C126_bandpass_frequency hil _ rfl [val I] (by rw [hp]; simp) (by simp) _).2

/-! ### ComplexFrequencyFilter -/

/-- An instance whose parts are numbers. -/
def ofFreq (f : FreqF) : NanFreq := ⟨val f.b, val f.s, val f.frequency, val f.rate⟩

private theorem freq_vals (l : List ℂ) : ∀ f : FreqF, ∃ y g, runLoop FreqF.step f l = (.ok y, g) ∧ y.length = l.length ∧
    runLoop NanFreq.step (ofFreq f) (l.map val) = (.ok (y.map triple), ofFreq g) := by
  induction l with
  | nil => intro f; exact ⟨[], f, rfl, rfl, rfl⟩
  | cons x t ih =>
    intro f
    obtain ⟨y, g, h1, h2, h3⟩ := ih (FreqF.step f x).2
    have hs : FreqF.step f x = (.ok (f.b.arg / Real.pi, x - f.b * f.s, f.b), (FreqF.step f x).2) := rfl
    have hn : NanFreq.step (ofFreq f) (val x) = (.ok (triple (f.b.arg / Real.pi, x - f.b * f.s, f.b)), ofFreq (FreqF.step f x).2) := rfl
    refine ⟨(f.b.arg / Real.pi, x - f.b * f.s, f.b) :: y, g, ?_, by rw [List.length_cons, h2, List.length_cons], ?_⟩
    · rw [runLoop, hs]; dsimp only; rw [h1]
    · rw [List.map_cons, runLoop, hn]; dsimp only; rw [h3]; rfl

private theorem freq_nan (l : List (Num ℂ)) : ∀ f : NanFreq, f.b = nan → ∃ g, runLoop NanFreq.step f l = (.ok (List.replicate l.length (nan, nan, nan)), g) ∧
    g.b = nan ∧ g.frequency = f.frequency ∧ g.rate = f.rate ∧ g.s = (l.getLast?).getD f.s := by
  induction l with
  | nil => intro f hb; exact ⟨f, rfl, hb, rfl, rfl, rfl⟩
  | cons x t ih =>
    intro f hb
    have hn : NanFreq.step f x = (.ok (nan, nan, nan), ⟨nan, x, f.frequency, f.rate⟩) := by
      unfold NanFreq.step
      dsimp only
      rw [hb, cnan_mul, csub_nan, cnan_add]
      rfl
    obtain ⟨g, h1, h2, h3, h4, h5⟩ := ih ⟨nan, x, f.frequency, f.rate⟩ rfl
    refine ⟨g, ?_, h2, h3, h4, ?_⟩
    · rw [runLoop, hn]; dsimp only; rw [h1]; rfl
    · rw [h5]; cases t with
      | nil => rfl
      | cons a t => rw [List.getLast?_cons_cons]; simp [List.getLast?_eq_some_getLast]

/-- C126.  ComplexFrequencyFilter without nan is that of the other properties. -/
theorem C126_frequency_numbers (hil : List ℂ → List ℂ) (hiln : List (Num ℂ) → List (Num ℂ)) (f : FreqF) (d : List ℂ)
    (hh : hiln (d.map val) = (hil d).map val) :
    (ofFreq f).filter hiln (d.map val) = ((f.filter hil d).1.map (List.map triple), ofFreq (f.filter hil d).2) := by
  unfold NanFreq.filter FreqF.filter
  rw [List.length_map]
  by_cases h0 : d.length = 0
  · rw [if_pos h0, if_pos h0]; rfl
  · obtain ⟨y, g, h1, -, h3⟩ := freq_vals ((prepare hil d).map normalise) f
    have hm : ((prepare hil d).map val).map (Num.map normalise) = ((prepare hil d).map normalise).map val := by
      rw [List.map_map, List.map_map]; rfl
    rw [if_neg h0, if_neg h0, prepare_vals hil hiln d hh, hm, h1, h3]
    rfl

/-- The hypothesis on the two functions for the analytic signal holds of the identity. -/
example := C126_frequency_numbers id id ⟨1, 1, 0, 1 / 10⟩ [I, 2] rfl

/-- C126.  A complex signal with nan: as for the bandpass filter; y at the place of the first nan is still the number it would have been. -/
theorem C126_frequency (hil : List ℂ → List ℂ) (hiln : List (Num ℂ) → List (Num ℂ)) (f : FreqF) (pre : List ℂ) (v : ℂ) (rest : List (Num ℂ)) (hv : v.im ≠ 0)
    (hc : ∃ w, val w ∈ pre.map val ++ nan :: rest ∧ w.im ≠ 0) :
    ∃ out y e b fz g, out.length = pre.length ∧ f.filter hil (pre ++ [v]) = (.ok (out ++ [(y, e, b)]), fz) ∧
      (ofFreq f).filter hiln (pre.map val ++ nan :: rest) = (.ok (out.map triple ++ (val y, nan, val b) :: List.replicate rest.length (nan, nan, nan)), g) ∧
      g.b = nan ∧ g.frequency = val f.frequency ∧ g.rate = val f.rate ∧ (rest = [] → g.s = nan) := by
  obtain ⟨out, g1, h1, h2, h3⟩ := freq_vals (pre.map normalise) f
  have hfr : g1.frequency = f.frequency ∧ g1.rate = f.rate := by
    have := runLoop_inv FreqF.step (fun s => s.frequency = f.frequency ∧ s.rate = f.rate) (fun s x hs => ⟨⟨_, rfl⟩, hs⟩) f ⟨rfl, rfl⟩ (pre.map normalise)
    rw [h1] at this
    exact this.2
  have hstep : NanFreq.step (ofFreq g1) nan = (.ok (val (g1.b.arg / Real.pi), nan, val g1.b), ⟨nan, nan, val f.frequency, val f.rate⟩) := by
    rw [← hfr.1, ← hfr.2]; rfl
  obtain ⟨g, k1, k2, k3, k4, k5⟩ := freq_nan (rest.map (Num.map normalise)) ⟨nan, nan, val f.frequency, val f.rate⟩ rfl
  refine ⟨out, g1.b.arg / Real.pi, normalise v - g1.b * g1.s, g1.b, (FreqF.step g1 (normalise v)).2, g, by rw [h2, List.length_map], ?_, ?_, k2, k3, k4, ?_⟩
  · unfold FreqF.filter
    have hp : prepare hil (pre ++ [v]) = pre ++ [v] := if_pos ⟨v, by simp, hv⟩
    rw [if_neg (by simp), hp, List.map_append, runLoop_append, h1]
    rfl
  · unfold NanFreq.filter
    have hp : nanPrepare hiln (pre.map val ++ nan :: rest) = pre.map val ++ nan :: rest := if_pos hc
    have hm : (pre.map val ++ nan :: rest).map (Num.map normalise) = (pre.map normalise).map val ++ nan :: rest.map (Num.map normalise) := by
      rw [List.map_append, List.map_cons, List.map_map, List.map_map]; rfl
    have hl : runLoop NanFreq.step (ofFreq g1) (nan :: rest.map (Num.map normalise)) =
        (.ok ((val (g1.b.arg / Real.pi), nan, val g1.b) :: List.replicate rest.length (nan, nan, nan)), g) := by
      rw [runLoop, hstep]
      dsimp only
      rw [k1, List.length_map]
    rw [if_neg (by simp), hp, hm, runLoop_append, h3]
    simp only [thenRun, hl]
  · intro hr
    rw [k5, hr]; rfl

/-- A nan after one sample. -/
example (hil : List ℂ → List ℂ) (hiln : List (Num ℂ) → List (Num ℂ)) : ∃ out y e b fz g, out.length = 1 ∧
    FreqF.filter hil ⟨1, 1, 0, 1 / 10⟩ ([I] ++ [I]) = (.ok (out ++ [(y, e, b)]), fz) ∧
    (ofFreq ⟨1, 1, 0, 1 / 10⟩).filter hiln ([I].map val ++ nan :: [val 1]) = (.ok (out.map triple ++ (val y, nan, val b) :: [(nan, nan, nan)]), g) ∧ g.b = nan := by
  obtain ⟨out, y, e, b, fz, g, h1, h2, h3, h4, -⟩ := C126_frequency hil hiln ⟨1, 1, 0, 1 / 10⟩ [I] I [val 1] (by simp) ⟨I, by simp, by simp⟩
  exact ⟨out, y, e, b, fz, g, h1, h2, h3, h4⟩

/-- What a program may do to a ComplexFrequencyFilter, apart from assigning frequency. -/
inductive FreqOp where
  | filter (d : List (Num ℂ))
  | rate (v : Num ℝ)
  | reset (x : ResetArg (Num ℂ))

/-- One operation: the outputs of `filter`, none for the others and for an error. -/
noncomputable def FreqOp.run (hil : List (Num ℂ) → List (Num ℂ)) (f : NanFreq) : FreqOp → List (Num ℝ × Num ℂ × Num ℂ) × NanFreq
  | .filter d => match f.filter hil d with
    | (.ok y, f') => (y, f')
    | (.error _, f') => ([], f')
  | .rate v => ([], (f.setRate v).2)
  | .reset x => ([], (f.reset x).2)

/-- A program: all outputs in order. -/
noncomputable def runFreq (hil : List (Num ℂ) → List (Num ℂ)) : NanFreq → List FreqOp → List (Num ℝ × Num ℂ × Num ℂ) × NanFreq
  | f, [] => ([], f)
  | f, op :: t => ((op.run hil f).1 ++ (runFreq hil (op.run hil f).2 t).1, (runFreq hil (op.run hil f).2 t).2)

/-- C126.  Once the coefficient is nan, every output of every later call is nan, whatever is filtered, assigned to rate or passed to `reset`. -/
theorem C126_frequency_after (hil : List (Num ℂ) → List (Num ℂ)) (ops : List FreqOp) (f : NanFreq) (hb : f.b = nan) :
    (∀ t ∈ (runFreq hil f ops).1, t = (nan, nan, nan)) ∧ (runFreq hil f ops).2.b = nan := by
  induction ops generalizing f with
  | nil => exact ⟨fun t ht => absurd ht List.not_mem_nil, hb⟩
  | cons op t ih =>
    have h1 : (∀ t ∈ (op.run hil f).1, t = (nan, nan, nan)) ∧ (op.run hil f).2.b = nan := by
      cases op with
      | rate v =>
        refine ⟨fun t ht => absurd ht List.not_mem_nil, ?_⟩
        show (f.setRate v).2.b = nan
        unfold NanFreq.setRate
        split_ifs <;> exact hb
      | reset x => cases x <;> exact ⟨fun t ht => absurd ht List.not_mem_nil, hb⟩
      | filter d =>
        unfold FreqOp.run NanFreq.filter
        dsimp only
        by_cases hd : d.length = 0
        · rw [if_pos hd]; exact ⟨fun t ht => absurd ht List.not_mem_nil, hb⟩
        · obtain ⟨g, k1, k2, -⟩ := freq_nan ((nanPrepare hil d).map (Num.map normalise)) f hb
          rw [if_neg hd, k1]
          exact ⟨fun t ht => List.eq_of_mem_replicate ht, k2⟩
    obtain ⟨h2, h3⟩ := ih _ h1.2
    refine ⟨fun s hs => ?_, h3⟩
    rcases List.mem_append.mp hs with hs | hs
    · exact h1.1 s hs
    · exact h2 s hs

/-- Such a program. -/
example (hil : List (Num ℂ) → List (Num ℂ)) : (runFreq hil ⟨nan, nan, val 0, val 1⟩ [.reset (.scalar (val 1)), .filter [val I], .rate (val 0)]).2.b = nan :=
  (C126_frequency_after hil _ _ rfl).2

/-- C126.  Assigning frequency and then `reset` make the filter one of numbers again; assigning frequency alone does not when the nan was the last
sample: y is right once, the error is nan, and the coefficient is nan from the next sample on. -/
theorem C126_frequency_heals (hil : List (Num ℂ) → List (Num ℂ)) (f : NanFreq) (r : ℝ) (hr : f.rate = val r) (v : ℝ) (h0 : -1 ≤ v) (h1 : v ≤ 1) (x : ℂ) :
    ((f.setFrequency (val v)).2.reset (.scalar (val x))).2 = ofFreq ⟨cexp (I * Real.pi * v), if ‖x‖ ≤ 1e-8 then 1 else x / ‖x‖, v, r⟩ ∧
    (f.s = nan → ∀ d, nanPrepare hil d = d → d ≠ [] → ∃ g, (f.setFrequency (val v)).2.filter hil d =
      (.ok ((val ((cexp (I * Real.pi * v)).arg / Real.pi), nan, val (cexp (I * Real.pi * v))) :: List.replicate (d.length - 1) (nan, nan, nan)), g) ∧ g.b = nan) := by
  have hset : (f.setFrequency (val v)).2 = ⟨val (cexp (I * Real.pi * v)), f.s, val v, f.rate⟩ := by
    unfold NanFreq.setFrequency
    rw [if_neg]
    · rfl
    · rintro (h | h)
      · exact absurd h (not_lt.mpr h0)
      · exact absurd h (not_lt.mpr h1)
  rw [hset, hr]
  refine ⟨rfl, fun hs d hd hn => ?_⟩
  obtain ⟨a, t, rfl⟩ := List.exists_cons_of_ne_nil hn
  unfold NanFreq.filter
  rw [if_neg (by simp), hd, List.map_cons, hs]
  have hstep : NanFreq.step ⟨val (cexp (I * Real.pi * v)), nan, val v, val r⟩ (Num.map normalise a) =
      (.ok (val ((cexp (I * Real.pi * v)).arg / Real.pi), nan, val (cexp (I * Real.pi * v))), ⟨nan, Num.map normalise a, val v, val r⟩) := by
    unfold NanFreq.step
    dsimp only
    rw [cmul_nan, csub_nan, cmul_nan, cnan_mul, cadd_nan]
    rfl
  obtain ⟨g, k1, k2, -⟩ := freq_nan (t.map (Num.map normalise)) ⟨nan, Num.map normalise a, val v, val r⟩ rfl
  refine ⟨g, ?_, k2⟩
  rw [runLoop, hstep]
  dsimp only
  rw [k1, List.length_map]
  rfl

/-- An instance as it is after a nan. -/
example (hil : List (Num ℂ) → List (Num ℂ)) : ((NanFreq.setFrequency ⟨nan, nan, val 0, val 1⟩ (val (1 / 2))).2.reset (.scalar (val 1))).2 =
    ofFreq ⟨cexp (I * Real.pi * ((1 / 2 : ℝ) : ℂ)), if ‖(1 : ℂ)‖ ≤ 1e-8 then 1 else 1 / ‖(1 : ℂ)‖, 1 / 2, 1⟩ :=
  (C126_frequency_heals hil ⟨nan, nan, val 0, val 1⟩ 1 rfl (1 / 2) (by norm_num) (by norm_num) 1).1

/-- C126.  A real signal with nan, of which the Hilbert transform is nan throughout: the first y and b are those of the numbers before, everything else is
nan. -/
theorem C126_real (hil : List (Num ℂ) → List (Num ℂ)) (f : FreqF) (d : List (Num ℂ)) (n : ℕ) (hd : d ≠ []) (hc : ∀ w, val w ∈ d → w.im = 0)
    (hh : hil d = List.replicate (n + 1) nan) :
    ∃ g, (ofFreq f).filter hil d = (.ok ((val (f.b.arg / Real.pi), nan, val f.b) :: List.replicate n (nan, nan, nan)), g) ∧ g.b = nan ∧ g.s = nan := by
  have hp : nanPrepare hil d = List.replicate (n + 1) nan := by
    unfold nanPrepare
    rw [if_neg, hh]
    rintro ⟨w, hw, h⟩
    exact h (hc w hw)
  obtain ⟨g, k1, k2, -, -, k5⟩ := freq_nan (List.replicate n nan) ⟨nan, nan, val f.frequency, val f.rate⟩ rfl
  refine ⟨g, ?_, k2, ?_⟩
  · unfold NanFreq.filter
    rw [if_neg (fun h => hd (List.length_eq_zero_iff.mp h)), hp, List.map_replicate, List.replicate_succ]
    have hm : Num.map normalise nan = nan := rfl
    have hstep : NanFreq.step (ofFreq f) nan = (.ok (val (f.b.arg / Real.pi), nan, val f.b), ⟨nan, nan, val f.frequency, val f.rate⟩) := rfl
    rw [hm, runLoop, hstep]
    dsimp only
    rw [k1, List.length_replicate]
  · rw [k5]
    cases n with
    | zero => rfl
    | succ n => rw [List.getLast?_replicate]; rfl

/-- Two samples. -/
example (f : FreqF) : ∃ g, (ofFreq f).filter (fun d => d.map (fun _ => nan)) [val 1, nan] = (.ok [(val (f.b.arg / Real.pi), nan, val f.b), (nan, nan, nan)], g) ∧ g.b = nan ∧ g.s = nan :=
  C126_real _ f [val 1, nan] 1 (by simp) (by intro w hw; simp at hw; subst hw; simp) rfl

/-- C126.  The constructors and setters given numbers are those of the other properties. -/
theorem C126_parameters_numbers (p q : ℝ) (e : CExp) (f : Bandpass) (g : FreqF) :
    NanExp.new (val p) = (CExp.new p).map (fun e => ⟨val e.phase⟩) ∧
    NanBandpass.new (val p) (val q) = (Bandpass.new p q).map ofBandpass ∧ NanFreq.new (val p) (val q) = (FreqF.new p q).map ofFreq ∧
    (⟨val e.phase⟩ : NanExp).setPhase (val p) = ((e.setPhase p).1, ⟨val (e.setPhase p).2.phase⟩) ∧
    (ofBandpass f).setFrequency (val p) = ((f.setFrequency p).1, ofBandpass (f.setFrequency p).2) ∧
    (ofBandpass f).setRate (val p) = ((f.setRate p).1, ofBandpass (f.setRate p).2) ∧
    (ofFreq g).setFrequency (val p) = ((g.setFrequency p).1, ofFreq (g.setFrequency p).2) ∧
    (ofFreq g).setRate (val p) = ((g.setRate p).1, ofFreq (g.setRate p).2) := by
  have h : ∀ a b v : ℝ, outside a b (val v) ↔ (v < a ∨ v > b) := fun a b v => Iff.rfl
  unfold NanExp.new CExp.new NanBandpass.new Bandpass.new NanFreq.new FreqF.new NanExp.setPhase CExp.setPhase NanBandpass.setFrequency Bandpass.setFrequency
    NanBandpass.setRate Bandpass.setRate NanFreq.setFrequency FreqF.setFrequency NanFreq.setRate FreqF.setRate
  simp only [h]
  by_cases h1 : p < -1 ∨ p > 1 <;> by_cases h2 : q < 0 ∨ q > 1 <;> by_cases h3 : p < 0 ∨ p > 1 <;> simp only [h1, h2, h3, if_true, if_false] <;>
    refine ⟨?_, ?_, ?_, ?_, ?_, ?_, ?_, ?_⟩ <;> trivial

example := (C126_parameters_numbers (1 / 2) (1 / 4) ⟨0⟩ ⟨1, ⟨0⟩, 0, 1⟩ ⟨1, 1, 0, 1⟩).2.2.1

/-- C126.  Given nan, each stores it as the parameter in question, and in the coefficient computed from it, and nowhere else. -/
theorem C126_parameters_stored (p r : ℝ) (hp : -1 ≤ p ∧ p ≤ 1) (hr : 0 ≤ r ∧ r ≤ 1) (f : NanBandpass) (g : NanFreq) :
    NanBandpass.new nan (val r) = .ok ⟨val (eps : ℂ), ⟨val 0⟩, nan, val r⟩ ∧ NanBandpass.new (val p) nan = .ok ⟨val (eps : ℂ), ⟨val 0⟩, val p, nan⟩ ∧
    NanFreq.new nan (val r) = .ok ⟨val 1, val 1, nan, val r⟩ ∧ NanFreq.new (val p) nan = .ok ⟨val 1, val 1, val p, nan⟩ ∧
    f.setFrequency nan = (.ok (), { f with frequency := nan }) ∧ f.setRate nan = (.ok (), { f with rate := nan }) ∧
    g.setFrequency nan = (.ok (), { g with b := nan, frequency := nan }) ∧ g.setRate nan = (.ok (), { g with rate := nan }) := by
  have h : ∀ a b : ℝ, ¬ outside a b nan := fun a b h => by rcases h with h | h <;> exact h
  have h1 : ¬ outside (-1) 1 (val p) := fun h => by
    rcases h with h | h
    · exact absurd h (not_lt.mpr hp.1)
    · exact absurd h (not_lt.mpr hp.2)
  have h2 : ¬ outside 0 1 (val r) := fun h => by
    rcases h with h | h
    · exact absurd h (not_lt.mpr hr.1)
    · exact absurd h (not_lt.mpr hr.2)
  unfold NanBandpass.new NanFreq.new NanBandpass.setFrequency NanBandpass.setRate NanFreq.setFrequency NanFreq.setRate
  simp only [h, h1, h2, if_false]
  refine ⟨?_, ?_, ?_, ?_, ?_, ?_, ?_, ?_⟩ <;> trivial

example := C126_parameters_stored (1 / 2) (1 / 4) (by norm_num) (by norm_num) ⟨val 1, ⟨val 0⟩, val 0, val 1⟩ ⟨val 1, val 1, val 0, val 1⟩

end Verif.Props
