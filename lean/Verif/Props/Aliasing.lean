import Verif.Lemmas.Heap
import Verif.Spec.Caller
import Verif.Model.Exact
import Mathlib.Algebra.Field.Rat
import Mathlib.Tactic.NormNum

/-
C113.  FirFilter and IirFilter share no arrays with the caller or with one another.
-/

namespace Verif.Props

open Verif.Spec

variable {R : Type} [Field R] [Dot R] [DecidableEq R]

/-- The arrays of the objects exist, and the state array of an object belongs to that object alone and is not a coefficient array. -/
def Separate (w : World R) : Prop :=
  (∀ o ∈ w.objs, o.state < w.heap.length ∧ ∀ p ∈ o.coefs, p < w.heap.length) ∧
  ∀ (i j : ℕ) (o o' : Obj R), w.objs[i]? = some o → w.objs[j]? = some o' → (i ≠ j → o.state ≠ o'.state) ∧ o.state ∉ o'.coefs

omit [DecidableEq R] in
theorem obj_filter (o : Obj R) (h : Heap R) (x : Arg R) (hx : ∀ l, x = .array l → l < h.length)
    (hs : o.state < h.length) (hc : ∀ p ∈ o.coefs, p < h.length) (hn : o.state ∉ o.coefs) (hxs : x ≠ .array o.state) :
    h.length ≤ (o.filter h x).2.length ∧ (∀ l < h.length, l ≠ o.state → (o.filter h x).2.read l = h.read l) ∧
    o.value (o.filter h x).2 = ((o.value h).filter (x.read h)).2 ∧
    (∀ e, ((o.value h).filter (x.read h)).1 = .error e → (o.filter h x).1 = .error e) ∧
    ∀ ys, ((o.value h).filter (x.read h)).1 = .ok ys →
      ∃ y, (o.filter h x).1 = .ok y ∧ h.length ≤ y ∧ y < (o.filter h x).2.length ∧ (o.filter h x).2.read y = ys := by
  cases o with
  | fir f =>
    simp only [Obj.state, Obj.coefs, List.mem_singleton, forall_eq] at hs hc hn hxs
    obtain ⟨k1, k2, k3, k4, k5⟩ := filter_spec_of h x hx f.step f.view Fir.step f.s hs hxs
      (fun h' e => by simp [FirRef.view, e _ hs, e _ hc])
      (fun x y N hy hyN hxs => FirRef.step_spec f x y N (by omega) hyN (Ne.symm hn) hxs (by omega) (by omega))
      (f.filter h x) rfl
    exact ⟨k1, k2, congrArg VObj.fir k3, k4, k5⟩
  | iir f =>
    simp only [Obj.state, Obj.coefs, List.mem_cons, List.not_mem_nil, or_false, not_or, forall_eq_or_imp, forall_eq] at hs hc hn hxs
    obtain ⟨k1, k2, k3, k4, k5⟩ := filter_spec_of h x hx f.step f.view Iir.step f.s hs hxs
      (fun h' e => by simp [IirRef.view, e _ hs, e _ hc.1, e _ hc.2])
      (fun x y N hy hyN hxs => IirRef.step_spec f x y N (by omega) hyN (Ne.symm hn.2) (Ne.symm hn.1) hxs (by omega) (by omega) (by omega))
      (f.filter h x) rfl
    exact ⟨k1, k2, congrArg VObj.iir k3, k4, k5⟩

omit [Dot R] [DecidableEq R] in
private theorem obj_reset (o : Obj R) (h : Heap R) (x : ResetArg R) (hs : o.state < h.length) (hn : o.state ∉ o.coefs) :
    (o.reset h x).2.length = h.length ∧ (∀ l, l ≠ o.state → (o.reset h x).2.read l = h.read l) ∧
    o.value (o.reset h x).2 = ((o.value h).reset x).2 ∧ (o.reset h x).1 = ((o.value h).reset x).1 := by
  cases o with
  | fir f =>
    simp only [Obj.state, Obj.coefs, List.mem_singleton] at hs hn
    cases x with
    | nonScalar => exact ⟨rfl, fun _ _ => rfl, rfl, rfl⟩
    | scalar v =>
      refine ⟨Heap.length_store _ _ _, fun l hl => Heap.read_store_ne _ _ _ _ hl, ?_, rfl⟩
      simp [Obj.value, Obj.reset, FirRef.reset, VObj.reset, Fir.reset, Heap.read_store_self _ _ _ hs, Heap.read_store_ne _ _ _ _ (Ne.symm hn)]
  | iir f =>
    simp only [Obj.state, Obj.coefs, List.mem_cons, List.not_mem_nil, or_false, not_or] at hs hn
    cases x with
    | nonScalar => exact ⟨rfl, fun _ _ => rfl, rfl, rfl⟩
    | scalar v =>
      simp only [Obj.value, Obj.reset, IirRef.reset, VObj.reset, Iir.reset, Obj.state]
      rcases hc : h.read f.s with _ | ⟨c, t⟩
      · simp [hc]
      · rcases t with _ | ⟨c', t⟩
        · simp [hc, Heap.read_store_self _ _ _ hs, Heap.read_store_ne _ _ _ _ (Ne.symm hn.1), Heap.read_store_ne _ _ _ _ (Ne.symm hn.2)]
          exact fun l hl => Heap.read_store_ne _ _ _ _ hl
        · simp [hc, Heap.read_store_self, hs, Heap.read_store_ne _ _ _ _ (Ne.symm hn.1), Heap.read_store_ne _ _ _ _ (Ne.symm hn.2)]
          exact fun l hl => by rw [Heap.read_store_ne _ _ _ _ hl, Heap.read_store_ne _ _ _ _ hl]

/-- The value of an object depends on its own arrays only. -/
private theorem value_congr {R : Type} (o : Obj R) (h k : Heap R) (hs : k.read o.state = h.read o.state)
    (hc : ∀ p ∈ o.coefs, k.read p = h.read p) : o.value k = o.value h := by
  cases o with
  | fir f => simp only [Obj.state, Obj.coefs, List.mem_singleton, forall_eq] at hs hc; simp [Obj.value, hs, hc]
  | iir f =>
    simp only [Obj.state, Obj.coefs, List.mem_cons, List.not_mem_nil, or_false, forall_eq_or_imp, forall_eq] at hs hc
    simp [Obj.value, hs, hc]

omit [Field R] [Dot R] [DecidableEq R] in
private theorem separate_grow (w : World R) (hw : Separate w) (k : Heap R) (hk : w.heap.length ≤ k.length) : Separate ⟨k, w.objs⟩ :=
  ⟨fun o ho => ⟨Nat.lt_of_lt_of_le (hw.1 o ho).1 hk, fun p hp => Nat.lt_of_lt_of_le ((hw.1 o ho).2 p hp) hk⟩, hw.2⟩

omit [Field R] [Dot R] [DecidableEq R] in
private theorem separate_new (w : World R) (hw : Separate w) (k : Heap R) (hk : w.heap.length ≤ k.length) (o : Obj R)
    (hs : w.heap.length ≤ o.state) (hs' : o.state < k.length) (hc : ∀ p ∈ o.coefs, w.heap.length ≤ p ∧ p < k.length)
    (hn : o.state ∉ o.coefs) : Separate ⟨k, w.objs ++ [o]⟩ := by
  refine ⟨fun q hq => ?_, fun i j p q hi hj => ?_⟩
  · rcases List.mem_append.1 hq with hq | hq
    · exact (separate_grow w hw k hk).1 q hq
    · rw [List.mem_singleton.1 hq]
      exact ⟨hs', fun p hp => (hc p hp).2⟩
  · have key : ∀ i p, (w.objs ++ [o])[i]? = some p → (i < w.objs.length ∧ w.objs[i]? = some p) ∨ (i = w.objs.length ∧ p = o) := by
      intro i p hi
      by_cases hl : i < w.objs.length
      · exact .inl ⟨hl, by rw [← hi, List.getElem?_append_left hl]⟩
      · rw [List.getElem?_append_right (by omega)] at hi
        by_cases h0 : i - w.objs.length = 0
        · rw [h0] at hi
          exact .inr ⟨by omega, by simpa using hi.symm⟩
        · rw [List.getElem?_eq_none (by simp; omega)] at hi
          cases hi
    rcases key i p hi with ⟨hil, hi'⟩ | ⟨hil, rfl⟩ <;> rcases key j q hj with ⟨hjl, hj'⟩ | ⟨hjl, rfl⟩
    · exact hw.2 i j p q hi' hj'
    · have := (hw.1 p (List.mem_of_getElem? hi')).1
      exact ⟨fun _ => by omega, fun hm => by have := (hc _ hm).1; omega⟩
    · have := hw.1 q (List.mem_of_getElem? hj')
      exact ⟨fun _ => by omega, fun hm => by have := this.2 _ hm; omega⟩
    · exact ⟨fun hne => absurd (hil.trans hjl.symm) hne, hn⟩

omit [Field R] [Dot R] [DecidableEq R] in
private theorem values_ext (w : World R) (hw : Separate w) (k : Heap R) (hk : w.heap.Ext k) :
    (w.objs.map fun o => o.value k) = w.objs.map fun o => o.value w.heap :=
  List.map_congr_left fun o ho => value_congr o _ _ (hk.2 _ (hw.1 o ho).1) fun p hp => hk.2 _ ((hw.1 o ho).2 p hp)

omit [Field R] [Dot R] [DecidableEq R] in
private theorem values_set (w : World R) (hw : Separate w) (k : Heap R) (i : ℕ) (o : Obj R) (hi : w.objs[i]? = some o)
    (hk : ∀ l < w.heap.length, l ≠ o.state → k.read l = w.heap.read l) :
    (w.objs.map fun o => o.value k) = (w.objs.map fun o => o.value w.heap).set i (o.value k) := by
  apply List.ext_getElem?
  intro j
  by_cases hij : i = j
  · subst hij
    obtain ⟨hl, _⟩ := List.getElem?_eq_some_iff.1 hi
    rw [List.getElem?_set_self (by simpa using hl), List.getElem?_map, hi]
    rfl
  · rw [List.getElem?_set_ne hij, List.getElem?_map, List.getElem?_map]
    cases hj : w.objs[j]? with
    | none => rfl
    | some q =>
      have hq := hw.1 q (List.mem_of_getElem? hj)
      have hs := hw.2 i j o q hi hj
      simp only [Option.map_some, Option.some.injEq]
      exact value_congr q _ _ (hk _ hq.1 (Ne.symm (hs.1 hij))) fun p hp => hk p (hq.2 p hp) fun e => hs.2 (e ▸ hp)

/-- One command with arrays does what the command with values does.  Results are new arrays.  Of the arrays which existed, only the state of the
object which is called (and the array which the caller writes) can change. -/
theorem C113_step (w : World R) (hw : Separate w) (c : Cmd R) (hc : Allowed w c) :
    Separate (w.exec c).2 ∧ (w.exec c).2.values = (vexec w.values (c.value w.heap)).2 ∧
    ((w.exec c).1.map fun y => y.map (w.exec c).2.heap.read) = (vexec w.values (c.value w.heap)).1 ∧
    (∀ y, (w.exec c).1 = .ok (some y) → w.heap.length ≤ y ∧ y < (w.exec c).2.heap.length) ∧
    w.heap.length ≤ (w.exec c).2.heap.length ∧
    ∀ l < w.heap.length, (∀ o ∈ w.objs, l ≠ o.state) → (∀ v, c ≠ .write l v) → (w.exec c).2.heap.read l = w.heap.read l := by
  cases c with
  | newFir cast b s =>
    obtain ⟨f1, f2⟩ := FirRef.new_spec cast w.heap b s hc.1 hc.2
    simp only [World.exec, vexec, Cmd.value, World.values]
    generalize FirRef.new cast w.heap b s = r at f1 f2 ⊢
    obtain ⟨r1, r2⟩ := r
    cases hn : Fir.new cast (b.read w.heap) (s.map fun a => a.read w.heap) with
    | error e =>
      rw [hn] at f2
      simp only at f2
      subst f2
      exact ⟨separate_grow w hw _ f1.1, values_ext w hw _ f1, rfl, fun y hy => (by cases hy), f1.1, fun l hl _ _ => f1.2 l hl⟩
    | ok p =>
      rw [hn] at f2
      obtain ⟨f, g1, g2, g3, g4, g5, g6, g7⟩ := f2
      simp only at g1 g5 g6 g7 f1
      subst g1
      refine ⟨separate_new w hw _ f1.1 (.fir f) g3 g6 (by simpa [Obj.coefs] using ⟨g2, g5⟩) (by simpa [Obj.coefs, Obj.state] using Ne.symm g4),
        ?_, rfl, fun y hy => (by cases hy), f1.1, fun l hl _ _ => f1.2 l hl⟩
      rw [List.map_append, values_ext w hw _ f1, ← g7]
      rfl
  | newIir cast a b s =>
    obtain ⟨f1, f2⟩ := IirRef.new_spec cast w.heap a b s hc.1 hc.2.1 hc.2.2
    simp only [World.exec, vexec, Cmd.value, World.values]
    generalize IirRef.new cast w.heap a b s = r at f1 f2 ⊢
    obtain ⟨r1, r2⟩ := r
    cases hn : Iir.new cast (a.map fun a => a.read w.heap) (b.map fun a => a.read w.heap) (s.map fun a => a.read w.heap) with
    | error e =>
      rw [hn] at f2
      simp only at f2
      subst f2
      exact ⟨separate_grow w hw _ f1.1, values_ext w hw _ f1, rfl, fun y hy => (by cases hy), f1.1, fun l hl _ _ => f1.2 l hl⟩
    | ok p =>
      rw [hn] at f2
      obtain ⟨f, g1, g2, g3, g4, g5, g6, g7, g8, g9, g10⟩ := f2
      simp only at g1 g7 g8 g9 g10 f1
      subst g1
      refine ⟨separate_new w hw _ f1.1 (.iir f) g4 g9 (by simpa [Obj.coefs] using ⟨⟨g2, g7⟩, g3, g8⟩)
        (by simpa [Obj.coefs, Obj.state] using ⟨Ne.symm g5, Ne.symm g6⟩),
        ?_, rfl, fun y hy => (by cases hy), f1.1, fun l hl _ _ => f1.2 l hl⟩
      rw [List.map_append, values_ext w hw _ f1, ← g10]
      rfl
  | filter i x =>
    simp only [World.exec, vexec, Cmd.value, World.values, List.getElem?_map]
    cases hi : w.objs[i]? with
    | none => exact ⟨hw, rfl, rfl, fun y hy => (by cases hy), Nat.le_refl _, fun _ _ _ _ => rfl⟩
    | some o =>
      have hm := List.mem_of_getElem? hi
      obtain ⟨k1, k2, k3, k4, k5⟩ := obj_filter o w.heap x hc.1 (hw.1 o hm).1 (hw.1 o hm).2 (hw.2 i i o o hi hi).2 (hc.2 o hi)
      simp only [Option.map_some]
      refine ⟨separate_grow w hw _ k1, ?_, ?_, ?_, k1, fun l hl ho _ => k2 l hl (ho o hm)⟩
      · rw [values_set w hw _ i o hi k2, k3]
      · cases hv : ((o.value w.heap).filter (x.read w.heap)).1 with
        | error e => rw [k4 e hv]; rfl
        | ok ys =>
          obtain ⟨y, y1, _, _, y4⟩ := k5 ys hv
          rw [y1, ← y4]; rfl
      · intro y hy
        cases hv : ((o.value w.heap).filter (x.read w.heap)).1 with
        | error e => rw [k4 e hv] at hy; cases hy
        | ok ys =>
          obtain ⟨y', y1, y2, y3, _⟩ := k5 ys hv
          rw [y1] at hy
          cases hy
          exact ⟨y2, y3⟩
  | reset i x =>
    simp only [World.exec, vexec, Cmd.value, World.values, List.getElem?_map]
    cases hi : w.objs[i]? with
    | none => exact ⟨hw, rfl, rfl, fun y hy => (by cases hy), Nat.le_refl _, fun _ _ _ _ => rfl⟩
    | some o =>
      have hm := List.mem_of_getElem? hi
      obtain ⟨k1, k2, k3, k4⟩ := obj_reset o w.heap x (hw.1 o hm).1 (hw.2 i i o o hi hi).2
      simp only [Option.map_some]
      refine ⟨separate_grow w hw _ (by omega), ?_, ?_, ?_, Nat.le_of_eq k1.symm, fun l _ ho _ => k2 l (ho o hm)⟩
      · rw [values_set w hw _ i o hi (fun l _ => k2 l), k3]
      · rw [k4]
        cases ((o.value w.heap).reset x).1 <;> rfl
      · intro y hy
        cases hz : (o.reset w.heap x).1 with
        | error e => rw [hz] at hy; cases hy
        | ok u => rw [hz] at hy; cases hy
  | write l v =>
    obtain ⟨c1, c2⟩ := hc
    refine ⟨separate_grow w hw _ (by simp), ?_, rfl, fun y hy => (by cases hy), by simp [World.exec], fun k _ _ hk => ?_⟩
    · exact List.map_congr_left fun o ho => value_congr o _ _ (Heap.read_store_ne _ _ _ _ (Ne.symm (c2 o ho).1))
        fun p hp => Heap.read_store_ne _ _ _ _ fun e => (c2 o ho).2 (e ▸ hp)
    · exact Heap.read_store_ne _ _ _ _ fun e => hk v (by rw [e])
  | make v =>
    exact ⟨separate_grow w hw _ (by simp), values_ext w hw _ (Heap.ext_alloc _ _), rfl, fun y hy => (by cases hy), by simp [World.exec],
      fun k hk _ _ => Heap.read_alloc_lt _ _ _ hk⟩

/-- Any allowed list of commands, with arrays or with values: the same results and the same objects. -/
theorem C113_refines (cs : List (Cmd R)) (w : World R) (hw : Separate w) (ha : AllAllowed w cs) :
    (w.run cs).1 = (vrun w.values (w.valuesOf cs)).1 ∧ (w.run cs).2.values = (vrun w.values (w.valuesOf cs)).2 ∧ Separate (w.run cs).2 := by
  induction cs generalizing w with
  | nil => exact ⟨rfl, rfl, hw⟩
  | cons c cs ih =>
    obtain ⟨s1, s2, s3, _⟩ := C113_step w hw c ha.1
    obtain ⟨i1, i2, i3⟩ := ih _ s1 ha.2
    simp only [World.run, World.valuesOf, vrun]
    rw [s2] at i1 i2
    exact ⟨by rw [s3, i1], i2, i3⟩

omit [Field R] [Dot R] [DecidableEq R] in
/-- At the start there are no objects. -/
theorem C113_start (h : Heap R) : Separate (⟨h, []⟩ : World R) := ⟨fun o ho => by simp at ho, fun i j o o' hi => by simp at hi⟩

private theorem states_fresh (w : World R) (c : Cmd R) (hc : Allowed w c) :
    ∀ o ∈ (w.exec c).2.objs, o ∈ w.objs ∨ w.heap.length ≤ o.state := by
  intro o ho
  cases c with
  | newFir cast b s =>
    obtain ⟨f1, f2⟩ := FirRef.new_spec cast w.heap b s hc.1 hc.2
    simp only [World.exec] at ho
    generalize FirRef.new cast w.heap b s = r at f1 f2 ho
    obtain ⟨_ | f, r2⟩ := r
    · exact .inl ho
    · rcases List.mem_append.1 ho with ho | ho
      · exact .inl ho
      · cases hn : Fir.new cast (b.read w.heap) (s.map fun a => a.read w.heap) with
        | error e => rw [hn] at f2; cases f2
        | ok p =>
          rw [hn] at f2
          obtain ⟨f', g1, g2, g3, _⟩ := f2
          cases g1
          exact .inr (by rw [List.mem_singleton.1 ho]; exact g3)
  | newIir cast a b s =>
    obtain ⟨f1, f2⟩ := IirRef.new_spec cast w.heap a b s hc.1 hc.2.1 hc.2.2
    simp only [World.exec] at ho
    generalize IirRef.new cast w.heap a b s = r at f1 f2 ho
    obtain ⟨_ | f, r2⟩ := r
    · exact .inl ho
    · rcases List.mem_append.1 ho with ho | ho
      · exact .inl ho
      · cases hn : Iir.new cast (a.map fun a => a.read w.heap) (b.map fun a => a.read w.heap) (s.map fun a => a.read w.heap) with
        | error e => rw [hn] at f2; cases f2
        | ok p =>
          rw [hn] at f2
          obtain ⟨f', g1, g2, g3, g4, _⟩ := f2
          cases g1
          exact .inr (by rw [List.mem_singleton.1 ho]; exact g4)
  | filter i x =>
    simp only [World.exec] at ho
    cases hi : w.objs[i]? <;> rw [hi] at ho <;> exact .inl ho
  | reset i x =>
    simp only [World.exec] at ho
    cases hi : w.objs[i]? <;> rw [hi] at ho <;> exact .inl ho
  | write l v => exact .inl ho
  | make v => exact .inl ho

/-- An array which is not the state of an object — an argument, a table of coefficients, a result of an earlier call — keeps its values through
any allowed list of commands, unless the caller writes to it. -/
theorem C113_unchanged (cs : List (Cmd R)) (w : World R) (hw : Separate w) (ha : AllAllowed w cs) (l : ℕ) (hl : l < w.heap.length)
    (ho : ∀ o ∈ w.objs, l ≠ o.state) (hc : ∀ v, Cmd.write l v ∉ cs) : (w.run cs).2.heap.read l = w.heap.read l := by
  induction cs generalizing w with
  | nil => rfl
  | cons c cs ih =>
    obtain ⟨s1, _, _, _, s5, s6⟩ := C113_step w hw c ha.1
    simp only [World.run]
    rw [ih _ s1 ha.2 (by omega) ?_ fun v hv => hc v (List.mem_cons_of_mem _ hv)]
    · exact s6 l hl ho fun v hv => hc v (hv ▸ List.mem_cons_self)
    · intro o hm
      rcases states_fresh w c ha.1 o hm with h | h
      · exact ho o h
      · omega

/-- The command calls object `i`. -/
def concerns (i : ℕ) : VCmd R → Bool
  | .filter j _ => j == i
  | .reset j _ => j == i
  | _ => false

private theorem vexec_other (os : List (VObj R)) (i : ℕ) (o : VObj R) (hi : os[i]? = some o) (c : VCmd R) (hc : concerns i c = false) :
    (vexec os c).2[i]? = some o := by
  obtain ⟨hl, _⟩ := List.getElem?_eq_some_iff.1 hi
  cases c with
  | newFir c b s =>
    simp only [vexec]
    cases Fir.new c b s with
    | error e => exact hi
    | ok f => simp only; rw [List.getElem?_append_left hl, hi]
  | newIir c a b s =>
    simp only [vexec]
    cases Iir.new c a b s with
    | error e => exact hi
    | ok f => simp only; rw [List.getElem?_append_left hl, hi]
  | filter j x =>
    have hj : j ≠ i := by simpa [concerns] using hc
    simp only [vexec]
    cases os[j]? with
    | none => exact hi
    | some q => simp only; rw [List.getElem?_set_ne hj, hi]
  | reset j x =>
    have hj : j ≠ i := by simpa [concerns] using hc
    simp only [vexec]
    cases os[j]? with
    | none => exact hi
    | some q => simp only; rw [List.getElem?_set_ne hj, hi]
  | none => exact hi

private theorem vexec_own (os os' : List (VObj R)) (i : ℕ) (o : VObj R) (hi : os[i]? = some o) (hi' : os'[i]? = some o) (c : VCmd R)
    (hc : concerns i c = true) :
    (vexec os c).1 = (vexec os' c).1 ∧ ∃ q, (vexec os c).2[i]? = some q ∧ (vexec os' c).2[i]? = some q := by
  obtain ⟨hl, _⟩ := List.getElem?_eq_some_iff.1 hi
  obtain ⟨hl', _⟩ := List.getElem?_eq_some_iff.1 hi'
  cases c with
  | filter j x =>
    obtain rfl : j = i := by simpa [concerns] using hc
    simp only [vexec, hi, hi']
    exact ⟨trivial, _, List.getElem?_set_self hl, List.getElem?_set_self hl'⟩
  | reset j x =>
    obtain rfl : j = i := by simpa [concerns] using hc
    simp only [vexec, hi, hi']
    exact ⟨trivial, _, List.getElem?_set_self hl, List.getElem?_set_self hl'⟩
  | newFir c b s => simp [concerns] at hc
  | newIir c a b s => simp [concerns] at hc
  | none => simp [concerns] at hc

private theorem independent_aux (cs : List (VCmd R)) (i : ℕ) : ∀ (os os' : List (VObj R)) (o : VObj R), os[i]? = some o → os'[i]? = some o →
    ((cs.zip (vrun os cs).1).filter fun p => concerns i p.1).map Prod.snd = (vrun os' (cs.filter (concerns i))).1 ∧
    (vrun os cs).2[i]? = (vrun os' (cs.filter (concerns i))).2[i]? := by
  induction cs with
  | nil => intro os os' o hi hi'; exact ⟨rfl, hi.trans hi'.symm⟩
  | cons c cs ih =>
    intro os os' o hi hi'
    cases hc : concerns i c with
    | false =>
      obtain ⟨k1, k2⟩ := ih _ os' o (vexec_other os i o hi c hc) hi'
      simp only [vrun, List.zip_cons_cons, List.filter_cons, hc]
      exact ⟨k1, k2⟩
    | true =>
      obtain ⟨e, q, q1, q2⟩ := vexec_own os os' i o hi hi' c hc
      obtain ⟨k1, k2⟩ := ih _ _ q q1 q2
      simp only [vrun, List.zip_cons_cons, List.filter_cons, hc, if_true, List.map_cons, e, k1, k2]
      exact ⟨trivial, trivial⟩

/-- Objects do not influence one another: without the commands on other objects, and without new objects, the calls of one object return the
same and leave it with the same attributes. -/
theorem C113_independent (cs : List (Cmd R)) (w : World R) (hw : Separate w) (ha : AllAllowed w cs) (i : ℕ) (hi : i < w.objs.length) :
    (((w.valuesOf cs).zip (w.run cs).1).filter fun p => concerns i p.1).map Prod.snd =
      (vrun w.values ((w.valuesOf cs).filter (concerns i))).1 ∧
    (w.run cs).2.values[i]? = (vrun w.values ((w.valuesOf cs).filter (concerns i))).2[i]? := by
  obtain ⟨r1, r2, _⟩ := C113_refines cs w hw ha
  have hv : w.values[i]? = some (w.objs[i].value w.heap) := by
    rw [World.values, List.getElem?_map, List.getElem?_eq_getElem hi]; rfl
  rw [r1, r2]
  exact independent_aux _ i _ _ _ hv hv

section Cases

/-- Two filters made of the same array; the caller changes that array and the signal, and filters with one object what the other returned. -/
private def session : List (Cmd ℚ) :=
  [.newFir id (.array 0) none, .newIir id (some (.list [0, 1])) (some (.array 0)) (some (.array 0)), .filter 0 (.array 1), .write 1 [5, 5],
    .write 0 [9, 9], .filter 1 (.array 1), .reset 0 (.scalar 2), .filter 0 (.array 1)]

private def start : World ℚ := ⟨[[1, 1], [1, 2, 3]], []⟩

/-- The hypotheses of `C113_step`, `C113_refines`, `C113_unchanged` and `C113_independent` hold of this session. -/
example : Separate start ∧ AllAllowed start session := by
  refine ⟨C113_start _, ?_⟩
  simp [start, session, AllAllowed, Allowed, World.exec, FirRef.new, IirRef.new, Arg.toArray, Arg.read, Heap.read, Heap.alloc, Heap.pad, padTo,
    Obj.state, Obj.coefs, Obj.filter, Obj.reset, FirRef.filter, FirRef.step, FirRef.reset, IirRef.filter, IirRef.step, heapLoop, Heap.store,
    shiftRight, bcAdd]

/-- `f.filter(f.s)`: the signal is overwritten while it is read.  A copy of the same values gives another result. -/
theorem C113_witness_own_state :
    let w := ((⟨[], []⟩ : World ℚ).exec (.newFir id (.list [1, 1]) (some (.list [1, 2])))).2
    (∃ o, w.objs[0]? = some o ∧ o.state = 3 ∧ w.heap.read 3 = [1, 2]) ∧
    (w.run [.filter 0 (.array 3)]).1 = [.ok (some [2, 2])] ∧ (w.run [.filter 0 (.list [1, 2])]).1 = [.ok (some [2, 3])] := by
  refine ⟨⟨_, rfl, rfl, rfl⟩, ?_, ?_⟩ <;>
  simp [World.run, World.exec, FirRef.new, Arg.toArray, Arg.read, Heap.read, Heap.alloc, Heap.pad, padTo, Except.map,
    Obj.filter, FirRef.filter, FirRef.step, heapLoop, Heap.store, shiftRight, dot] <;> norm_num

/-- `g.s = f.s` stores a reference (fir_filter.py:120-122): now a call of `f` changes `g`. -/
theorem C113_witness_setter :
    let f : FirRef ℚ := ⟨id, 0, 1⟩
    let g : FirRef ℚ := { (⟨id, 0, 2⟩ : FirRef ℚ) with s := f.s }
    let w : World ℚ := ⟨[[1, 1], [0, 0], [0, 0]], [.fir f, .fir g]⟩
    w.values[1]? = some (.fir ⟨id, [1, 1], [0, 0]⟩) ∧ ((w.exec (.filter 0 (.list [5]))).2).values[1]? = some (.fir ⟨id, [1, 1], [5, 0]⟩) := by
  refine ⟨rfl, ?_⟩
  simp [World.values, World.exec, Arg.toArray, Heap.read, Heap.alloc, Obj.filter, FirRef.filter, FirRef.step, heapLoop, Heap.store,
    shiftRight, Obj.value]

end Cases

end Verif.Props
