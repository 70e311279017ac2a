import Verif.Model.ClassTables
import Verif.Props.Aliasing
import Mathlib.Data.List.ProdSigma

/-
C169.  The tables of coefficients which are attributes of classes (DerivativeFilter.B, IntegralFilter.B, WaveletTransform.B) are copied: nothing which is done
to instances changes them, however instances share arrays with one another and with the caller.
-/

namespace Verif.Props

open Verif.Spec

/-! ### What the methods write to, whatever arrays are shared -/

private theorem loop_only {R : Type} (step : Heap R → ℕ → Res Unit × Heap R) (k : ℕ) (hstep : ∀ h i, (step h i).2.length = h.length ∧ (step h i).2.read k = h.read k) (n : ℕ) :
    ∀ i h, (heapLoop step i n h).2.length = h.length ∧ (heapLoop step i n h).2.read k = h.read k := by
  induction n with
  | zero => intro i h; exact ⟨rfl, rfl⟩
  | succ n ih =>
    intro i h
    have hs := hstep h i
    unfold heapLoop
    split
    · rename_i e k' he; rw [he] at hs; exact hs
    · rename_i k' he
      rw [he] at hs
      exact ⟨(ih _ _).1.trans hs.1, (ih _ _).2.trans hs.2⟩

private theorem toArray_only {R : Type} (h : Heap R) (x : Arg R) : h.length ≤ (x.toArray h).2.length ∧ ∀ k < h.length, (x.toArray h).2.read k = h.read k := by
  cases x with
  | list v => exact ⟨by simp [Arg.toArray], fun k hk => Heap.read_alloc_lt _ _ _ hk⟩
  | array l => exact ⟨le_rfl, fun _ _ => rfl⟩

private theorem filter_only {R : Type} [Zero R] (step : ℕ → ℕ → Heap R → ℕ → Res Unit × Heap R) (s : ℕ)
    (hstep : ∀ x y h i k, k ≠ s → k ≠ y → (step x y h i).2.length = h.length ∧ (step x y h i).2.read k = h.read k) (h : Heap R) (x : Arg R) (r : Res ℕ × Heap R)
    (hr : r = (let x := x.toArray h
      if (x.2.read x.1).length = 0 then (.error .valueError, x.2)
      else
        let y := x.2.alloc (List.replicate (x.2.read x.1).length 0)
        match heapLoop (step x.1 y.1) 0 (x.2.read x.1).length y.2 with
        | (.error e, h) => (.error e, h)
        | (.ok (), h) => (.ok y.1, h))) (k : ℕ) (hk : k < h.length) (hks : k ≠ s) : h.length ≤ r.2.length ∧ r.2.read k = h.read k := by
  obtain ⟨t1, t2⟩ := toArray_only h x
  subst hr
  simp only
  generalize x.toArray h = p at *
  split_ifs
  · exact ⟨t1, t2 k hk⟩
  · have hl := loop_only (step p.1 (p.2.alloc (List.replicate (p.2.read p.1).length 0)).1) k
      (fun h' i => hstep _ _ h' i k hks (by simp only [Heap.alloc_loc]; omega)) (p.2.read p.1).length 0 (p.2.alloc (List.replicate (p.2.read p.1).length 0)).2
    rw [Heap.length_alloc, Heap.read_alloc_lt _ _ _ (by omega), t2 k hk] at hl
    split
    · rename_i e k' he; rw [he] at hl; exact ⟨by simp only at hl ⊢; omega, hl.2⟩
    · rename_i k' he; rw [he] at hl; exact ⟨by simp only at hl ⊢; omega, hl.2⟩

private theorem fir_step_only {R : Type} [Zero R] [Dot R] (f : FirRef R) (x y : ℕ) (h : Heap R) (i k : ℕ) (hs : k ≠ f.s) (hy : k ≠ y) :
    (f.step x y h i).2.length = h.length ∧ (f.step x y h i).2.read k = h.read k := by
  unfold FirRef.step
  simp only
  by_cases hb : (h.read f.b).length = 0
  · rw [if_pos hb]; exact ⟨rfl, rfl⟩
  rw [if_neg hb]
  have e0 : ∀ g : Heap R, g = (if (h.read f.s).length > 1 then h.store f.s (shiftRight (h.read f.s)) else h) → g.length = h.length ∧ g.read k = h.read k := by
    intro g hg
    rw [hg]
    split_ifs
    · exact ⟨Heap.length_store _ _ _, Heap.read_store_ne _ _ _ _ hs⟩
    · exact ⟨rfl, rfl⟩
  generalize hg : (if (h.read f.s).length > 1 then h.store f.s (shiftRight (h.read f.s)) else h) = g
  obtain ⟨g1, g2⟩ := e0 g hg.symm
  split
  · exact ⟨g1, g2⟩
  · split
    · exact ⟨g1, g2⟩
    · split_ifs
      · exact ⟨by simp [g1], by rw [Heap.read_store_ne _ _ _ _ hy, Heap.read_store_ne _ _ _ _ hs, g2]⟩
      · exact ⟨by simp [g1], by rw [Heap.read_store_ne _ _ _ _ hs, g2]⟩

private theorem iir_step_only {R : Type} [Add R] [Mul R] [Dot R] (f : IirRef R) (x y : ℕ) (h : Heap R) (i k : ℕ) (hs : k ≠ f.s) (hy : k ≠ y) :
    (f.step x y h i).2.length = h.length ∧ (f.step x y h i).2.read k = h.read k := by
  unfold IirRef.step
  simp only
  by_cases hb : (h.read f.b).length = 0
  · rw [if_pos hb]; exact ⟨rfl, rfl⟩
  rw [if_neg hb]
  have e0 : ∀ g : Res Unit × Heap R, g = (if (h.read f.s).length > 1 then
      if (h.read f.a).length = (h.read f.s).length then
        (Except.ok (), (h.store f.s ((h.read f.s).modifyHead fun s0 => f.cast (s0 + dot (h.read f.a) (h.read f.s)))).store f.s
          (shiftRight ((h.store f.s ((h.read f.s).modifyHead fun s0 => f.cast (s0 + dot (h.read f.a) (h.read f.s)))).read f.s)))
      else (Except.error PyErr.valueError, h)
    else (Except.ok (), h)) → g.2.length = h.length ∧ g.2.read k = h.read k := by
    intro g hg
    rw [hg]
    split_ifs
    · exact ⟨by simp, by rw [Heap.read_store_ne _ _ _ _ hs, Heap.read_store_ne _ _ _ _ hs]⟩
    · exact ⟨rfl, rfl⟩
    · exact ⟨rfl, rfl⟩
  split
  · rename_i e g hg
    exact e0 _ hg.symm
  · rename_i g hg
    have := e0 _ hg.symm
    obtain ⟨g1, g2⟩ := this
    split
    · exact ⟨g1, g2⟩
    · split
      · exact ⟨g1, g2⟩
      · split
        · exact ⟨by simp [g1], by rw [Heap.read_store_ne _ _ _ _ hs, g2]⟩
        · split
          · exact ⟨by simp [g1], by rw [Heap.read_store_ne _ _ _ _ hs, g2]⟩
          · split_ifs
            · exact ⟨by simp [g1], by rw [Heap.read_store_ne _ _ _ _ hy, Heap.read_store_ne _ _ _ _ hs, g2]⟩
            · exact ⟨by simp [g1], by rw [Heap.read_store_ne _ _ _ _ hs, g2]⟩

private theorem obj_filter_only {R : Type} [Field R] [Dot R] (o : Obj R) (h : Heap R) (x : Arg R) (k : ℕ) (hk : k < h.length) (hs : k ≠ o.state) :
    h.length ≤ (o.filter h x).2.length ∧ (o.filter h x).2.read k = h.read k := by
  cases o with
  | fir f => exact filter_only f.step f.s (fun x y h i k => fir_step_only f x y h i k) h x (f.filter h x) rfl k hk hs
  | iir f => exact filter_only f.step f.s (fun x y h i k => iir_step_only f x y h i k) h x (f.filter h x) rfl k hk hs

private theorem filter_length {R : Type} [Zero R] (step : ℕ → ℕ → Heap R → ℕ → Res Unit × Heap R) (s : ℕ)
    (hstep : ∀ x y h i k, k ≠ s → k ≠ y → (step x y h i).2.length = h.length ∧ (step x y h i).2.read k = h.read k) (h : Heap R) (x : Arg R) (r : Res ℕ × Heap R)
    (hr : r = (let x := x.toArray h
      if (x.2.read x.1).length = 0 then (.error .valueError, x.2)
      else
        let y := x.2.alloc (List.replicate (x.2.read x.1).length 0)
        match heapLoop (step x.1 y.1) 0 (x.2.read x.1).length y.2 with
        | (.error e, h) => (.error e, h)
        | (.ok (), h) => (.ok y.1, h))) : h.length ≤ r.2.length := by
  obtain ⟨t1, -⟩ := toArray_only h x
  subst hr
  simp only
  generalize x.toArray h = p at *
  split_ifs
  · exact t1
  · have hl := (loop_only (step p.1 (p.2.alloc (List.replicate (p.2.read p.1).length 0)).1) (s + p.2.length + 1)
      (fun h' i => hstep _ _ h' i _ (by omega) (by simp only [Heap.alloc_loc]; omega)) (p.2.read p.1).length 0 (p.2.alloc (List.replicate (p.2.read p.1).length 0)).2).1
    rw [Heap.length_alloc] at hl
    split
    · rename_i e k' he; rw [he] at hl; simp only at hl ⊢; omega
    · rename_i k' he; rw [he] at hl; simp only at hl ⊢; omega

private theorem obj_filter_length {R : Type} [Field R] [Dot R] (o : Obj R) (h : Heap R) (x : Arg R) : h.length ≤ (o.filter h x).2.length := by
  cases o with
  | fir f => exact filter_length f.step f.s (fun x y h i k => fir_step_only f x y h i k) h x (f.filter h x) rfl
  | iir f => exact filter_length f.step f.s (fun x y h i k => iir_step_only f x y h i k) h x (f.filter h x) rfl

private theorem obj_reset_only {R : Type} [Field R] (o : Obj R) (h : Heap R) (x : ResetArg R) (k : ℕ) (hs : k ≠ o.state) :
    h.length = (o.reset h x).2.length ∧ (o.reset h x).2.read k = h.read k := by
  cases o with
  | fir f =>
    cases x with
    | nonScalar => exact ⟨rfl, rfl⟩
    | scalar v => exact ⟨(Heap.length_store _ _ _).symm, Heap.read_store_ne _ _ _ _ hs⟩
  | iir f =>
    cases x with
    | nonScalar => exact ⟨rfl, rfl⟩
    | scalar v =>
      simp only [Obj.reset, IirRef.reset]
      have hs' : k ≠ f.s := hs
      split_ifs
      · split
        · exact ⟨by simp, Heap.read_store_ne _ _ _ _ hs'⟩
        · exact ⟨by simp, by rw [Heap.read_store_ne _ _ _ _ hs', Heap.read_store_ne _ _ _ _ hs']⟩
      · split
        · exact ⟨rfl, rfl⟩
        · exact ⟨by simp, Heap.read_store_ne _ _ _ _ hs'⟩

/-! ### Callers -/

variable [Dot ℝ]

/-- The filters, the wavelet transforms and the arrays which exist. -/
structure TableWorld where
  world : World ℝ
  waves : List WaveRef

/-- What a caller does: construct an instance from a table; all the commands of `Cmd`; assign an array to an attribute of filter `i`; write to an array of the
property `b` of wavelet transform `i`. -/
inductive TableCmd where
  | derivative (derivative order : ℤ)
  | integral (order : ℤ)
  | wavelet (style : Option WaveStyle) (order : ℤ)
  | filters (c : Cmd ℝ)
  | assign (i : ℕ) (name : Attribute) (l : ℕ)
  | write (i : ℕ) (which : WaveArray) (v : List ℝ)

/-- Assignment to an attribute. -/
def assignObj (o : Obj ℝ) (a : Attribute) (l : ℕ) : Obj ℝ :=
  match o with
  | .fir f => .fir (f.assign a l)
  | .iir f => .iir (f.assign a l)

/-- One command; whether it raises is not recorded. -/
noncomputable def TableWorld.exec (t : ClassTables) (w : TableWorld) : TableCmd → TableWorld
  | .derivative d o =>
    match DerivativeRef.new t w.world.heap d o with
    | (.ok f, h) => ⟨⟨h, w.world.objs ++ [.fir f]⟩, w.waves⟩
    | (.error _, h) => ⟨⟨h, w.world.objs⟩, w.waves⟩
  | .integral o =>
    match IntegralRef.new t w.world.heap o with
    | (.ok f, h) => ⟨⟨h, w.world.objs ++ [.iir f]⟩, w.waves⟩
    | (.error _, h) => ⟨⟨h, w.world.objs⟩, w.waves⟩
  | .wavelet s o =>
    match WaveRef.new t w.world.heap s o with
    | (.ok f, h) => ⟨⟨h, w.world.objs⟩, w.waves ++ [f]⟩
    | (.error _, h) => ⟨⟨h, w.world.objs⟩, w.waves⟩
  | .filters c => ⟨(w.world.exec c).2, w.waves⟩
  | .assign i a l => ⟨⟨w.world.heap, w.world.objs.modify i fun o => assignObj o a l⟩, w.waves⟩
  | .write i which v =>
    match w.waves[i]? with
    | none => w
    | some f => ⟨⟨f.write w.world.heap which v, w.world.objs⟩, w.waves⟩

/-- The place belongs to a table. -/
def TableOwns (t : ClassTables) (p : ℕ) : Prop :=
  (∃ d o, t.derivative d o = some p) ∨ (∃ o, t.integral o = some p) ∨ ∃ s o, t.wavelet s o = some p

/-- What is forbidden: to use an array which does not exist, and to write to a table directly, or through a filter of which it has been made the state.
It is allowed to pass a table to any constructor, to filter it, and to make it the coefficients of a filter. -/
def TableCmd.Allowed (t : ClassTables) (w : TableWorld) : TableCmd → Prop
  | .filters (.newFir _ b s) => (∀ l, b = .array l → l < w.world.heap.length) ∧ ∀ l, s = some (.array l) → l < w.world.heap.length
  | .filters (.newIir _ a b s) => (∀ l, a = some (.array l) → l < w.world.heap.length) ∧ (∀ l, b = some (.array l) → l < w.world.heap.length) ∧
      ∀ l, s = some (.array l) → l < w.world.heap.length
  | .filters (.write l _) => ¬ TableOwns t l
  | .assign _ .state l => ¬ TableOwns t l
  | _ => True

/-- The tables are what the classes define. -/
def TablesHold (t : ClassTables) (h : Heap ℝ) : Prop :=
  (∀ p, TableOwns t p → p < h.length) ∧ (∀ d o, (t.derivative d o).map h.read = Derivative.table d o) ∧ (∀ o, (t.integral o).map h.read = Integral.table o) ∧
    ∀ s o, (t.wavelet s o).map h.read = Wavelet.table s o

/-- No filter has a table for its state, and no wavelet transform holds a table. -/
def TablesApart (t : ClassTables) (w : TableWorld) : Prop :=
  (∀ o ∈ w.world.objs, ¬ TableOwns t o.state) ∧ ∀ f ∈ w.waves, ¬ TableOwns t f.low ∧ ¬ TableOwns t f.high ∧ ¬ TableOwns t f.high'

/-- Commands one after another. -/
noncomputable def TableWorld.run (t : ClassTables) : TableWorld → List TableCmd → TableWorld
  | w, [] => w
  | w, c :: cs => (w.exec t c).run t cs

/-- All commands are allowed when they are given. -/
def TableCmd.AllAllowed (t : ClassTables) : TableWorld → List TableCmd → Prop
  | _, [] => True
  | w, c :: cs => c.Allowed t w ∧ TableCmd.AllAllowed t (w.exec t c) cs

/-- One allowed command leaves the tables as they are, and the instances apart from them. -/
theorem C169_step (t : ClassTables) (w : TableWorld) (hw : TablesHold t w.world.heap) (ha : TablesApart t w) (c : TableCmd) (hc : c.Allowed t w) :
    TablesHold t (w.exec t c).world.heap ∧ TablesApart t (w.exec t c) := by
  -- it is enough that the places of the tables are kept
  have keep : ∀ h : Heap ℝ, w.world.heap.length ≤ h.length → (∀ p, TableOwns t p → h.read p = w.world.heap.read p) → TablesHold t h := by
    intro h hl hr
    obtain ⟨k0, k1, k2, k3⟩ := hw
    refine ⟨fun p hp => (k0 p hp).trans_le hl, fun d o => ?_, fun o => ?_, fun s o => ?_⟩
    · rw [← k1]
      cases e : t.derivative d o with
      | none => rfl
      | some p => exact congrArg some (hr p (.inl ⟨d, o, e⟩))
    · rw [← k2]
      cases e : t.integral o with
      | none => rfl
      | some p => exact congrArg some (hr p (.inr (.inl ⟨o, e⟩)))
    · rw [← k3]
      cases e : t.wavelet s o with
      | none => rfl
      | some p => exact congrArg some (hr p (.inr (.inr ⟨s, o, e⟩)))
  have keepExt : ∀ h : Heap ℝ, w.world.heap.Ext h → TablesHold t h := fun h he => keep h he.1 fun p hp => he.2 p (hw.1 p hp)
  have fresh : ∀ l, w.world.heap.length ≤ l → ¬ TableOwns t l := fun l hl hp => by have := hw.1 l hp; omega
  have more : ∀ (h : Heap ℝ) (o : Obj ℝ), ¬ TableOwns t o.state → TablesApart t ⟨⟨h, w.world.objs ++ [o]⟩, w.waves⟩ := by
    intro h o ho
    refine ⟨fun o' ho' => ?_, ha.2⟩
    rcases List.mem_append.1 ho' with ho' | ho'
    · exact ha.1 o' ho'
    · rw [List.mem_singleton.1 ho']; exact ho
  have place : ∀ p, TableOwns t p → ∀ l, (Arg.array p : Arg ℝ) = .array l → l < w.world.heap.length := by
    intro p hp l hl
    obtain rfl := Arg.array.inj hl
    exact hw.1 _ hp
  cases c with
  | derivative d o =>
    simp only [TableWorld.exec, DerivativeRef.new]
    cases e : t.derivative d o with
    | none => exact ⟨hw, ha⟩
    | some p =>
      simp only
      obtain ⟨f1, f2⟩ := FirRef.new_spec id w.world.heap (.array p) none (place p (.inl ⟨d, o, e⟩)) (fun l hl => by cases hl)
      generalize FirRef.new id w.world.heap (.array p) none = r at *
      obtain ⟨r1, h⟩ := r
      cases r1 with
      | error e' => exact ⟨keepExt h f1, ha⟩
      | ok f =>
        simp only at f2 ⊢
        refine ⟨keepExt h f1, more h _ ?_⟩
        split at f2
        · cases f2
        · obtain ⟨g, hg, -, g2, -⟩ := f2
          obtain rfl := Except.ok.inj hg
          exact fresh _ g2
  | integral o =>
    simp only [TableWorld.exec, IntegralRef.new]
    cases e : t.integral o with
    | none => exact ⟨hw, ha⟩
    | some p =>
      simp only
      obtain ⟨f1, f2⟩ := IirRef.new_spec id (w.world.heap.alloc [0, 1]).2 (some (.array (w.world.heap.alloc [0, 1]).1)) (some (.array p)) none
        (fun l hl => by obtain rfl := Arg.array.inj (Option.some.inj hl); simp)
        (fun l hl => by have := place p (.inr (.inl ⟨o, e⟩)) l (Option.some.inj hl); simp; omega) (fun l hl => by cases hl)
      generalize IirRef.new id (w.world.heap.alloc [0, 1]).2 (some (.array (w.world.heap.alloc [0, 1]).1)) (some (.array p)) none = r at *
      obtain ⟨r1, h⟩ := r
      have f1' : w.world.heap.Ext h := (Heap.ext_alloc _ _).trans f1
      cases r1 with
      | error e' => exact ⟨keepExt h f1', ha⟩
      | ok f =>
        simp only at f2 ⊢
        refine ⟨keepExt h f1', more h _ ?_⟩
        split at f2
        · cases f2
        · obtain ⟨g, hg, -, -, g2, -⟩ := f2
          obtain rfl := Except.ok.inj hg
          refine fresh _ ?_
          rw [Heap.length_alloc] at g2
          simp only [Obj.state]
          omega
  | wavelet s o =>
    simp only [TableWorld.exec, WaveRef.new]
    cases s with
    | none => exact ⟨hw, ha⟩
    | some s =>
      simp only
      cases e : t.wavelet s o with
      | none => exact ⟨hw, ha⟩
      | some p =>
        simp only
        refine ⟨keepExt _ ((Heap.ext_alloc _ _).trans ((Heap.ext_alloc _ _).trans (Heap.ext_alloc _ _))), ha.1, fun f hf => ?_⟩
        rcases List.mem_append.1 hf with hf | hf
        · exact ha.2 f hf
        · rw [List.mem_singleton.1 hf]
          exact ⟨fresh _ (by simp), fresh _ (by simp), fresh _ (by simp; omega)⟩
  | filters c =>
    cases c with
    | newFir cast b s =>
      obtain ⟨f1, f2⟩ := FirRef.new_spec cast w.world.heap b s hc.1 hc.2
      simp only [TableWorld.exec, World.exec]
      generalize FirRef.new cast w.world.heap b s = r at *
      obtain ⟨r1, h⟩ := r
      cases r1 with
      | error e' => exact ⟨keepExt h f1, ha⟩
      | ok f =>
        simp only at f2 ⊢
        refine ⟨keepExt h f1, more h _ ?_⟩
        split at f2
        · cases f2
        · obtain ⟨g, hg, -, g2, -⟩ := f2
          obtain rfl := Except.ok.inj hg
          exact fresh _ g2
    | newIir cast a b s =>
      obtain ⟨f1, f2⟩ := IirRef.new_spec cast w.world.heap a b s hc.1 hc.2.1 hc.2.2
      simp only [TableWorld.exec, World.exec]
      generalize IirRef.new cast w.world.heap a b s = r at *
      obtain ⟨r1, h⟩ := r
      cases r1 with
      | error e' => exact ⟨keepExt h f1, ha⟩
      | ok f =>
        simp only at f2 ⊢
        refine ⟨keepExt h f1, more h _ ?_⟩
        split at f2
        · cases f2
        · obtain ⟨g, hg, -, -, g2, -⟩ := f2
          obtain rfl := Except.ok.inj hg
          exact fresh _ g2
    | filter i x =>
      simp only [TableWorld.exec, World.exec]
      cases e : w.world.objs[i]? with
      | none => exact ⟨hw, ha⟩
      | some o =>
        have ho := ha.1 o (List.mem_of_getElem? e)
        refine ⟨keep _ (obj_filter_length o w.world.heap x) fun p hp => (obj_filter_only o w.world.heap x p (hw.1 p hp) fun h => ho (h ▸ hp)).2, ha⟩
    | reset i x =>
      simp only [TableWorld.exec, World.exec]
      cases e : w.world.objs[i]? with
      | none => exact ⟨hw, ha⟩
      | some o =>
        have ho := ha.1 o (List.mem_of_getElem? e)
        refine ⟨keep _ (obj_reset_only o w.world.heap x (o.state + 1) (by omega)).1.le fun p hp => (obj_reset_only o w.world.heap x p fun h => ho (h ▸ hp)).2, ha⟩
    | write l v =>
      exact ⟨keep _ (Heap.length_store _ _ _).ge fun p hp => Heap.read_store_ne _ _ _ _ fun h => hc (h ▸ hp), ha⟩
    | make v => exact ⟨keepExt _ (Heap.ext_alloc _ _), ha⟩
  | assign i a l =>
    refine ⟨hw, fun o ho => ?_, ha.2⟩
    simp only [TableWorld.exec] at ho
    obtain ⟨j, hj⟩ := List.mem_iff_getElem?.1 ho
    rw [List.getElem?_modify] at hj
    cases e : w.world.objs[j]? with
    | none => rw [e] at hj; cases hj
    | some o' =>
      rw [e] at hj
      have ho' := ha.1 o' (List.mem_of_getElem? e)
      simp only [Option.map_some, Option.some.injEq, Option.map_eq_map] at hj
      split_ifs at hj
      · subst hj
        cases o' <;> cases a <;> first | exact ho' | exact hc
      · subst hj; exact ho'
  | write i which v =>
    simp only [TableWorld.exec]
    cases e : w.waves[i]? with
    | none => exact ⟨hw, ha⟩
    | some f =>
      obtain ⟨a1, a2, a3⟩ := ha.2 f (List.mem_of_getElem? e)
      refine ⟨?_, ha⟩
      cases which
      · exact keep _ (Heap.length_store _ _ _).ge fun p hp => Heap.read_store_ne _ _ _ _ fun h => a1 (h ▸ hp)
      · exact keep _ (Heap.length_store _ _ _).ge fun p hp => Heap.read_store_ne _ _ _ _ fun h => a2 (h ▸ hp)
      · exact keep _ (Heap.length_store _ _ _).ge fun p hp => Heap.read_store_ne _ _ _ _ fun h => a1 (h ▸ hp)
      · exact keep _ (Heap.length_store _ _ _).ge fun p hp => Heap.read_store_ne _ _ _ _ fun h => a3 (h ▸ hp)

/-- C169: no program changes the tables. -/
theorem C169_tables (t : ClassTables) (cs : List TableCmd) : ∀ w : TableWorld, TablesHold t w.world.heap → TablesApart t w → TableCmd.AllAllowed t w cs →
    TablesHold t (w.run t cs).world.heap ∧ TablesApart t (w.run t cs) := by
  induction cs with
  | nil => intro w hw ha _; exact ⟨hw, ha⟩
  | cons c cs ih =>
    intro w hw ha hc
    obtain ⟨h1, h2⟩ := C169_step t w hw ha c hc.1
    exact ih _ h1 h2 hc.2

/-- Constructors on the heap `h` give instances with the values which the constructors by values give, on arrays of their own. -/
def MadeAsDefined (t : ClassTables) (h : Heap ℝ) : Prop :=
    (∀ d o, match Derivative.new (K := ℝ) d o with
      | .error e => (DerivativeRef.new t h d o).1 = .error e
      | .ok v => ∃ f, (DerivativeRef.new t h d o).1 = .ok f ∧ f.view (DerivativeRef.new t h d o).2 = v ∧ h.length ≤ f.b ∧ h.length ≤ f.s) ∧
    (∀ o, match Integral.new (K := ℝ) o with
      | .error e => (IntegralRef.new t h o).1 = .error e
      | .ok v => ∃ f, (IntegralRef.new t h o).1 = .ok f ∧ f.view (IntegralRef.new t h o).2 = v ∧ h.length ≤ f.a ∧ h.length ≤ f.b ∧ h.length ≤ f.s) ∧
    ∀ s o, match Wavelet.new s o with
      | .error e => (WaveRef.new t h s o).1 = .error e
      | .ok v => ∃ f, (WaveRef.new t h s o).1 = .ok f ∧ f.b (WaveRef.new t h s o).2 = v ∧ h.length ≤ f.low ∧ h.length ≤ f.high ∧ h.length ≤ f.high'

omit [Dot ℝ] in
/-- C169: while the tables hold, an instance is made with the values which the class defines, on arrays of its own. -/
theorem C169_new (t : ClassTables) (h : Heap ℝ) (ht : TablesHold t h) : MadeAsDefined t h := by
  obtain ⟨k0, k1, k2, k3⟩ := ht
  have place : ∀ p, TableOwns t p → ∀ l, (Arg.array p : Arg ℝ) = .array l → l < h.length := by
    intro p hp l hl
    obtain rfl := Arg.array.inj hl
    exact k0 _ hp
  refine ⟨fun d o => ?_, fun o => ?_, fun s o => ?_⟩
  · have k := k1 d o
    simp only [Derivative.new, DerivativeRef.new]
    cases e : t.derivative d o with
    | none => rw [e, Option.map_none] at k; rw [← k]
    | some p =>
      rw [e, Option.map_some] at k
      rw [← k]
      simp only
      obtain ⟨-, f2⟩ := FirRef.new_spec id h (.array p) none (place p (.inl ⟨d, o, e⟩)) (fun l hl => by cases hl)
      simp only [Arg.read, Option.map_none] at f2
      split
      · rename_i e' he; rw [he] at f2; exact f2
      · rename_i v he
        rw [he] at f2
        obtain ⟨f, g1, g2, g3, -, -, -, g4⟩ := f2
        exact ⟨f, g1, g4, g2, g3⟩
  · have k := k2 o
    simp only [Integral.new, IntegralRef.new]
    cases e : t.integral o with
    | none => rw [e, Option.map_none] at k; rw [← k]
    | some p =>
      rw [e, Option.map_some] at k
      rw [← k]
      simp only
      have hp := k0 p (.inr (.inl ⟨o, e⟩))
      obtain ⟨-, f2⟩ := IirRef.new_spec id (h.alloc [0, 1]).2 (some (.array (h.alloc [0, 1]).1)) (some (.array p)) none
        (fun l hl => by obtain rfl := Arg.array.inj (Option.some.inj hl); simp)
        (fun l hl => by obtain rfl := Arg.array.inj (Option.some.inj hl); simp; omega) (fun l hl => by cases hl)
      simp only [Arg.read, Option.map_none, Option.map_some, Heap.alloc_loc, Heap.read_alloc_self, Heap.read_alloc_lt h [0, 1] p hp] at f2
      simp only [Heap.alloc_loc]
      split
      · rename_i e' he; rw [he] at f2; exact f2
      · rename_i v he
        rw [he] at f2
        obtain ⟨f, g1, g2, g3, g4, -, -, -, -, -, g5⟩ := f2
        rw [Heap.length_alloc] at g2 g3 g4
        exact ⟨f, g1, g5, by omega, by omega, by omega⟩
  · cases s with
    | none => simp [Wavelet.new, WaveRef.new]
    | some s =>
      have k := k3 s o
      simp only [Wavelet.new, WaveRef.new]
      cases e : t.wavelet s o with
      | none => rw [e, Option.map_none] at k; rw [← k]
      | some p =>
        rw [e, Option.map_some] at k
        rw [← k]
        refine ⟨_, rfl, ?_, by simp, by simp, by simp; omega⟩
        simp only [WaveRef.b, Heap.alloc_loc, Heap.read_alloc_self]
        rw [Heap.read_alloc_lt _ _ _ (by simp; omega), Heap.read_alloc_lt _ _ _ (by simp), Heap.read_alloc_self, Heap.read_alloc_lt _ _ _ (by simp), Heap.read_alloc_self]
        unfold wav.filters
        simp only
        split_ifs <;> rfl

/-- C169: after any program, a new DerivativeFilter, IntegralFilter or WaveletTransform is as the first one was. -/
theorem C169_last (t : ClassTables) (w : TableWorld) (hw : TablesHold t w.world.heap) (ha : TablesApart t w) (cs : List TableCmd) (hc : TableCmd.AllAllowed t w cs) :
    MadeAsDefined t (w.run t cs).world.heap := C169_new t _ (C169_tables t cs w hw ha hc).1

omit [Dot ℝ] in
/-- C169: an assignment replaces the attribute which it names by the array assigned, keeps the others, and changes no array. -/
theorem C169_assign (h : Heap ℝ) (f : FirRef ℝ) (g : IirRef ℝ) (l : ℕ) :
    ((f.assign .forward l).view h = { f.view h with b := h.read l } ∧ (f.assign .state l).view h = { f.view h with s := h.read l }) ∧
    (g.assign .recursive l).view h = { g.view h with a := h.read l } ∧ (g.assign .forward l).view h = { g.view h with b := h.read l } ∧
    (g.assign .state l).view h = { g.view h with s := h.read l } := ⟨⟨rfl, rfl⟩, rfl, rfl, rfl⟩

/-! ### The view of a wavelet transform -/

omit [Dot ℝ] in
/-- C169: the low pass of synthesis is the low pass of analysis read backwards, whatever is written to the arrays of the property `b`; each of the high passes
keeps what was written to it last. -/
theorem C169_view (h : Heap ℝ) (w : WaveRef) (hl : w.low < h.length) (h1 : w.high < h.length) (h2 : w.high' < h.length) (d1 : w.low ≠ w.high) (d2 : w.low ≠ w.high') (d3 : w.high ≠ w.high') (v : List ℝ) :
    (w.b (w.write h .analysisLow v)) = { analysis := (v, (w.b h).analysis.2), synthesis := (v.reverse, (w.b h).synthesis.2) } ∧
    (w.b (w.write h .synthesisLow v)) = { analysis := (v.reverse, (w.b h).analysis.2), synthesis := (v, (w.b h).synthesis.2) } ∧
    (w.b (w.write h .analysisHigh v)) = { analysis := ((w.b h).analysis.1, v), synthesis := (w.b h).synthesis } ∧
    (w.b (w.write h .synthesisHigh v)) = { analysis := (w.b h).analysis, synthesis := ((w.b h).synthesis.1, v) } := by
  refine ⟨?_, ?_, ?_, ?_⟩
  · simp [WaveRef.b, WaveRef.write, Heap.read_store_self _ _ _ hl, Heap.read_store_ne _ _ _ _ d1.symm, Heap.read_store_ne _ _ _ _ d2.symm]
  · simp [WaveRef.b, WaveRef.write, Heap.read_store_self _ _ _ hl, Heap.read_store_ne _ _ _ _ d1.symm, Heap.read_store_ne _ _ _ _ d2.symm]
  · simp [WaveRef.b, WaveRef.write, Heap.read_store_self _ _ _ h1, Heap.read_store_ne _ _ _ _ d1, Heap.read_store_ne _ _ _ _ d3.symm]
  · simp [WaveRef.b, WaveRef.write, Heap.read_store_self _ _ _ h2, Heap.read_store_ne _ _ _ _ d2, Heap.read_store_ne _ _ _ _ d3]

/-! ### The hypotheses can be met -/

/-- An entry of one of the three tables. -/
abbrev TableKey := (ℤ × ℤ) ⊕ ℤ ⊕ WaveStyle × ℤ

/-- The contents of an entry. -/
noncomputable def tableOf : TableKey → Option (List ℝ)
  | .inl k => Derivative.table k.1 k.2
  | .inr (.inl k) => Integral.table k
  | .inr (.inr k) => Wavelet.table k.1 k.2

/-- All entries, and some which do not exist. -/
noncomputable def tableKeys : List TableKey :=
  ((([1, 2, 3] : List ℤ).product ((List.range 9).map fun k : ℕ => (k : ℤ))).map Sum.inl) ++ ((List.range 5).map fun k : ℕ => .inr (.inl (k : ℤ))) ++
    (([WaveStyle.coiflet, .daubechies, .haar, .symmlet].product ((List.range 30).map fun k : ℕ => (k : ℤ))).map fun k => .inr (.inr k))

omit [Dot ℝ] in
private theorem wave_order (style : WaveStyle) (order : ℤ) (p : List ℤ × ℕ) (h : Wavelet.digits style order = some p) : 0 ≤ order ∧ order < 30 := by
  unfold Wavelet.digits at h
  split at h <;> first | (cases h; decide +kernel) | simp at h

omit [Dot ℝ] in
private theorem tableKeys_all (k : TableKey) (l : List ℝ) (h : tableOf k = some l) : k ∈ tableKeys := by
  have cast : ∀ (o : ℤ) (n : ℕ), 0 ≤ o → o < n → o ∈ (List.range n).map fun k : ℕ => (k : ℤ) := by
    intro o n h0 hn
    exact List.mem_map.2 ⟨o.toNat, List.mem_range.2 (by omega), by omega⟩
  rcases k with ⟨d, o⟩ | o | ⟨s, o⟩
  · refine List.mem_append_left _ (List.mem_append_left _ (List.mem_map.2 ⟨(d, o), List.mem_product.2 ?_, rfl⟩))
    simp only [tableOf] at h
    unfold Derivative.table at h
    split at h <;> first | (simp at h; done) | exact ⟨by simp, cast _ _ (by norm_num) (by norm_num)⟩
  · refine List.mem_append_left _ (List.mem_append_right _ ?_)
    simp only [tableOf] at h
    have : o ∈ (List.range 5).map fun k : ℕ => (k : ℤ) := by
      unfold Integral.table at h
      split at h <;> first | (simp at h; done) | exact cast _ _ (by norm_num) (by norm_num)
    obtain ⟨n, hn, rfl⟩ := List.mem_map.1 this
    exact List.mem_map.2 ⟨n, hn, rfl⟩
  · refine List.mem_append_right _ (List.mem_map.2 ⟨(s, o), List.mem_product.2 ?_, rfl⟩)
    simp only [tableOf, Wavelet.table, Option.map_eq_some_iff] at h
    obtain ⟨p, hp, -⟩ := h
    obtain ⟨h0, h1⟩ := wave_order s o p hp
    exact ⟨by cases s <;> simp, cast _ _ h0 (by exact_mod_cast h1)⟩

/-- The place of an entry. -/
noncomputable def tablePlace (k : TableKey) : Option ℕ := (tableOf k).map fun _ => tableKeys.findIdx fun k' => decide (k' = k)

/-- The arrays of the three classes, one after another. -/
noncomputable def theTables : ClassTables :=
  { derivative := fun d o => tablePlace (.inl (d, o)), integral := fun o => tablePlace (.inr (.inl o)), wavelet := fun s o => tablePlace (.inr (.inr (s, o))) }

/-- The heap after the classes have been defined. -/
noncomputable def theHeap : Heap ℝ := tableKeys.map fun k => (tableOf k).getD []

omit [Dot ℝ] in
/-- The hypotheses can be met: a heap with all the tables. -/
theorem C169_exists : TablesHold theTables theHeap := by
  have key : ∀ k, (tablePlace k).map theHeap.read = tableOf k ∧ ∀ p, tablePlace k = some p → p < theHeap.length := by
    intro k
    unfold tablePlace
    cases e : tableOf k with
    | none => simp
    | some l =>
      have hm : (tableKeys.findIdx fun k' => decide (k' = k)) < tableKeys.length := List.findIdx_lt_length_of_exists ⟨k, tableKeys_all k l e, by simp⟩
      refine ⟨?_, fun p hp => ?_⟩
      · simp only [Option.map_some, Option.some.injEq, Heap.read, theHeap, List.getD_eq_getElem?_getD, List.getElem?_map]
        have : tableKeys[tableKeys.findIdx fun k' => decide (k' = k)]? = some k := by
          have hg := List.findIdx_getElem (w := hm)
          rw [List.getElem?_eq_getElem hm]
          exact congrArg some (of_decide_eq_true hg)
        rw [this]
        simp [e]
      · simp only [Option.map_some, Option.some.injEq] at hp
        rw [← hp, theHeap, List.length_map]
        exact hm
  refine ⟨?_, fun d o => (key _).1, fun o => (key _).1, fun s o => (key _).1⟩
  rintro p (⟨d, o, h⟩ | ⟨o, h⟩ | ⟨s, o, h⟩)
  · exact (key _).2 p h
  · exact (key _).2 p h
  · exact (key _).2 p h

omit [Dot ℝ] in
private theorem no_instances : TablesApart theTables ⟨⟨theHeap, []⟩, []⟩ := ⟨fun _ h => (by cases h), fun _ h => (by cases h)⟩

/-- Two filters and a wavelet transform are made, the first filter is used, made to hold the table of another one as its coefficients, and reset, and an array of the wavelet transform is overwritten. -/
example := C169_tables theTables [.derivative 1 2, .integral 2, .wavelet (some .haar) 1, .filters (.filter 0 (.list [1, 2, 3])),
  .assign 0 .forward (theTables.derivative 2 2).get!, .filters (.reset 0 (.scalar 1)), .write 0 .synthesisLow [5, 5]] _ C169_exists no_instances
  ⟨trivial, trivial, trivial, trivial, trivial, trivial, trivial, trivial⟩

example := C169_last theTables _ C169_exists no_instances [.derivative 1 2, .filters (.filter 0 (.list [1, 2, 3]))] ⟨trivial, trivial, trivial⟩

example := C169_new theTables theHeap C169_exists

example := C169_assign [[1, 2], [3, 4], [5, 6], [7, 8]] { cast := id, b := 0, s := 1 } { cast := id, a := 0, b := 1, s := 2 } 3

example := C169_view [[1, 2], [3, 4], [5, 6]] ⟨0, 1, 2⟩ (by simp) (by simp) (by simp) (by simp) (by simp) (by simp) [7, 8]

end Verif.Props
