import Verif.Model.Heap
import Mathlib.Tactic.Common

/-
The heap version of the filters and the version with values do the same.
-/

namespace Verif

variable {R P : Type*}

theorem Heap.read_store_self (h : Heap R) (l : ℕ) (a : List R) (hl : l < h.length) : (h.store l a).read l = a := by
  simp [Heap.read, Heap.store, hl]

theorem Heap.read_store_ne (h : Heap R) (l k : ℕ) (a : List R) (hk : k ≠ l) : (h.store l a).read k = h.read k := by
  simp [Heap.read, Heap.store, List.getElem?_set_ne (Ne.symm hk)]

@[simp] theorem Heap.length_store (h : Heap R) (l : ℕ) (a : List R) : (h.store l a).length = h.length := by
  simp [Heap.store]

@[simp] theorem Heap.length_alloc (h : Heap R) (a : List R) : (h.alloc a).2.length = h.length + 1 := by
  simp [Heap.alloc]

theorem Heap.read_alloc_lt (h : Heap R) (a : List R) (l : ℕ) (hl : l < h.length) : (h.alloc a).2.read l = h.read l := by
  simp [Heap.alloc, Heap.read, List.getElem?_append_left hl]

@[simp] theorem Heap.read_alloc_self (h : Heap R) (a : List R) : (h.alloc a).2.read h.length = a := by
  simp [Heap.alloc, Heap.read]

@[simp] theorem Heap.alloc_loc (h : Heap R) (a : List R) : (h.alloc a).1 = h.length := rfl

/-- The same object with the values of its arrays. -/
def FirRef.view (f : FirRef R) (h : Heap R) : Fir R := { cast := f.cast, b := h.read f.b, s := h.read f.s }

/-- The same object with the values of its arrays. -/
def IirRef.view (f : IirRef R) (h : Heap R) : Iir R :=
  { cast := f.cast, a := h.read f.a, b := h.read f.b, s := h.read f.s }

/-- A pass of a loop on the heap is a step on values: the output goes to `y[ii]`, only the state `s` and `y` change. -/
def StepSpec (step : Heap R → ℕ → Res Unit × Heap R) (view : Heap R → P) (pstep : P → R → Res R × P) (N : ℕ)
    (s x y : ℕ) : Prop :=
  ∀ h ii v, N ≤ h.length → (h.read x)[ii]? = some v → ∃ h', h'.length = h.length ∧
    (∀ l, l ≠ s → l ≠ y → h'.read l = h.read l) ∧ view h' = (pstep (view h) v).2 ∧
    match (pstep (view h) v).1 with
    | .ok o => step h ii = (.ok (), h') ∧ h'.read y = (h.read y).set ii o
    | .error e => step h ii = (.error e, h')

theorem heapLoop_spec (step : Heap R → ℕ → Res Unit × Heap R) (view : Heap R → P) (pstep : P → R → Res R × P) (N : ℕ)
    (s x y : ℕ) (H : StepSpec step view pstep N s x y) (hxs : x ≠ s) (hxy : x ≠ y) : ∀ n ii h, N ≤ h.length →
    ii + n = (h.read x).length → (h.read y).length = ii + n → ∃ h', h'.length = h.length ∧
    (∀ l, l ≠ s → l ≠ y → h'.read l = h.read l) ∧ view h' = (runLoop pstep (view h) ((h.read x).drop ii)).2 ∧
    match (runLoop pstep (view h) ((h.read x).drop ii)).1 with
    | .ok ys => heapLoop step ii n h = (.ok (), h') ∧ h'.read y = (h.read y).take ii ++ ys
    | .error e => heapLoop step ii n h = (.error e, h') := by
  intro n
  induction n with
  | zero =>
    intro ii h _ hx hy
    rw [List.drop_of_length_le (by omega)]
    exact ⟨h, rfl, fun _ _ _ => rfl, rfl, rfl, by rw [List.take_of_length_le (by omega)]; simp⟩
  | succ n ih =>
    intro ii h hN hx hy
    have hii : ii < (h.read x).length := by omega
    obtain ⟨h1, hl, hf, hv, hr⟩ := H h ii (h.read x)[ii] hN (List.getElem?_eq_getElem hii)
    rw [List.drop_eq_getElem_cons hii]
    simp only [runLoop, heapLoop]
    obtain ⟨r, hr0⟩ : ∃ r, r = pstep (view h) (h.read x)[ii] := ⟨_, rfl⟩
    rw [← hr0] at hr hv ⊢
    obtain ⟨r1, r2⟩ := r
    cases r1 with
    | error e =>
      simp only at hr hv ⊢
      exact ⟨h1, hl, hf, hv, by rw [hr]⟩
    | ok o =>
      simp only at hr hv ⊢
      obtain ⟨hs, ho⟩ := hr
      have hxr : h1.read x = h.read x := hf x hxs hxy
      obtain ⟨h2, kl, kf, kv, kr⟩ := ih (ii + 1) h1 (by omega) (by rw [hxr]; omega) (by rw [ho]; simp; omega)
      rw [hxr, hv] at kv kr
      rw [hs]
      refine ⟨h2, by omega, fun l a b => (kf l a b).trans (hf l a b), ?_⟩
      generalize runLoop pstep r2 ((h.read x).drop (ii + 1)) = z at kv kr ⊢
      obtain ⟨_ | ys, p⟩ := z
      · exact ⟨kv, kr⟩
      · refine ⟨kv, kr.1, ?_⟩
        simp only at kr
        rw [kr.2, ho, List.take_succ, List.take_set_of_le (Nat.le_refl _), List.getElem?_set_self (by omega)]
        simp

theorem FirRef.step_spec [Dot R] (f : FirRef R) (x y : ℕ) (N : ℕ) (hs : f.s < N) (hy : y < N) (hbs : f.b ≠ f.s)
    (hxs : x ≠ f.s) (hys : y ≠ f.s) (hyb : y ≠ f.b) : StepSpec (f.step x y) f.view Fir.step N f.s x y := by
  intro h ii v hN hv
  have hsl : f.s < h.length := by omega
  by_cases hb0 : (h.read f.b).length = 0
  · refine ⟨h, rfl, fun _ _ _ => rfl, ?_, ?_⟩
    · simp [Fir.step, FirRef.view, hb0]
    · simp [Fir.step, FirRef.view, FirRef.step, hb0]
  obtain ⟨h1, hh1⟩ : ∃ h1, h1 = if (h.read f.s).length > 1 then h.store f.s (shiftRight (h.read f.s)) else h := ⟨_, rfl⟩
  have l1 : h1.length = h.length := by rw [hh1]; split_ifs <;> simp
  have r1 : ∀ l, l ≠ f.s → h1.read l = h.read l := by
    intro l hl; rw [hh1]; split_ifs
    · exact h.read_store_ne _ _ _ hl
    · rfl
  have s1 : h1.read f.s = if (h.read f.s).length > 1 then shiftRight (h.read f.s) else h.read f.s := by
    rw [hh1]; split_ifs
    · exact Heap.read_store_self _ _ _ hsl
    · rfl
  have hst : f.step x y h ii = match (h1.read x)[ii]? with
    | none => (.error .indexError, h1)
    | some v =>
      match h1.read f.s with
      | [] => (.error .indexError, h1)
      | _ :: t =>
        let h := h1.store f.s (f.cast v :: t)
        if (h.read f.b).length = (h.read f.s).length then
          (.ok (), h.store y ((h.read y).set ii (f.cast (dot (h.read f.b) (h.read f.s)))))
        else (.error .valueError, h) := by rw [hh1]; unfold FirRef.step; rw [if_neg hb0]; rfl
  have hpure : (f.view h).step v = match h1.read f.s with
      | [] => (.error .indexError, f.view h)
      | _ :: t =>
        let f' := { f.view h with s := f.cast v :: t }
        if (h.read f.b).length = f'.s.length then (.ok (f.cast (dot (h.read f.b) f'.s)), f') else (.error .valueError, f') := by
    rw [s1]; unfold Fir.step; rw [if_neg (show ¬ (f.view h).b.length = 0 from hb0)]; rfl
  rw [hst, r1 x hxs, hv, hpure]
  simp only [FirRef.view]
  rcases hc : h1.read f.s with _ | ⟨c, t⟩
  · refine ⟨h1, l1, fun l hl _ => r1 l hl, ?_, rfl⟩
    have : h.read f.s = [] := by
      rw [s1] at hc
      rcases hz : h.read f.s with _ | ⟨a, u⟩
      · rfl
      · rw [hz] at hc; split_ifs at hc <;> simp [shiftRight] at hc
    simp [r1 f.b hbs, hc, this]
  · have e1 : (h1.store f.s (f.cast v :: t)).read f.s = f.cast v :: t := h1.read_store_self _ _ (by omega)
    have e2 : ∀ l, l ≠ f.s → (h1.store f.s (f.cast v :: t)).read l = h.read l := fun l hl => by
      rw [h1.read_store_ne _ _ _ hl, r1 l hl]
    simp only [e1, e2 f.b hbs, e2 y hys]
    by_cases hlen : (h.read f.b).length = (f.cast v :: t).length
    · simp only [hlen, if_true]
      refine ⟨_, by simp [l1], fun l a b => ?_, ?_, rfl, ?_⟩
      · rw [Heap.read_store_ne _ _ _ _ b, e2 l a]
      · rw [Heap.read_store_ne _ _ _ _ (Ne.symm hyb), Heap.read_store_ne _ _ _ _ (Ne.symm hys), e1, e2 _ hbs]
      · exact Heap.read_store_self _ _ _ (by simp; omega)
    · simp only [hlen, if_false]
      exact ⟨_, by simp [l1], fun l a _ => e2 l a, by rw [e1, e2 _ hbs], rfl⟩

theorem IirRef.step_spec [Add R] [Mul R] [Dot R] (f : IirRef R) (x y : ℕ) (N : ℕ) (hs : f.s < N) (hy : y < N)
    (hbs : f.b ≠ f.s) (has : f.a ≠ f.s) (hxs : x ≠ f.s) (hys : y ≠ f.s) (hyb : y ≠ f.b) (hya : y ≠ f.a) :
    StepSpec (f.step x y) f.view Iir.step N f.s x y := by
  intro h ii v hN hv
  have hsl : f.s < h.length := by omega
  by_cases hb0 : (h.read f.b).length = 0
  · refine ⟨h, rfl, fun _ _ _ => rfl, ?_, ?_⟩
    · simp [Iir.step, IirRef.view, hb0]
    · simp [Iir.step, IirRef.view, IirRef.step, hb0]
  by_cases hbad : (h.read f.s).length > 1 ∧ (h.read f.a).length ≠ (h.read f.s).length
  · refine ⟨h, rfl, fun _ _ _ => rfl, ?_, ?_⟩
    · simp [Iir.step, IirRef.view, hb0, hbad.1, hbad.2]
    · simp [Iir.step, IirRef.view, IirRef.step, hb0, hbad.1, hbad.2]
  obtain ⟨h1, hh1⟩ : ∃ h1, h1 = if (h.read f.s).length > 1 then
      (h.store f.s ((h.read f.s).modifyHead fun s0 => f.cast (s0 + dot (h.read f.a) (h.read f.s)))).store f.s
        (shiftRight ((h.read f.s).modifyHead fun s0 => f.cast (s0 + dot (h.read f.a) (h.read f.s)))) else h := ⟨_, rfl⟩
  have l1 : h1.length = h.length := by rw [hh1]; split_ifs <;> simp
  have r1 : ∀ l, l ≠ f.s → h1.read l = h.read l := by
    intro l hl; rw [hh1]; split_ifs
    · rw [Heap.read_store_ne _ _ _ _ hl, Heap.read_store_ne _ _ _ _ hl]
    · rfl
  have s1 : h1.read f.s = if (h.read f.s).length > 1 then
      shiftRight ((h.read f.s).modifyHead fun s0 => f.cast (s0 + dot (h.read f.a) (h.read f.s))) else h.read f.s := by
    rw [hh1]; split_ifs
    · exact Heap.read_store_self _ _ _ (by simpa using hsl)
    · rfl
  have hst : f.step x y h ii = match (h1.read x)[ii]? with
    | none => (.error .indexError, h1)
    | some v =>
      match h1.read f.s with
      | [] => (.error .indexError, h1)
      | _ :: t =>
        let h := h1.store f.s (f.cast v :: t)
        match h.read f.b with
        | [] => (.error .indexError, h)
        | b0 :: _ =>
          match bcAdd ((h.read f.a).map (· * b0)) (h.read f.b) with
          | .error e => (.error e, h)
          | .ok c =>
            if c.length = (h.read f.s).length then
              (.ok (), h.store y ((h.read y).set ii (f.cast (dot c (h.read f.s)))))
            else (.error .valueError, h) := by
    rw [hh1]
    by_cases hgt : (h.read f.s).length > 1
    · have hal : (h.read f.a).length = (h.read f.s).length := by
        by_contra hne; exact hbad ⟨hgt, hne⟩
      simp only [IirRef.step, hb0, hgt, hal, if_true]
      rw [Heap.read_store_self _ _ _ hsl]
      rfl
    · simp only [IirRef.step, hb0, hgt, if_false]
      rfl
  have hpure : (f.view h).step v = match h1.read f.s with
      | [] => (.error .indexError, f.view h)
      | _ :: t =>
        let f' := { f.view h with s := f.cast v :: t }
        match h.read f.b with
        | [] => (.error .indexError, f')
        | b0 :: _ =>
          match bcAdd ((h.read f.a).map (· * b0)) (h.read f.b) with
          | .error e => (.error e, f')
          | .ok c =>
            if c.length = f'.s.length then (.ok (f.cast (dot c f'.s)), f') else (.error .valueError, f') := by
    rw [s1]
    by_cases hgt : (h.read f.s).length > 1
    · have hal : (h.read f.a).length = (h.read f.s).length := by
        by_contra hne; exact hbad ⟨hgt, hne⟩
      simp only [Iir.step, IirRef.view, hb0, hgt, hal, if_true]
      generalize shiftRight ((h.read f.s).modifyHead fun s0 => f.cast (s0 + dot (h.read f.a) (h.read f.s))) = w
      cases w <;> rfl
    · simp only [Iir.step, IirRef.view, hb0, hgt, if_false]
      generalize h.read f.s = w
      cases w <;> rfl
  rw [hst, r1 x hxs, hv, hpure]
  simp only [IirRef.view]
  rcases hc : h1.read f.s with _ | ⟨c, t⟩
  · refine ⟨h1, l1, fun l hl _ => r1 l hl, ?_, rfl⟩
    have : h.read f.s = [] := by
      rw [s1] at hc
      rcases hz : h.read f.s with _ | ⟨a, u⟩
      · rfl
      · rw [hz] at hc; split_ifs at hc <;> simp [shiftRight] at hc
    simp [r1 f.b hbs, r1 f.a has, hc, this]
  · have e1 : (h1.store f.s (f.cast v :: t)).read f.s = f.cast v :: t := h1.read_store_self _ _ (by omega)
    have e2 : ∀ l, l ≠ f.s → (h1.store f.s (f.cast v :: t)).read l = h.read l := fun l hl => by
      rw [h1.read_store_ne _ _ _ hl, r1 l hl]
    simp only [e1, e2 f.b hbs, e2 f.a has, e2 y hys]
    rcases hb : h.read f.b with _ | ⟨b0, bt⟩
    · exact ⟨_, by simp [l1], fun l p _ => e2 l p, by simp only [e1, e2 _ hbs, e2 _ has, hb], rfl⟩
    · rcases hadd : bcAdd ((h.read f.a).map (· * b0)) (b0 :: bt) with e | c'
      · exact ⟨_, by simp [l1], fun l p _ => e2 l p, by simp only [e1, e2 _ hbs, e2 _ has, hb, hadd], by simp only [hadd]⟩
      · by_cases hlen : c'.length = (f.cast v :: t).length
        · simp only [hadd, hlen, if_true]
          refine ⟨_, by simp [l1], fun l p q => ?_, ?_, rfl, ?_⟩
          · rw [Heap.read_store_ne _ _ _ _ q, e2 l p]
          · rw [Heap.read_store_ne _ _ _ _ (Ne.symm hyb), Heap.read_store_ne _ _ _ _ (Ne.symm hys),
              Heap.read_store_ne _ _ _ _ (Ne.symm hya), e1, e2 _ hbs, e2 _ has, hb]
          · exact Heap.read_store_self _ _ _ (by simp; omega)
        · simp only [hadd, hlen, if_false]
          exact ⟨_, by simp [l1], fun l p _ => e2 l p, by rw [e1, e2 _ hbs, e2 _ has, hb], rfl⟩

theorem Arg.toArray_spec (h : Heap R) (x : Arg R) (hx : ∀ l, x = .array l → l < h.length) :
    (x.toArray h).1 < (x.toArray h).2.length ∧ h.length ≤ (x.toArray h).2.length ∧
    (x.toArray h).2.read (x.toArray h).1 = x.read h ∧ (∀ l < h.length, (x.toArray h).2.read l = h.read l) ∧
    ((x.toArray h).1 < h.length → x = .array (x.toArray h).1) := by
  cases x with
  | list v =>
    refine ⟨by simp [Arg.toArray], by simp [Arg.toArray], by simp [Arg.toArray, Arg.read], fun l hl => h.read_alloc_lt _ _ hl, ?_⟩
    simp [Arg.toArray]
  | array l => exact ⟨hx l rfl, Nat.le_refl _, rfl, fun _ _ => rfl, fun _ => rfl⟩

theorem filter_spec_of {R P : Type*} [Zero R] (h : Heap R) (x : Arg R) (hx : ∀ l, x = .array l → l < h.length)
    (step : ℕ → ℕ → Heap R → ℕ → Res Unit × Heap R) (view : Heap R → P) (pstep : P → R → Res R × P) (s : ℕ)
    (hs : s < h.length) (hxs : x ≠ .array s)
    (hview : ∀ h' : Heap R, (∀ l < h.length, h'.read l = h.read l) → view h' = view h)
    (H : ∀ x y N, h.length ≤ y → y < N → x ≠ s → StepSpec (step x y) view pstep N s x y)
    (r : Res ℕ × Heap R) (hr : r =
      if ((x.toArray h).2.read (x.toArray h).1).length = 0 then (.error .valueError, (x.toArray h).2)
      else match heapLoop (step (x.toArray h).1 ((x.toArray h).2.alloc (List.replicate ((x.toArray h).2.read (x.toArray h).1).length 0)).1)
          0 ((x.toArray h).2.read (x.toArray h).1).length
          ((x.toArray h).2.alloc (List.replicate ((x.toArray h).2.read (x.toArray h).1).length 0)).2 with
        | (.error e, h) => (.error e, h)
        | (.ok (), g) => (.ok ((x.toArray h).2.alloc (List.replicate ((x.toArray h).2.read (x.toArray h).1).length 0)).1, g)) :
    h.length ≤ r.2.length ∧ (∀ l < h.length, l ≠ s → r.2.read l = h.read l) ∧
    view r.2 = (if (x.read h).length = 0 then (Except.error PyErr.valueError, view h) else runLoop pstep (view h) (x.read h)).2 ∧
    (∀ e, (if (x.read h).length = 0 then (Except.error PyErr.valueError, view h) else runLoop pstep (view h) (x.read h)).1 = .error e →
      r.1 = .error e) ∧
    ∀ ys, (if (x.read h).length = 0 then (Except.error PyErr.valueError, view h) else runLoop pstep (view h) (x.read h)).1 = .ok ys →
      ∃ y, r.1 = .ok y ∧ h.length ≤ y ∧ y < r.2.length ∧ r.2.read y = ys := by
  obtain ⟨a1, a2, a3, a4, a5⟩ := x.toArray_spec h hx
  obtain ⟨p, hp⟩ : ∃ p, p = x.toArray h := ⟨_, rfl⟩
  rw [← hp] at a1 a2 a3 a4 a5 hr
  rw [a3] at hr
  by_cases h0 : (x.read h).length = 0
  · simp only [h0, if_true] at hr ⊢
    subst hr
    exact ⟨a2, fun l hl _ => a4 l hl, hview _ a4, fun e he => by cases he; rfl, fun ys hys => by cases hys⟩
  · simp only [h0, if_false] at hr ⊢
    obtain ⟨q, hq⟩ : ∃ q, q = p.2.alloc (List.replicate (x.read h).length (0 : R)) := ⟨_, rfl⟩
    have q1 : q.1 = p.2.length := by rw [hq]; rfl
    have q2 : q.2.length = p.2.length + 1 := by rw [hq]; simp
    have q3 : q.2.read q.1 = List.replicate (x.read h).length (0 : R) := by rw [hq]; simp
    have q4 : ∀ l < p.2.length, q.2.read l = p.2.read l := fun l hl => by rw [hq]; exact p.2.read_alloc_lt _ _ hl
    have q5 : ∀ l < h.length, q.2.read l = h.read l := fun l hl => by rw [q4 l (by omega), a4 l hl]
    rw [← hq] at hr
    have hps : p.1 ≠ s := by
      intro he
      exact hxs (he ▸ a5 (by omega))
    have hpx : q.2.read p.1 = x.read h := by rw [q4 p.1 a1, a3]
    obtain ⟨g, g1, g2, g3, g4⟩ := heapLoop_spec (step p.1 q.1) view pstep q.2.length s p.1 q.1
      (H p.1 q.1 q.2.length (by omega) (by omega) hps) hps (by omega) (x.read h).length 0 q.2 (Nat.le_refl _)
      (by rw [hpx]; omega) (by rw [q3]; simp)
    rw [hpx, List.drop_zero, hview _ q5] at g3 g4
    have hfr : ∀ l < h.length, l ≠ s → g.read l = h.read l := fun l hl hls => by
      rw [g2 l hls (by omega), q5 l hl]
    generalize runLoop pstep (view h) (x.read h) = z at g3 g4 ⊢
    obtain ⟨_ | ys, p'⟩ := z
    · simp only at g3 g4
      rw [g4] at hr
      subst hr
      exact ⟨by simp only; omega, hfr, g3, fun e he => by cases he; rfl, fun ys hys => by cases hys⟩
    · simp only [List.take_zero, List.nil_append] at g3 g4
      rw [g4.1] at hr
      subst hr
      refine ⟨by simp only; omega, hfr, g3, fun e he => (by cases he), fun ys' hys => ?_⟩
      cases hys
      exact ⟨q.1, rfl, by omega, by simp only; omega, g4.2⟩

/-- All arrays of `h` exist in `h'` with the same contents. -/
def Heap.Ext (h h' : Heap R) : Prop := h.length ≤ h'.length ∧ ∀ l < h.length, h'.read l = h.read l

theorem Heap.Ext.refl (h : Heap R) : h.Ext h := ⟨Nat.le_refl _, fun _ _ => rfl⟩

theorem Heap.Ext.trans {h k m : Heap R} (a : h.Ext k) (b : k.Ext m) : h.Ext m :=
  ⟨Nat.le_trans a.1 b.1, fun l hl => (b.2 l (Nat.lt_of_lt_of_le hl a.1)).trans (a.2 l hl)⟩

theorem Heap.ext_alloc (h : Heap R) (v : List R) : h.Ext (h.alloc v).2 :=
  ⟨by simp, fun l hl => h.read_alloc_lt v l hl⟩

theorem Arg.read_ext {h k : Heap R} (e : h.Ext k) (x : Arg R) (hx : ∀ l, x = .array l → l < h.length) : x.read k = x.read h := by
  cases x with
  | list v => rfl
  | array l => exact e.2 l (hx l rfl)

theorem Arg.ok_ext {h k : Heap R} (e : h.Ext k) (x : Arg R) (hx : ∀ l, x = .array l → l < h.length) :
    ∀ l, x = .array l → l < k.length := fun l hl => Nat.lt_of_lt_of_le (hx l hl) e.1

theorem Heap.pad_spec [Zero R] (h : Heap R) (v n : ℕ) (hv : v < h.length) : h.Ext (h.pad v n).2 ∧
    (h.pad v n).1 < (h.pad v n).2.length ∧
    (h.pad v n).2.read (h.pad v n).1 = if (h.read v).length < n then padTo n (h.read v) else h.read v := by
  simp only [Heap.pad]
  split_ifs
  · exact ⟨h.ext_alloc _, by simp, by simp⟩
  · exact ⟨.refl _, hv, rfl⟩

theorem FirRef.new_spec [Zero R] (cast : R → R) (h : Heap R) (b : Arg R) (s : Option (Arg R))
    (hb : ∀ l, b = .array l → l < h.length) (hs : ∀ l, s = some (.array l) → l < h.length) :
    h.Ext (FirRef.new cast h b s).2 ∧
    match Fir.new cast (b.read h) (s.map fun a => a.read h) with
    | .error e => (FirRef.new cast h b s).1 = .error e
    | .ok p => ∃ f, (FirRef.new cast h b s).1 = .ok f ∧ h.length ≤ f.b ∧ h.length ≤ f.s ∧ f.b ≠ f.s ∧
      f.b < (FirRef.new cast h b s).2.length ∧ f.s < (FirRef.new cast h b s).2.length ∧
      f.view (FirRef.new cast h b s).2 = p := by
  obtain ⟨a1, a2, a3, a4, _⟩ := b.toArray_spec h hb
  have hbe : h.Ext (b.toArray h).2 := ⟨a2, a4⟩
  obtain ⟨s0, hs0⟩ : ∃ s0, s0 = s.getD (.list []) := ⟨_, rfl⟩
  have hs1 : ∀ l, s0 = .array l → l < h.length := by
    intro l hl
    cases s with
    | none => rw [hs0] at hl; cases hl
    | some a => exact hs l (by rw [hs0] at hl; simpa using hl)
  have hs2 : (s.map fun a => a.read h).getD [] = s0.read h := by
    cases s with
    | none => rw [hs0]; rfl
    | some a => rw [hs0]; rfl
  simp only [FirRef.new, Fir.new, a3, hs2, ← hs0]
  by_cases h0 : (b.read h).length = 0
  · rw [if_pos h0, if_pos h0]; exact ⟨hbe, rfl⟩
  · rw [if_neg h0, if_neg h0]
    generalize b.toArray h = p at a1 a2 a3 a4 hbe ⊢
    obtain ⟨c1, c2, c3, c4, _⟩ := s0.toArray_spec p.2 (Arg.ok_ext hbe _ hs1)
    have hce : p.2.Ext (s0.toArray p.2).2 := ⟨c2, c4⟩
    rw [Arg.read_ext hbe _ hs1] at c3
    generalize s0.toArray p.2 = q at c1 c2 c3 c4 hce ⊢
    have hqp : q.2.read p.1 = b.read h := by rw [hce.2 _ a1, a3]
    obtain ⟨d1, d2, d3⟩ := q.2.pad_spec p.1 (q.2.read q.1).length (Nat.lt_of_lt_of_le a1 hce.1)
    rw [hqp, c3] at d3
    rw [c3] at d1 d2
    rw [c3]
    generalize q.2.pad p.1 (s0.read h).length = u at d1 d2 d3 ⊢
    have huq : u.2.read q.1 = s0.read h := by rw [d1.2 _ c1, c3]
    obtain ⟨e1, e2, e3⟩ := u.2.pad_spec q.1 (u.2.read u.1).length (Nat.lt_of_lt_of_le c1 d1.1)
    rw [huq, d3] at e3
    rw [d3] at e1 e2
    rw [d3]
    generalize hw : u.2.pad q.1 _ = w at e1 e2 e3 ⊢
    have hwu : w.2.read u.1 = _ := (e1.2 _ d2).trans d3
    have hh : h.length ≤ w.2.length := by
      have := hbe.1; have := hce.1; have := d1.1; have := e1.1; omega
    refine ⟨(hbe.trans hce).trans ((d1.trans e1).trans ((w.2.ext_alloc _).trans (Heap.ext_alloc _ _))), _, rfl, ?_, ?_, ?_, ?_, ?_, ?_⟩
    · simpa using hh
    · simp; omega
    · simp
    · simp; omega
    · simp
    · simp only [FirRef.view, Heap.alloc_loc]
      rw [Heap.read_alloc_self, Heap.read_alloc_lt _ _ _ (by simp), Heap.read_alloc_self, Heap.read_alloc_lt _ _ _ e2, hwu, e3]

theorem IirRef.new_spec [Zero R] [DecidableEq R] (cast : R → R) (h : Heap R) (a b s : Option (Arg R))
    (ha : ∀ l, a = some (.array l) → l < h.length) (hb : ∀ l, b = some (.array l) → l < h.length)
    (hs : ∀ l, s = some (.array l) → l < h.length) :
    h.Ext (IirRef.new cast h a b s).2 ∧
    match Iir.new cast (a.map fun a => a.read h) (b.map fun a => a.read h) (s.map fun a => a.read h) with
    | .error e => (IirRef.new cast h a b s).1 = .error e
    | .ok p => ∃ f, (IirRef.new cast h a b s).1 = .ok f ∧ h.length ≤ f.a ∧ h.length ≤ f.b ∧ h.length ≤ f.s ∧ f.a ≠ f.s ∧
      f.b ≠ f.s ∧ f.a < (IirRef.new cast h a b s).2.length ∧ f.b < (IirRef.new cast h a b s).2.length ∧
      f.s < (IirRef.new cast h a b s).2.length ∧ f.view (IirRef.new cast h a b s).2 = p := by
  have key : ∀ o : Option (Arg R), (∀ l, o = some (.array l) → l < h.length) →
      (∀ l, o.getD (.list []) = .array l → l < h.length) ∧ (o.map fun a => a.read h).getD [] = (o.getD (.list [])).read h := by
    intro o ho
    cases o with
    | none => exact ⟨fun l hl => (by cases hl), rfl⟩
    | some v => exact ⟨fun l hl => ho l (by simpa using hl), rfl⟩
  obtain ⟨ha1, ha2⟩ := key a ha
  obtain ⟨hb1, hb2⟩ := key b hb
  simp only [IirRef.new, Iir.new, ha2, hb2]
  generalize a.getD (.list []) = a0 at ha1 ⊢
  generalize b.getD (.list []) = b0 at hb1 ⊢
  by_cases h00 : (a0.read h).length = 0 ∧ (b0.read h).length = 0
  · simp only [h00, and_self, if_true]; exact ⟨.refl _, trivial⟩
  simp only [h00, if_false]
  obtain ⟨c1, c2, c3, c4, _⟩ := a0.toArray_spec h ha1
  have hae : h.Ext (a0.toArray h).2 := ⟨c2, c4⟩
  rw [c3]
  generalize a0.toArray h = p at c1 c2 c3 c4 hae ⊢
  by_cases h01 : (a0.read h).length > 0 ∧ (a0.read h).head? ≠ some 0
  · rw [if_pos h01, if_pos h01]; exact ⟨hae, rfl⟩
  rw [if_neg h01, if_neg h01]
  rw [Arg.read_ext hae _ hb1]
  obtain ⟨d1, d2, d3⟩ := p.2.pad_spec p.1 (b0.read h).length c1
  rw [c3] at d3
  generalize p.2.pad p.1 (b0.read h).length = q at d1 d2 d3 ⊢
  have hqe : h.Ext q.2 := hae.trans d1
  rw [Arg.read_ext hqe _ hb1, d3]
  generalize (if (a0.read h).length < (b0.read h).length then padTo (b0.read h).length (a0.read h) else a0.read h) = a' at d3 ⊢
  obtain ⟨w, hw⟩ : ∃ w : Arg R × Heap R, w = if (b0.read h).length < a'.length then
    (.array (q.2.alloc (padTo a'.length (b0.read h))).1, (q.2.alloc (padTo a'.length (b0.read h))).2) else (b0, q.2) := ⟨_, rfl⟩
  rw [← hw]
  have w1 : q.2.Ext w.2 := by
    rw [hw]; split_ifs
    · exact Heap.ext_alloc _ _
    · exact .refl _
  have w2 : ∀ l, w.1 = .array l → l < w.2.length := by
    intro l hl
    rw [hw] at hl ⊢
    split_ifs at hl ⊢
    · simp only [Arg.array.injEq] at hl
      rw [← hl]; simp
    · exact Arg.ok_ext hqe _ hb1 l hl
  have w3 : w.1.read w.2 = if (b0.read h).length < a'.length then padTo a'.length (b0.read h) else b0.read h := by
    rw [hw]; split_ifs
    · simp [Arg.read]
    · exact Arg.read_ext hqe _ hb1
  have wa : w.2.read q.1 = a' := by rw [w1.2 _ d2, d3]
  rw [wa, ← w3]
  have hwe := hqe.trans w1
  by_cases h02 : a'.head? ≠ some 0
  · rw [if_pos h02, if_pos h02]; exact ⟨hwe, rfl⟩
  rw [if_neg h02, if_neg h02]
  obtain ⟨f1, f2⟩ := FirRef.new_spec cast w.2 w.1 s w2 (fun l hl => Nat.lt_of_lt_of_le (hs l hl) hwe.1)
  have hsm : (s.map fun a => a.read w.2) = s.map fun a => a.read h := by
    cases s with
    | none => rfl
    | some v =>
      rw [Option.map_some, Option.map_some, Arg.read_ext hwe v (fun l hl => hs l (by rw [hl]))]
  rw [hsm] at f2
  generalize FirRef.new cast w.2 w.1 s = r at f1 f2 ⊢
  obtain ⟨r1, r2⟩ := r
  cases hn : Fir.new cast (w.1.read w.2) (s.map fun a => a.read h) with
  | error e =>
    rw [hn] at f2
    simp only at f2
    subst f2
    exact ⟨hwe.trans f1, rfl⟩
  | ok pf =>
    rw [hn] at f2
    obtain ⟨f, g1, g2, g3, g4, g5, g6, g7⟩ := f2
    simp only at g1 g5 g6 g7 f1
    subst g1
    have := hwe.1
    have hq1 : q.1 < r2.length := Nat.lt_of_lt_of_le d2 (w1.trans f1).1
    refine ⟨hwe.trans (f1.trans (Heap.ext_alloc _ _)), _, rfl, ?_, ?_, ?_, ?_, g4, ?_, ?_, ?_, ?_⟩
    · have := f1.1; simp; omega
    · simp only; omega
    · simp only; omega
    · simp; omega
    · simp
    · simp; omega
    · simp; omega
    · simp only [IirRef.view, Heap.alloc_loc]
      rw [Heap.read_alloc_self, Heap.read_alloc_lt _ _ _ g5, Heap.read_alloc_lt _ _ _ g6, f1.2 _ (Nat.lt_of_lt_of_le d2 w1.1), wa, ← g7]
      rfl

end Verif
