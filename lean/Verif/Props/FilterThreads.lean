import Verif.Model.FilterThreads
import Verif.Model.Exact
import Verif.Lemmas.Threads

/-!
Property C123: filters used by several threads (diamondback/filters/fir_filter.py, diamondback/filters/iir_filter.py).
-/

namespace Verif.Spec

open Verif

/-- Calls made one after another, without any other thread: the arrays afterwards and the results. -/
def alone {S Q : Type} : List (Prog S Q) → S → S × List Q
  | [], s => (s, [])
  | p :: t, s => ((alone t (p.run s).1).1, (p.run s).2 :: (alone t (p.run s).1).2)

/-- The program reads arrays at `rd` only, and changes arrays at `wr` only. -/
def Touches {R Q : Type} (rd wr : Set ℕ) : Prog (Arrays R) Q → Prop
  | .ret _ => True
  | .act f k => (∀ s, ∀ l, l ∉ wr → f s l = s l) ∧ (∀ s s' : Arrays R, (∀ l ∈ rd, s l = s' l) → (∀ l ∈ rd, f s l = f s' l) ∧ k s = k s') ∧ ∀ s, Touches rd wr (k s)
  | .acq k => Touches rd wr k
  | .rel k => Touches rd wr k

end Verif.Spec

namespace Verif.Props

open Spec

variable {R Q : Type}

/-! ### One thread -/

private theorem step_one {S Q : Type} (f : S → S) (k : S → Prog S Q) (s : S) : (Prog.act f k).run s = (k s).run (f s) := rfl

private theorem fir_loop_alone [Dot R] (f : FirRef R) (x y : ℕ) (hyx : y ≠ x) (hyb : y ≠ f.b) (hys : y ≠ f.s) (hxs : x ≠ f.s) (hbs : f.b ≠ f.s) :
    ∀ (n ii : ℕ) (s : Arrays R), (s f.b).length ≠ 0 → (s x).length = ii + n → (s y).length = ii + n →
      ((f.loop x y ii n).run s).2 = (runLoop Fir.step ⟨f.cast, s f.b, s f.s⟩ ((s x).drop ii)).1.map (fun _ => ()) ∧
      ((f.loop x y ii n).run s).1 f.s = (runLoop Fir.step ⟨f.cast, s f.b, s f.s⟩ ((s x).drop ii)).2.s ∧
      (∀ ys, (runLoop Fir.step ⟨f.cast, s f.b, s f.s⟩ ((s x).drop ii)).1 = .ok ys → ((f.loop x y ii n).run s).1 y = (s y).take ii ++ ys) ∧
      ∀ l, l ≠ f.s → l ≠ y → ((f.loop x y ii n).run s).1 l = s l := by
  intro n
  induction n with
  | zero =>
    intro ii s hb0 hx hy
    rw [List.drop_eq_nil_of_le (by omega)]
    refine ⟨rfl, rfl, fun ys h => ?_, fun l _ _ => rfl⟩
    have : ys = [] := (Except.ok.inj h).symm
    rw [this, List.append_nil, List.take_of_length_le (by omega)]
    rfl
  | succ n ih =>
    intro ii s hb0 hx hy
    have hii : ii < (s x).length := by omega
    rw [List.drop_eq_getElem_cons hii]
    obtain ⟨v, hv⟩ : ∃ v, v = (s x)[ii] := ⟨_, rfl⟩
    have hv? : (s x)[ii]? = some v := by rw [List.getElem?_eq_getElem hii, hv]
    rw [← hv]
    obtain ⟨s1, hs1⟩ : ∃ s1, s1 = if (s f.s).length > 1 then shiftRight (s f.s) else s f.s := ⟨_, rfl⟩
    rw [FirRef.loop]
    simp only [assign, step_one]
    rw [← hs1]
    simp only [Function.update_of_ne hxs, Function.update_self, hv?, Option.isNone_some, Bool.false_eq_true, false_or]
    rw [runLoop]
    rcases s1 with _ | ⟨a, t⟩
    · have hst : Fir.step ⟨f.cast, s f.b, s f.s⟩ v = (.error .indexError, ⟨f.cast, s f.b, s f.s⟩) := by
        unfold Fir.step; simp only [hb0, if_false]; rw [← hs1]
      rw [hst]
      simp only [List.length_nil, if_true, Prog.run, List.modifyHead_nil, Function.update_idem]
      refine ⟨rfl, ?_, fun ys h => (by cases h), fun l h1 h2 => Function.update_of_ne h1 _ _⟩
      simp only [Function.update_self]
      by_cases h : (s f.s).length > 1
      · rw [if_pos h] at hs1
        rcases hq : s f.s with _ | ⟨p, q⟩
        · rfl
        · rw [hq] at hs1; simp [shiftRight] at hs1
      · rw [if_neg h] at hs1; exact hs1
    · simp only [List.length_cons, Nat.add_eq_zero_iff, one_ne_zero, and_false, if_false, List.modifyHead_cons, Function.update_idem]
      simp only [step_one, Function.update_of_ne hbs, Function.update_self, Function.update_of_ne hys, List.length_cons]
      have hst : Fir.step ⟨f.cast, s f.b, s f.s⟩ v = if (s f.b).length = t.length + 1 then (.ok (f.cast (dot (s f.b) (f.cast v :: t))), ⟨f.cast, s f.b, f.cast v :: t⟩)
          else (.error .valueError, ⟨f.cast, s f.b, f.cast v :: t⟩) := by
        unfold Fir.step; simp only [hb0, if_false]; rw [← hs1]; rfl
      rw [hst]
      by_cases hl : (s f.b).length = t.length + 1
      · simp only [hl, if_true]
        obtain ⟨o, ho⟩ : ∃ o, o = f.cast (dot (s f.b) (f.cast v :: t)) := ⟨_, rfl⟩
        rw [← ho]
        obtain ⟨S, hS⟩ : ∃ S : Arrays R, S = Function.update (Function.update s f.s (f.cast v :: t)) y ((s y).set ii o) := ⟨_, rfl⟩
        rw [← hS]
        have Sx : S x = s x := by rw [hS, Function.update_of_ne hyx.symm, Function.update_of_ne hxs]
        have Sb : S f.b = s f.b := by rw [hS, Function.update_of_ne hyb.symm, Function.update_of_ne hbs]
        have Ss : S f.s = f.cast v :: t := by rw [hS, Function.update_of_ne hys.symm, Function.update_self]
        have Sy : S y = (s y).set ii o := by rw [hS, Function.update_self]
        obtain ⟨i1, i2, i3, i4⟩ := ih (ii + 1) S (by rw [Sb]; exact hb0) (by rw [Sx]; omega) (by rw [Sy, List.length_set]; omega)
        rw [Sx, Sb, Ss] at i1 i2 i3
        refine ⟨?_, ?_, ?_, ?_⟩
        · rw [i1]
          generalize runLoop Fir.step ⟨f.cast, s f.b, f.cast v :: t⟩ ((s x).drop (ii + 1)) = r
          obtain ⟨_ | z, g⟩ := r <;> rfl
        · rw [i2]
          generalize runLoop Fir.step ⟨f.cast, s f.b, f.cast v :: t⟩ ((s x).drop (ii + 1)) = r
          obtain ⟨_ | z, g⟩ := r <;> rfl
        · intro ys h
          generalize hr : runLoop Fir.step ⟨f.cast, s f.b, f.cast v :: t⟩ ((s x).drop (ii + 1)) = r at i3 h
          obtain ⟨e | z, g⟩ := r
          · cases h
          · have hy' : ys = o :: z := (Except.ok.inj h).symm
            rw [i3 z rfl, Sy, hy', List.take_set, List.take_add_one, List.set_append_right _ _ (by rw [List.length_take]; omega)]
            rw [List.getElem?_eq_getElem (by omega)]
            simp only [List.length_take, Nat.min_eq_left (show ii ≤ (s y).length by omega), Nat.sub_self, Option.toList_some, List.set_cons_zero]
            simp
        · intro l h1 h2
          rw [i4 l h1 h2, hS, Function.update_of_ne h2, Function.update_of_ne h1]
      · simp only [hl, if_false, Prog.run]
        refine ⟨rfl, ?_, fun ys h => (by cases h), fun l h1 h2 => ?_⟩
        · rw [Function.update_of_ne hys.symm, Function.update_self]
        · rw [Function.update_of_ne h2, Function.update_of_ne h1]

private theorem iir_loop_alone [Add R] [Mul R] [Dot R] (f : IirRef R) (x y : ℕ) (hyx : y ≠ x) (hya : y ≠ f.a) (hyb : y ≠ f.b) (hys : y ≠ f.s) (hxs : x ≠ f.s) (has : f.a ≠ f.s)
    (hbs : f.b ≠ f.s) : ∀ (n ii : ℕ) (s : Arrays R), (s f.b).length ≠ 0 → (s x).length = ii + n → (s y).length = ii + n →
      ((f.loop x y ii n).run s).2 = (runLoop Iir.step ⟨f.cast, s f.a, s f.b, s f.s⟩ ((s x).drop ii)).1.map (fun _ => ()) ∧
      ((f.loop x y ii n).run s).1 f.s = (runLoop Iir.step ⟨f.cast, s f.a, s f.b, s f.s⟩ ((s x).drop ii)).2.s ∧
      (∀ ys, (runLoop Iir.step ⟨f.cast, s f.a, s f.b, s f.s⟩ ((s x).drop ii)).1 = .ok ys → ((f.loop x y ii n).run s).1 y = (s y).take ii ++ ys) ∧
      ∀ l, l ≠ f.s → l ≠ y → ((f.loop x y ii n).run s).1 l = s l := by
  intro n
  induction n with
  | zero =>
    intro ii s hb0 hx hy
    rw [List.drop_eq_nil_of_le (by omega)]
    refine ⟨rfl, rfl, fun ys h => ?_, fun l _ _ => rfl⟩
    have : ys = [] := (Except.ok.inj h).symm
    rw [this, List.append_nil, List.take_of_length_le (by omega)]
    rfl
  | succ n ih =>
    intro ii s hb0 hx hy
    have hii : ii < (s x).length := by omega
    rw [List.drop_eq_getElem_cons hii]
    obtain ⟨v, hv⟩ : ∃ v, v = (s x)[ii] := ⟨_, rfl⟩
    have hv? : (s x)[ii]? = some v := by rw [List.getElem?_eq_getElem hii, hv]
    rw [← hv]
    rw [IirRef.loop]
    simp only [assign, step_one]
    by_cases hbad : (s f.s).length > 1 ∧ (s f.a).length ≠ (s f.s).length
    · -- line 307 raises
      rw [if_pos hbad]
      rw [if_neg (by tauto), Function.update_eq_self]
      have hst : Iir.step ⟨f.cast, s f.a, s f.b, s f.s⟩ v = (.error .valueError, ⟨f.cast, s f.a, s f.b, s f.s⟩) := by
        unfold Iir.step; simp only [hb0, hbad.1, hbad.2, if_true, if_false]
      rw [runLoop, hst]
      exact ⟨rfl, rfl, fun ys h => (by cases h), fun l _ _ => rfl⟩
    rw [if_neg hbad]
    obtain ⟨s1, hs1⟩ : ∃ s1, s1 = if (s f.s).length > 1 then shiftRight ((s f.s).modifyHead (fun v => f.cast (v + dot (s f.a) (s f.s)))) else s f.s := ⟨_, rfl⟩
    have hgood : (if (s f.s).length > 1 then
        if (s f.a).length = (s f.s).length then (.ok (shiftRight ((s f.s).modifyHead (fun s0 => f.cast (s0 + dot (s f.a) (s f.s))))) : Res (List R)) else .error .valueError
        else .ok (s f.s)) = .ok s1 := by
      by_cases h1 : (s f.s).length > 1
      · have h2 : (s f.a).length = (s f.s).length := by tauto
        rw [if_pos h1, if_pos h2, hs1, if_pos h1]
      · rw [if_neg h1, hs1, if_neg h1]
    have hT : (if (if (s f.s).length > 1 ∧ (s f.a).length = (s f.s).length then (s f.s).modifyHead (fun v => f.cast (v + dot (s f.a) (s f.s))) else s f.s).length > 1 then
          shiftRight (if (s f.s).length > 1 ∧ (s f.a).length = (s f.s).length then (s f.s).modifyHead (fun v => f.cast (v + dot (s f.a) (s f.s))) else s f.s)
        else (if (s f.s).length > 1 ∧ (s f.a).length = (s f.s).length then (s f.s).modifyHead (fun v => f.cast (v + dot (s f.a) (s f.s))) else s f.s)) = s1 := by
      by_cases h1 : (s f.s).length > 1
      · have h2 : (s f.s).length > 1 ∧ (s f.a).length = (s f.s).length := by tauto
        rw [if_pos h2, if_pos (by rw [List.length_modifyHead]; exact h1), hs1, if_pos h1]
      · have h2 : ¬ ((s f.s).length > 1 ∧ (s f.a).length = (s f.s).length) := fun h => h1 h.1
        rw [if_neg h2, if_neg h1, hs1, if_neg h1]
    simp only [step_one, Function.update_self, Function.update_idem]
    rw [hT]
    simp only [Function.update_of_ne hxs, Function.update_self, hv?, Option.isNone_some, Bool.false_eq_true, false_or]
    rw [runLoop]
    rcases s1 with _ | ⟨a, t⟩
    · have hst : Iir.step ⟨f.cast, s f.a, s f.b, s f.s⟩ v = (.error .indexError, ⟨f.cast, s f.a, s f.b, s f.s⟩) := by
        unfold Iir.step; simp only [hb0, if_false]; rw [hgood]
      rw [hst]
      simp only [List.length_nil, if_true, Prog.run, List.modifyHead_nil]
      refine ⟨rfl, ?_, fun ys h => (by cases h), fun l h1 h2 => Function.update_of_ne h1 _ _⟩
      simp only [Function.update_self]
      by_cases h : (s f.s).length > 1
      · rw [if_pos h] at hs1
        rcases hq : s f.s with _ | ⟨p, q⟩
        · rfl
        · rw [hq] at hs1; simp [shiftRight] at hs1
      · rw [if_neg h] at hs1; exact hs1
    · have hst : Iir.step ⟨f.cast, s f.a, s f.b, s f.s⟩ v = match (s f.b).head? with
          | none => (.error .indexError, ⟨f.cast, s f.a, s f.b, f.cast v :: t⟩)
          | some b0 => match bcAdd ((s f.a).map (· * b0)) (s f.b) with
            | .error e => (.error e, ⟨f.cast, s f.a, s f.b, f.cast v :: t⟩)
            | .ok c => if c.length = t.length + 1 then (.ok (f.cast (dot c (f.cast v :: t))), ⟨f.cast, s f.a, s f.b, f.cast v :: t⟩)
              else (.error .valueError, ⟨f.cast, s f.a, s f.b, f.cast v :: t⟩) := by
        unfold Iir.step; simp only [hb0, if_false]; rw [hgood]
        rcases s f.b with _ | ⟨b0, bt⟩
        · rfl
        · rfl
      rw [hst]
      simp only [List.length_cons, Nat.add_eq_zero_iff, one_ne_zero, and_false, if_false, List.modifyHead_cons]
      simp only [step_one, Function.update_of_ne hbs, Function.update_of_ne has, Function.update_self, Function.update_of_ne hys, List.length_cons]
      have same : Function.update (Function.update s f.s (f.cast v :: t)) y (s y) = Function.update s f.s (f.cast v :: t) := by
        have := Function.update_eq_self y (Function.update s f.s (f.cast v :: t))
        rwa [Function.update_of_ne hys] at this
      have fails : ∀ e : PyErr, ((Prog.ret (Except.error e) : Prog (Arrays R) (Res Unit)).run (Function.update s f.s (f.cast v :: t))).2 = .error e ∧
          ((Prog.ret (Except.error e) : Prog (Arrays R) (Res Unit)).run (Function.update s f.s (f.cast v :: t))).1 f.s = f.cast v :: t ∧
          ∀ l, l ≠ f.s → l ≠ y → ((Prog.ret (Except.error e) : Prog (Arrays R) (Res Unit)).run (Function.update s f.s (f.cast v :: t))).1 l = s l :=
        fun e => ⟨rfl, Function.update_self _ _ _, fun l h1 _ => Function.update_of_ne h1 _ _⟩
      rcases hb : (s f.b).head? with _ | b0
      · simp only [same]
        exact ⟨(fails _).1, (fails _).2.1, fun ys h => (by cases h), (fails _).2.2⟩
      simp only
      rcases hc : bcAdd ((s f.a).map (· * b0)) (s f.b) with e | c
      · simp only [same]
        exact ⟨(fails _).1, (fails _).2.1, fun ys h => (by cases h), (fails _).2.2⟩
      simp only
      by_cases hl : c.length = t.length + 1
      · simp only [hl, if_true]
        obtain ⟨o, ho⟩ : ∃ o, o = f.cast (dot c (f.cast v :: t)) := ⟨_, rfl⟩
        rw [← ho]
        obtain ⟨S, hS⟩ : ∃ S : Arrays R, S = Function.update (Function.update s f.s (f.cast v :: t)) y ((s y).set ii o) := ⟨_, rfl⟩
        rw [← hS]
        have Sx : S x = s x := by rw [hS, Function.update_of_ne hyx.symm, Function.update_of_ne hxs]
        have Sa : S f.a = s f.a := by rw [hS, Function.update_of_ne hya.symm, Function.update_of_ne has]
        have Sb : S f.b = s f.b := by rw [hS, Function.update_of_ne hyb.symm, Function.update_of_ne hbs]
        have Ss : S f.s = f.cast v :: t := by rw [hS, Function.update_of_ne hys.symm, Function.update_self]
        have Sy : S y = (s y).set ii o := by rw [hS, Function.update_self]
        obtain ⟨i1, i2, i3, i4⟩ := ih (ii + 1) S (by rw [Sb]; exact hb0) (by rw [Sx]; omega) (by rw [Sy, List.length_set]; omega)
        rw [Sx, Sa, Sb, Ss] at i1 i2 i3
        refine ⟨?_, ?_, ?_, ?_⟩
        · rw [i1]
          generalize runLoop Iir.step ⟨f.cast, s f.a, s f.b, f.cast v :: t⟩ ((s x).drop (ii + 1)) = r
          obtain ⟨_ | z, g⟩ := r <;> rfl
        · rw [i2]
          generalize runLoop Iir.step ⟨f.cast, s f.a, s f.b, f.cast v :: t⟩ ((s x).drop (ii + 1)) = r
          obtain ⟨_ | z, g⟩ := r <;> rfl
        · intro ys h
          generalize hr : runLoop Iir.step ⟨f.cast, s f.a, s f.b, f.cast v :: t⟩ ((s x).drop (ii + 1)) = r at i3 h
          obtain ⟨e | z, g⟩ := r
          · cases h
          · have hy' : ys = o :: z := (Except.ok.inj h).symm
            rw [i3 z rfl, Sy, hy', List.take_set, List.take_add_one, List.set_append_right _ _ (by rw [List.length_take]; omega)]
            rw [List.getElem?_eq_getElem (by omega)]
            simp only [List.length_take, Nat.min_eq_left (show ii ≤ (s y).length by omega), Nat.sub_self, Option.toList_some, List.set_cons_zero]
            simp
        · intro l h1 h2
          rw [i4 l h1 h2, hS, Function.update_of_ne h2, Function.update_of_ne h1]
      · simp only [hl, if_false, same]
        exact ⟨(fails _).1, (fails _).2.1, fun ys h => (by cases h), (fails _).2.2⟩

/-- C123, one thread: the call of FirFilter.filter does to the arrays what `filter` does to the values. -/
theorem C123_fir_alone [Zero R] [Dot R] (f : FirRef R) (x y : ℕ) (hyx : y ≠ x) (hyb : y ≠ f.b) (hys : y ≠ f.s) (hxs : x ≠ f.s) (hbs : f.b ≠ f.s) (s : Arrays R) :
    ((f.call x y).run s).2 = (Fir.filter ⟨f.cast, s f.b, s f.s⟩ (s x)).1.map (fun _ => ()) ∧
    ((f.call x y).run s).1 f.s = (Fir.filter ⟨f.cast, s f.b, s f.s⟩ (s x)).2.s ∧
    (∀ ys, (Fir.filter ⟨f.cast, s f.b, s f.s⟩ (s x)).1 = .ok ys → ((f.call x y).run s).1 y = ys) ∧
    ∀ l, l ≠ f.s → l ≠ y → ((f.call x y).run s).1 l = s l := by
  unfold FirRef.call Fir.filter
  simp only [assign, step_one]
  by_cases h : (s x).length = 0
  · simp only [h, true_or, if_true, Function.update_eq_self]
    exact ⟨rfl, rfl, fun ys h => (by cases h), fun l _ _ => rfl⟩
  by_cases hb : (s f.b).length = 0
  · simp only [h, hb, or_true, if_true, if_false, Function.update_eq_self]
    obtain ⟨v, t, hv⟩ := List.exists_cons_of_ne_nil (List.ne_nil_of_length_pos (Nat.pos_of_ne_zero h))
    rw [hv, runLoop]
    simp only [Fir.step, hb, if_true]
    exact ⟨rfl, rfl, fun ys h => (by cases h), fun l _ _ => rfl⟩
  · simp only [h, hb, or_self, if_false]
    obtain ⟨i1, i2, i3, i4⟩ := fir_loop_alone f x y hyx hyb hys hxs hbs (s x).length 0 (Function.update s y (List.replicate (s x).length 0))
      (by rw [Function.update_of_ne hyb.symm]; exact hb) (by rw [Function.update_of_ne hyx.symm]; omega) (by simp)
    simp only [Function.update_of_ne hyx.symm, Function.update_of_ne hyb.symm, Function.update_of_ne hys.symm, List.drop_zero, List.take_zero, List.nil_append] at i1 i2 i3
    exact ⟨i1, i2, i3, fun l h1 h2 => by rw [i4 l h1 h2, Function.update_of_ne h2]⟩

/-- The hypotheses hold: coefficients, state, signal and result are four arrays. -/
example := C123_fir_alone (R := ℤ) ⟨id, 0, 1⟩ 2 3 (by decide) (by decide) (by decide) (by decide) (by decide) fun l => [[1, 1], [0, 0], [5, 6], []].getD l []

/-- C123, one thread: the call of IirFilter.filter does to the arrays what `filter` does to the values. -/
theorem C123_iir_alone [Zero R] [Add R] [Mul R] [Dot R] (f : IirRef R) (x y : ℕ) (hyx : y ≠ x) (hya : y ≠ f.a) (hyb : y ≠ f.b) (hys : y ≠ f.s) (hxs : x ≠ f.s) (has : f.a ≠ f.s)
    (hbs : f.b ≠ f.s) (s : Arrays R) :
    ((f.call x y).run s).2 = (Iir.filter ⟨f.cast, s f.a, s f.b, s f.s⟩ (s x)).1.map (fun _ => ()) ∧
    ((f.call x y).run s).1 f.s = (Iir.filter ⟨f.cast, s f.a, s f.b, s f.s⟩ (s x)).2.s ∧
    (∀ ys, (Iir.filter ⟨f.cast, s f.a, s f.b, s f.s⟩ (s x)).1 = .ok ys → ((f.call x y).run s).1 y = ys) ∧
    ∀ l, l ≠ f.s → l ≠ y → ((f.call x y).run s).1 l = s l := by
  unfold IirRef.call Iir.filter
  simp only [assign, step_one]
  by_cases h : (s x).length = 0
  · simp only [h, true_or, if_true, Function.update_eq_self]
    exact ⟨rfl, rfl, fun ys h => (by cases h), fun l _ _ => rfl⟩
  by_cases hb : (s f.b).length = 0
  · simp only [h, hb, or_true, if_true, if_false, Function.update_eq_self]
    obtain ⟨v, t, hv⟩ := List.exists_cons_of_ne_nil (List.ne_nil_of_length_pos (Nat.pos_of_ne_zero h))
    rw [hv, runLoop]
    simp only [Iir.step, hb, if_true]
    exact ⟨rfl, rfl, fun ys h => (by cases h), fun l _ _ => rfl⟩
  · simp only [h, hb, or_self, if_false]
    obtain ⟨i1, i2, i3, i4⟩ := iir_loop_alone f x y hyx hya hyb hys hxs has hbs (s x).length 0 (Function.update s y (List.replicate (s x).length 0))
      (by rw [Function.update_of_ne hyb.symm]; exact hb) (by rw [Function.update_of_ne hyx.symm]; omega) (by simp)
    simp only [Function.update_of_ne hyx.symm, Function.update_of_ne hya.symm, Function.update_of_ne hyb.symm, Function.update_of_ne hys.symm, List.drop_zero, List.take_zero,
      List.nil_append] at i1 i2 i3
    exact ⟨i1, i2, i3, fun l h1 h2 => by rw [i4 l h1 h2, Function.update_of_ne h2]⟩

/-- The hypotheses hold: coefficients, state, signal and result are five arrays. -/
example := C123_iir_alone (R := ℤ) ⟨id, 0, 1, 2⟩ 3 4 (by decide) (by decide) (by decide) (by decide) (by decide) (by decide) (by decide)
  fun l => [[0, 1], [1, 1], [0, 0], [5, 6], []].getD l []

/-! ### What a call reads and changes -/

private theorem touches_assign (rd wr : Set ℕ) (l : ℕ) (v : Arrays R → List R) (k : Arrays R → Prog (Arrays R) (Res Unit)) (hl : l ∈ wr)
    (hv : ∀ s s' : Arrays R, (∀ l ∈ rd, s l = s' l) → v s = v s') (hk : ∀ s s' : Arrays R, (∀ l ∈ rd, s l = s' l) → k s = k s') (ht : ∀ s, Touches rd wr (k s)) :
    Touches rd wr (assign l v k) := by
  refine ⟨fun s m hm => Function.update_of_ne (by rintro rfl; exact hm hl) _ _, fun s s' h => ⟨fun m hm => ?_, hk s s' h⟩, ht⟩
  show Function.update s l (v s) m = Function.update s' l (v s') m
  rw [Function.update_apply, Function.update_apply, hv s s' h, h m hm]

/-- C123.  FirFilter.filter reads the coefficients, the state, the signal and its result, and changes the state and the result. -/
theorem C123_fir_touches [Zero R] [Dot R] (f : FirRef R) (x y : ℕ) : Touches {f.b, f.s, x, y} {f.s, y} (f.call x y) := by
  have hb : f.b ∈ ({f.b, f.s, x, y} : Set ℕ) := by simp
  have hs : f.s ∈ ({f.b, f.s, x, y} : Set ℕ) := by simp
  have hx : x ∈ ({f.b, f.s, x, y} : Set ℕ) := by simp
  have hy : y ∈ ({f.b, f.s, x, y} : Set ℕ) := by simp
  have loop : ∀ n ii, Touches {f.b, f.s, x, y} {f.s, y} (f.loop x y ii n) := by
    intro n
    induction n with
    | zero => intro ii; trivial
    | succ n ih =>
      intro ii
      rw [FirRef.loop]
      refine touches_assign _ _ _ _ _ (by simp) (fun s s' h => by rw [h _ hs]) (fun _ _ _ => rfl) fun _ => ?_
      refine touches_assign _ _ _ _ _ (by simp) (fun s s' h => by rw [h _ hs, h _ hx]) (fun s s' h => by rw [h _ hs, h _ hx]) fun s => ?_
      split_ifs
      · trivial
      refine touches_assign _ _ _ _ _ (by simp) (fun s s' h => by rw [h _ hs, h _ hb, h _ hy]) (fun s s' h => by rw [h _ hs, h _ hb]) fun s => ?_
      split_ifs
      · exact ih _
      · trivial
  refine touches_assign _ _ _ _ _ (by simp) (fun s s' h => by rw [h _ hx, h _ hb, h _ hy]) (fun s s' h => by rw [h _ hx, h _ hb]) fun s => ?_
  split_ifs
  · trivial
  · trivial
  · exact loop _ _

/-- C123, one thread: the call of FirFilter.reset does to the arrays what `reset` does to the values. -/
theorem C123_reset_alone (f : FirRef R) (a : ResetArg R) (s : Arrays R) :
    ((f.callReset a).run s).2 = (Fir.reset ⟨f.cast, s f.b, s f.s⟩ a).1 ∧ ((f.callReset a).run s).1 f.s = (Fir.reset ⟨f.cast, s f.b, s f.s⟩ a).2.s ∧
      ∀ l, l ≠ f.s → ((f.callReset a).run s).1 l = s l := by
  cases a with
  | nonScalar => exact ⟨rfl, rfl, fun l _ => rfl⟩
  | scalar v =>
    simp only [FirRef.callReset, assign, step_one]
    exact ⟨rfl, Function.update_self .., fun l hl => Function.update_of_ne hl ..⟩

example := C123_reset_alone (R := ℤ) ⟨id, 0, 1⟩ (.scalar 4) fun l => [[1, 1], [0, 0]].getD l []

/-- C123.  FirFilter.reset changes the state. -/
theorem C123_reset_touches (f : FirRef R) (a : ResetArg R) : Touches {f.s} {f.s} (f.callReset a) := by
  cases a with
  | nonScalar => trivial
  | scalar v => exact touches_assign _ _ _ _ _ (by simp) (fun s s' h => by rw [h f.s rfl]) (fun _ _ _ => rfl) fun _ => trivial

example := C123_reset_touches (⟨id, 0, 1⟩ : FirRef ℚ) (.scalar 3)

/-- C123.  IirFilter.filter reads both lists of coefficients, the state, the signal and its result, and changes the state and the result. -/
theorem C123_iir_touches [Zero R] [Add R] [Mul R] [Dot R] (f : IirRef R) (x y : ℕ) : Touches {f.a, f.b, f.s, x, y} {f.s, y} (f.call x y) := by
  have ha : f.a ∈ ({f.a, f.b, f.s, x, y} : Set ℕ) := by simp
  have hb : f.b ∈ ({f.a, f.b, f.s, x, y} : Set ℕ) := by simp
  have hs : f.s ∈ ({f.a, f.b, f.s, x, y} : Set ℕ) := by simp
  have hx : x ∈ ({f.a, f.b, f.s, x, y} : Set ℕ) := by simp
  have hy : y ∈ ({f.a, f.b, f.s, x, y} : Set ℕ) := by simp
  have loop : ∀ n ii, Touches {f.a, f.b, f.s, x, y} {f.s, y} (f.loop x y ii n) := by
    intro n
    induction n with
    | zero => intro ii; trivial
    | succ n ih =>
      intro ii
      rw [IirRef.loop]
      refine touches_assign _ _ _ _ _ (by simp) (fun s s' h => by rw [h _ hs, h _ ha]) (fun s s' h => by rw [h _ hs, h _ ha]) fun s => ?_
      split_ifs
      · trivial
      refine touches_assign _ _ _ _ _ (by simp) (fun s s' h => by rw [h _ hs]) (fun _ _ _ => rfl) fun _ => ?_
      refine touches_assign _ _ _ _ _ (by simp) (fun s s' h => by rw [h _ hs, h _ hx]) (fun s s' h => by rw [h _ hs, h _ hx]) fun s => ?_
      split_ifs
      · trivial
      refine touches_assign _ _ _ _ _ (by simp) (fun s s' h => by rw [h _ hs, h _ ha, h _ hb, h _ hy]) (fun s s' h => by rw [h _ hs, h _ ha, h _ hb]) fun s => ?_
      split
      · trivial
      · split
        · trivial
        · split_ifs
          · exact ih _
          · trivial
  refine touches_assign _ _ _ _ _ (by simp) (fun s s' h => by rw [h _ hx, h _ hb, h _ hy]) (fun s s' h => by rw [h _ hx, h _ hb]) fun s => ?_
  split_ifs
  · trivial
  · trivial
  · exact loop _ _

example := C123_iir_touches (⟨id, 0, 1, 2⟩ : IirRef ℚ) 3 4

/-! ### Several threads, each with filters of its own -/

private theorem run_agree (rd wr : Set ℕ) (p : Prog (Arrays R) Q) : Touches rd wr p → ∀ s s' : Arrays R, (∀ l ∈ rd, s l = s' l) →
    (p.run s).2 = (p.run s').2 ∧ ∀ l ∈ rd, (p.run s).1 l = (p.run s').1 l := by
  induction p with
  | ret r => intro _ s s' h; exact ⟨rfl, h⟩
  | act f k ih =>
    intro ht s s' h
    obtain ⟨a, b⟩ := ht.2.1 s s' h
    rw [step_one, step_one, ← b]
    exact ih s (ht.2.2 s) _ _ a
  | acq k ih => intro ht s s' h; exact ih ht s s' h
  | rel k ih => intro ht s s' h; exact ih ht s s' h

private theorem alone_agree (rd wr : Set ℕ) (ps : List (Prog (Arrays R) Q)) : (∀ p ∈ ps, Touches rd wr p) → ∀ s s' : Arrays R, (∀ l ∈ rd, s l = s' l) →
    (alone ps s).2 = (alone ps s').2 ∧ ∀ l ∈ rd, (alone ps s).1 l = (alone ps s').1 l := by
  induction ps with
  | nil => intro _ s s' h; exact ⟨rfl, h⟩
  | cons p t ih =>
    intro ht s s' h
    obtain ⟨a, b⟩ := run_agree rd wr p (ht p (by simp)) s s' h
    obtain ⟨c, d⟩ := ih (fun q hq => ht q (by simp [hq])) _ _ b
    exact ⟨by simp only [alone]; rw [a, c], d⟩

/-- What the thread will have when it has made its calls, if no other thread runs any more. -/
private def outcome (h : Thread (Arrays R) Q) (s : Arrays R) : Arrays R × List Q :=
  match h.cur with
  | none => ((alone h.todo s).1, h.done ++ (alone h.todo s).2)
  | some p => ((alone h.todo (p.run s).1).1, h.done ++ (p.run s).2 :: (alone h.todo (p.run s).1).2)

private theorem outcome_agree (rd wr : Set ℕ) (h : Thread (Arrays R) Q) (h1 : ∀ p ∈ h.todo, Touches rd wr p) (h2 : ∀ p, h.cur = some p → Touches rd wr p) (s s' : Arrays R)
    (hs : ∀ l ∈ rd, s l = s' l) : (outcome h s).2 = (outcome h s').2 ∧ ∀ l ∈ rd, (outcome h s).1 l = (outcome h s').1 l := by
  unfold outcome
  rcases hc : h.cur with _ | p
  · obtain ⟨a, b⟩ := alone_agree rd wr h.todo h1 s s' hs
    exact ⟨by simp only [a], b⟩
  · obtain ⟨a, b⟩ := run_agree rd wr p (h2 p hc) s s' hs
    obtain ⟨c, d⟩ := alone_agree rd wr h.todo h1 _ _ b
    exact ⟨by simp only [a, c], d⟩

/-- C123.  If no thread changes an array which another reads or changes, then in every interleaving of the threads with one another and with other
code which leaves these arrays alone, a thread which has made its calls has the results which it would have had alone, and its arrays
have the contents which they would have had. -/
theorem C123_separate (s : Arrays R) (calls : ℕ → List (Prog (Arrays R) Q)) (rd wr : ℕ → Set ℕ) (ht : ∀ t, ∀ p ∈ calls t, Touches (rd t) (wr t) p)
    (hd : ∀ t u, t ≠ u → ∀ l ∈ rd t, l ∉ wr u) (c : Conf (Arrays R) Q) (h : Reach (fun s s' => ∀ t, ∀ l ∈ rd t, s' l = s l) (Conf.init s calls) c) (t : ℕ)
    (hf : (c.threads t).todo = [] ∧ (c.threads t).cur = none) :
    (c.threads t).done = (alone (calls t) s).2 ∧ ∀ l ∈ rd t, c.shared l = (alone (calls t) s).1 l := by
  have key : ∀ t, (∀ p ∈ (c.threads t).todo, Touches (rd t) (wr t) p) ∧ (∀ p, (c.threads t).cur = some p → Touches (rd t) (wr t) p) ∧
      (outcome (c.threads t) c.shared).2 = (alone (calls t) s).2 ∧ ∀ l ∈ rd t, (outcome (c.threads t) c.shared).1 l = (alone (calls t) s).1 l := by
    clear hf t
    induction h with
    | refl => exact fun t => ⟨ht t, fun p hp => (by cases hp), rfl, fun l _ => rfl⟩
    | env hr he ih =>
      intro t
      obtain ⟨a, b, d, e⟩ := ih t
      obtain ⟨f, g⟩ := outcome_agree (rd t) (wr t) _ a b _ _ (he t)
      exact ⟨a, b, f.trans d, fun l hl => (g l hl).trans (e l hl)⟩
    | @step c c' hr st ih =>
      intro u
      obtain ⟨a, b, d, e⟩ := ih u
      cases st with
      | invoke t p todo hc htd =>
        by_cases hu : u = t
        · subst hu
          have ho : outcome { c.threads u with todo := todo, cur := some p } c.shared = outcome (c.threads u) c.shared := by
            simp only [outcome, hc, htd, alone]
          simp only [Conf.put, Function.update_self]
          exact ⟨fun q hq => a q (by rw [htd]; simp [hq]), fun q hq => by obtain rfl := Option.some.inj hq; exact a p (by rw [htd]; simp), by rw [ho]; exact d, by rw [ho]; exact e⟩
        · simp only [Conf.put, Function.update_of_ne hu]
          exact ⟨a, b, d, e⟩
      | act t f k hc =>
        have hT := (ih t).2.1 _ hc
        by_cases hu : u = t
        · subst hu
          have ho : outcome { c.threads u with cur := some (k c.shared) } (f c.shared) = outcome (c.threads u) c.shared := by
            simp only [outcome, hc, step_one]
          simp only [Conf.put, Function.update_self]
          exact ⟨a, fun q hq => by obtain rfl := Option.some.inj hq; exact hT.2.2 _, by rw [ho]; exact d, by rw [ho]; exact e⟩
        · simp only [Conf.put, Function.update_of_ne hu]
          obtain ⟨f', g'⟩ := outcome_agree (rd u) (wr u) _ a b (f c.shared) c.shared (fun l hl => hT.1 _ l (hd u t hu l hl))
          exact ⟨a, b, f'.trans d, fun l hl => (g' l hl).trans (e l hl)⟩
      | acquire t k hc hl =>
        have hT := (ih t).2.1 _ hc
        by_cases hu : u = t
        · subst hu
          have ho : outcome { c.threads u with cur := some k } c.shared = outcome (c.threads u) c.shared := by
            simp only [outcome, hc, Prog.run]
          simp only [Conf.put, Function.update_self]
          exact ⟨a, fun q hq => by obtain rfl := Option.some.inj hq; exact hT, by rw [ho]; exact d, by rw [ho]; exact e⟩
        · simp only [Conf.put, Function.update_of_ne hu]
          exact ⟨a, b, d, e⟩
      | again t n k hc hl =>
        have hT := (ih t).2.1 _ hc
        by_cases hu : u = t
        · subst hu
          have ho : outcome { c.threads u with cur := some k } c.shared = outcome (c.threads u) c.shared := by
            simp only [outcome, hc, Prog.run]
          simp only [Conf.put, Function.update_self]
          exact ⟨a, fun q hq => by obtain rfl := Option.some.inj hq; exact hT, by rw [ho]; exact d, by rw [ho]; exact e⟩
        · simp only [Conf.put, Function.update_of_ne hu]
          exact ⟨a, b, d, e⟩
      | release t n k hc hl =>
        have hT := (ih t).2.1 _ hc
        by_cases hu : u = t
        · subst hu
          have ho : outcome { c.threads u with cur := some k } c.shared = outcome (c.threads u) c.shared := by
            simp only [outcome, hc, Prog.run]
          simp only [Conf.put, Function.update_self]
          exact ⟨a, fun q hq => by obtain rfl := Option.some.inj hq; exact hT, by rw [ho]; exact d, by rw [ho]; exact e⟩
        · simp only [Conf.put, Function.update_of_ne hu]
          exact ⟨a, b, d, e⟩
      | «return» t r hc =>
        by_cases hu : u = t
        · subst hu
          have ho : outcome { c.threads u with cur := none, done := (c.threads u).done ++ [r] } c.shared = outcome (c.threads u) c.shared := by
            simp only [outcome, hc, Prog.run, List.append_assoc, List.singleton_append]
          simp only [Conf.put, Function.update_self]
          exact ⟨a, fun q hq => (by cases hq), by rw [ho]; exact d, by rw [ho]; exact e⟩
        · simp only [Conf.put, Function.update_of_ne hu]
          exact ⟨a, b, d, e⟩
  obtain ⟨-, -, d, e⟩ := key t
  have ho : outcome (c.threads t) c.shared = (c.shared, (c.threads t).done) := by
    simp only [outcome, hf.1, hf.2, alone, List.append_nil]
  rw [ho] at d e
  exact ⟨d, e⟩

/-- The hypotheses on the places hold: each thread has a filter of its own, and the signal is shared. -/
example : (∀ t : ℕ, ∀ p ∈ [(⟨id, 3 * t + 1, 3 * t + 2⟩ : FirRef ℤ).call 0 (3 * t + 3)], Touches {3 * t + 1, 3 * t + 2, 0, 3 * t + 3} {3 * t + 2, 3 * t + 3} p) ∧
    ∀ t u : ℕ, t ≠ u → ∀ l ∈ ({3 * t + 1, 3 * t + 2, 0, 3 * t + 3} : Set ℕ), l ∉ ({3 * u + 2, 3 * u + 3} : Set ℕ) := by
  refine ⟨fun t p hp => ?_, fun t u h l hl => ?_⟩
  · rw [List.mem_singleton.mp hp]
    exact C123_fir_touches (⟨id, 3 * t + 1, 3 * t + 2⟩ : FirRef ℤ) 0 (3 * t + 3)
  · simp only [Set.mem_insert_iff, Set.mem_singleton_iff] at hl ⊢
    omega

/-- C123.  Threads which filter signals with FirFilter instances of their own, whose states and results are places of their own (C113): whatever the
interleaving, each gets what `filter` returns when nothing else runs.  Signals and coefficients may be common. -/
theorem C123_fir [Zero R] [Dot R] (s : Arrays R) (f : ℕ → FirRef R) (x y : ℕ → ℕ)
    (own : ∀ t, y t ≠ x t ∧ y t ≠ (f t).b ∧ y t ≠ (f t).s ∧ x t ≠ (f t).s ∧ (f t).b ≠ (f t).s)
    (other : ∀ t u, t ≠ u → ∀ l ∈ ({(f t).b, (f t).s, x t, y t} : Set ℕ), l ≠ (f u).s ∧ l ≠ y u) (c : Conf (Arrays R) (Res Unit))
    (h : Reach (fun _ _ => False) (Conf.init s fun t => [(f t).call (x t) (y t)]) c) (t : ℕ) (hf : (c.threads t).todo = [] ∧ (c.threads t).cur = none) :
    (c.threads t).done = [(Fir.filter ⟨(f t).cast, s (f t).b, s (f t).s⟩ (s (x t))).1.map fun _ => ()] ∧
    c.shared (f t).s = (Fir.filter ⟨(f t).cast, s (f t).b, s (f t).s⟩ (s (x t))).2.s ∧
    ∀ ys, (Fir.filter ⟨(f t).cast, s (f t).b, s (f t).s⟩ (s (x t))).1 = .ok ys → c.shared (y t) = ys := by
  have h' : Reach (fun s s' => ∀ t, ∀ l ∈ ({(f t).b, (f t).s, x t, y t} : Set ℕ), s' l = s l) (Conf.init s fun t => [(f t).call (x t) (y t)]) c := by
    clear hf
    induction h with
    | refl => exact .refl
    | step _ st ih => exact .step ih st
    | env _ he => exact he.elim
  obtain ⟨h1, h2⟩ := C123_separate s (fun t => [(f t).call (x t) (y t)]) (fun t => {(f t).b, (f t).s, x t, y t}) (fun t => {(f t).s, y t})
    (fun t p hp => by rw [List.mem_singleton.mp hp]; exact C123_fir_touches _ _ _)
    (fun t u hu l hl hw => by
      obtain ⟨a, b⟩ := other t u hu l hl
      rcases hw with hw | hw
      · exact a hw
      · exact b hw) c h' t hf
  obtain ⟨o1, o2, o3, o4, o5⟩ := own t
  obtain ⟨a1, a2, a3, -⟩ := C123_fir_alone (f t) (x t) (y t) o1 o2 o3 o4 o5 s
  refine ⟨?_, ?_, fun ys hys => ?_⟩
  · rw [h1]; simp only [alone]; rw [a1]
  · rw [h2 _ (by simp)]; exact a2
  · rw [h2 _ (by simp)]; exact a3 ys hys

/-- Each thread has its own filter, signal and output: thread `t` uses the places `4 t` to `4 t + 3`. -/
example (s : Arrays ℚ) := C123_fir s (fun t => ⟨id, 4 * t, 4 * t + 1⟩) (fun t => 4 * t + 2) (fun t => 4 * t + 3)
  (fun t => by dsimp only; omega) (fun t u htu l hl => by
    simp only [Set.mem_insert_iff, Set.mem_singleton_iff] at hl
    dsimp only
    omega)

/-! ### One filter, several threads -/

/-- No lock is taken. -/
private def LockFree {S Q : Type} : Prog S Q → Prop
  | .ret _ => True
  | .act _ k => ∀ s, LockFree (k s)
  | .acq _ => False
  | .rel _ => False

private theorem crit_release {S Q : Type} (p : Prog S Q) : LockFree p → Crit 1 p.release := by
  induction p with
  | ret r => intro _; exact .out
  | act f k ih => intro h; exact .act fun s => ih s (h s)
  | acq k => intro h; exact h.elim
  | rel k => intro h; exact h.elim

private theorem fir_lockFree [Zero R] [Dot R] (f : FirRef R) (x y : ℕ) : LockFree (f.call x y) := by
  have loop : ∀ n ii, LockFree (f.loop x y ii n) := by
    intro n
    induction n with
    | zero => intro ii; trivial
    | succ n ih =>
      intro ii _ s
      beta_reduce
      split_ifs
      · trivial
      · intro s
        beta_reduce
        split_ifs
        · exact ih _
        · trivial
  intro s
  beta_reduce
  split_ifs
  · trivial
  · trivial
  · exact loop _ _

private theorem iir_lockFree [Zero R] [Add R] [Mul R] [Dot R] (f : IirRef R) (x y : ℕ) : LockFree (f.call x y) := by
  have loop : ∀ n ii, LockFree (f.loop x y ii n) := by
    intro n
    induction n with
    | zero => intro ii; trivial
    | succ n ih =>
      intro ii s
      beta_reduce
      split_ifs
      · trivial
      · intro _ s
        beta_reduce
        split_ifs
        · trivial
        · intro s
          beta_reduce
          split
          · trivial
          · split
            · trivial
            · split_ifs
              · exact ih _
              · trivial
  intro s
  beta_reduce
  split_ifs
  · trivial
  · trivial
  · exact loop _ _

/-- A call of `filter` or of `reset`. -/
inductive FilterCall [Zero R] [Add R] [Mul R] [Dot R] : Prog (Arrays R) (Res Unit) → Prop
  | fir (f : FirRef R) (x y : ℕ) : FilterCall (f.call x y)
  | iir (f : IirRef R) (x y : ℕ) : FilterCall (f.call x y)
  | reset (f : FirRef R) (a : ResetArg R) : FilterCall (f.callReset a)

/-- C123.  A lock held around a call changes nothing for a single thread. -/
theorem C123_locked_run {S Q : Type} (p : Prog S Q) (s : S) : p.locked.run s = p.run s := by
  have : ∀ s, p.release.run s = p.run s := by
    induction p with
    | ret r => intro s; rfl
    | act f k ih => intro s; exact ih s (f s)
    | acq k ih => intro s; exact ih s
    | rel k ih => intro s; exact ih s
  exact this s

/-- C123.  With one lock held by the caller around every call, filters may be shared by the threads: arrays and results are those of the calls one
after another in some order which keeps that of each thread. -/
theorem C123_locked [Zero R] [Add R] [Mul R] [Dot R] (s : Arrays R) (calls : ℕ → List (Prog (Arrays R) (Res Unit))) (hc : ∀ t, ∀ p ∈ calls t, ∃ q, FilterCall q ∧ p = q.locked)
    (c : Conf (Arrays R) (Res Unit)) (h : Reach (fun _ _ => False) (Conf.init s calls) c) (hf : Finished c) :
    ∃ order, (∀ t, callsOf order t = calls t) ∧ c.shared = (sequential s order).1 ∧ ∀ t, (c.threads t).done = (sequential s order).2 t := by
  have hg : ∀ t p, p ∈ calls t → Guarded p := by
    intro t p hp
    obtain ⟨q, hq, rfl⟩ := hc t p hp
    refine ⟨_, rfl, crit_release q ?_⟩
    cases hq with
    | fir f x y => exact fir_lockFree f x y
    | iir f x y => exact iir_lockFree f x y
    | reset f a => cases a with
      | nonScalar => trivial
      | scalar v => exact fun _ => trivial
  obtain ⟨_, hi⟩ := Inv.reach hg h
  rcases hl : c.lock with _ | ⟨t0, d⟩
  · rw [hl] at hi
    obtain ⟨h1, h2⟩ := hi
    have key : ∀ t, callsOf c.order t = calls t ∧ (c.threads t).done = (sequential s c.order).2 t := by
      intro t
      obtain ⟨f1, f2⟩ := hf t
      rcases h2 t with ⟨_, e2, e3⟩ | ⟨k, e1, _⟩ | ⟨r, e1, _⟩
      · rw [f1, List.append_nil] at e3
        exact ⟨e3.symm, e2⟩
      · simp [f2] at e1
      · simp [f2] at e1
    exact ⟨c.order, fun t => (key t).1, h1, fun t => (key t).2⟩
  · rw [hl] at hi
    obtain ⟨_, _, p, _, h1, _⟩ := hi
    simp [(hf t0).2] at h1

/-- One call in each of two threads on the same filter, signal and output. -/
example (s : Arrays ℚ) := C123_locked s (fun t => if t < 2 then [((⟨id, 0, 1⟩ : FirRef ℚ).call 2 3).locked] else []) (fun t p hp => by
  by_cases h : t < 2
  · simp only [h, if_true, List.mem_singleton] at hp
    exact ⟨_, .fir _ _ _, hp⟩
  · simp [h] at hp)

/-- One step of thread `t`, if it has one. -/
private def advance {S Q : Type} (c : Conf S Q) (t : ℕ) : Conf S Q :=
  match (c.threads t).cur with
  | none =>
    match (c.threads t).todo with
    | [] => c
    | p :: todo => c.put t { c.threads t with todo := todo, cur := some p }
  | some (.ret r) => c.put t { c.threads t with cur := none, done := (c.threads t).done ++ [r] }
  | some (.act f k) => { c.put t { c.threads t with cur := some (k c.shared) } with shared := f c.shared }
  | some (.acq k) =>
    match c.lock with
    | none => { c.put t { c.threads t with cur := some k } with lock := some (t, 1), order := c.order ++ [(t, .acq k)] }
    | some _ => c
  | some (.rel k) =>
    match c.lock with
    | some (u, d + 1) => if u = t then { c.put t { c.threads t with cur := some k } with lock := if d = 0 then none else some (t, d) } else c
    | _ => c

private theorem advance_reach {S Q : Type} (ts : List ℕ) (c0 : Conf S Q) : ∀ c, Reach (fun _ _ => False) c0 c → Reach (fun _ _ => False) c0 (ts.foldl advance c) := by
  induction ts with
  | nil => intro c h; exact h
  | cons t ts ih =>
    intro c h
    refine ih _ ?_
    unfold advance
    rcases hc : (c.threads t).cur with _ | p
    · rcases htd : (c.threads t).todo with _ | ⟨p, todo⟩
      · exact h
      · exact .step h (.invoke c t p todo hc htd)
    · cases p with
      | ret r => exact .step h (.return c t r hc)
      | act f k => exact .step h (.act c t f k hc)
      | acq k =>
        rcases hl : c.lock with _ | l
        · exact .step h (.acquire c t k hc hl)
        · exact h
      | rel k =>
        rcases hl : c.lock with _ | ⟨u, _ | d⟩
        · exact h
        · exact h
        · by_cases hu : u = t
          · subst hu
            simp only [if_true]
            exact .step h (.release c u d k hc hl)
          · simp only [if_neg hu]
            exact h

/-- The sum of the last two samples; two signals of one sample; two results. -/
private def sharedStart : Arrays ℤ := fun l => [[1, 1], [0, 0], [1], [2], [], []].getD l []

private def sharedCalls : ℕ → List (Prog (Arrays ℤ) (Res Unit))
  | 0 => [FirRef.call ⟨id, 0, 1⟩ 2 4]
  | 1 => [FirRef.call ⟨id, 0, 1⟩ 3 5]
  | _ => []

/-- C123.  Without a lock two threads which share one filter can get results which no order of their calls gives: one reads the sample of the other as
its own, and a sample is lost. -/
theorem C123_shared : ∃ c, Reach (fun _ _ => False) (Conf.init sharedStart sharedCalls) c ∧ Finished c ∧ c.shared 4 = [2] ∧ c.shared 5 = [2] ∧
    ((alone (sharedCalls 0 ++ sharedCalls 1) sharedStart).1 4 = [1] ∧ (alone (sharedCalls 0 ++ sharedCalls 1) sharedStart).1 5 = [3]) ∧
    ((alone (sharedCalls 1 ++ sharedCalls 0) sharedStart).1 4 = [3] ∧ (alone (sharedCalls 1 ++ sharedCalls 0) sharedStart).1 5 = [2]) := by
  refine ⟨[0, 1, 0, 1, 0, 1, 0, 1, 0, 1, 0, 1].foldl advance (Conf.init sharedStart sharedCalls), advance_reach _ _ _ .refl, ?_, by decide, by decide, ⟨by decide, by decide⟩, by decide, by decide⟩
  intro t
  rcases t with _ | _ | t
  · exact ⟨rfl, rfl⟩
  · exact ⟨rfl, rfl⟩
  · exact ⟨rfl, rfl⟩

/-- The hypotheses of `C123_locked` hold: the same threads with a lock, where the second has to wait. -/
example : (∀ t, ∀ p ∈ (sharedCalls t).map Prog.locked, ∃ q, FilterCall q ∧ p = q.locked) ∧
    ∃ c, Reach (fun _ _ => False) (Conf.init sharedStart fun t => (sharedCalls t).map Prog.locked) c ∧ Finished c ∧ c.shared 4 = [1] ∧ c.shared 5 = [3] := by
  constructor
  · intro t p hp
    obtain ⟨q, hq, rfl⟩ := List.mem_map.mp hp
    refine ⟨q, ?_, rfl⟩
    rcases t with _ | _ | t
    · rw [List.mem_singleton.mp hq]; exact .fir _ _ _
    · rw [List.mem_singleton.mp hq]; exact .fir _ _ _
    · cases hq
  · refine ⟨[0, 1, 0, 1, 0, 1, 0, 1, 0, 1, 0, 1, 0, 1, 0, 1, 1, 1, 1, 1, 1, 1].foldl advance (Conf.init sharedStart fun t => (sharedCalls t).map Prog.locked), advance_reach _ _ _ .refl, ?_,
      by decide, by decide⟩
    intro t
    rcases t with _ | _ | t
    · exact ⟨rfl, rfl⟩
    · exact ⟨rfl, rfl⟩
    · exact ⟨rfl, rfl⟩

/-- The hypotheses of `C123_fir` on the places hold: any number of threads, each with a filter of its own, and one signal. -/
example : let f : ℕ → FirRef ℤ := fun t => ⟨id, 3 * t + 1, 3 * t + 2⟩
    let y : ℕ → ℕ := fun t => 3 * t + 3
    (∀ t, y t ≠ 0 ∧ y t ≠ (f t).b ∧ y t ≠ (f t).s ∧ 0 ≠ (f t).s ∧ (f t).b ≠ (f t).s) ∧
    ∀ t u, t ≠ u → ∀ l ∈ ({(f t).b, (f t).s, 0, y t} : Set ℕ), l ≠ (f u).s ∧ l ≠ y u := by
  refine ⟨fun t => ⟨by simp, by simp, by simp, by simp, by simp⟩, fun t u h l hl => ?_⟩
  simp only [Set.mem_insert_iff, Set.mem_singleton_iff] at hl
  dsimp only
  omega

/-- The hypotheses of `C123_fir` on the execution hold: two threads with filters of their own and one signal; the first has finished. -/
example : ∃ c, Reach (fun _ _ => False) (Conf.init (fun l => [[1, 1], [0, 0], [2, 3], [0, 7], [5, 6], [], []].getD l [] : Arrays ℤ)
      fun t => [(if t = 0 then ⟨id, 0, 1⟩ else ⟨id, 2, 3 + 10 * t⟩ : FirRef ℤ).call 4 (5 + 10 * t)]) c ∧
    (c.threads 0).todo = [] ∧ (c.threads 0).cur = none ∧ (c.threads 1).cur ≠ none ∧ c.shared 5 = [5, 11] := by
  refine ⟨[0, 1, 0, 1, 0, 1, 0, 0, 0, 0, 0, 0].foldl advance (Conf.init _ _), advance_reach _ _ _ .refl, rfl, rfl, ?_, by decide⟩
  intro h
  cases h

end Verif.Props
