import Verif.Model.Assign
import Verif.Props.Aliasing
import Verif.Props.Fir
import Verif.Props.Iir
import Verif.Props.Rank
import Verif.Lemmas.Goertzel

/-!
Property C120: assigning the coefficients and the state of a filter (diamondback/filters/fir_filter.py:112-122, iir_filter.py:115-117).
-/

namespace Verif.Props

open Spec

section Exchange

variable {R : Type*}

/-- C120, FirFilter: coefficients assigned between two calls act on the samples before as well: the outputs are those of a filter which had them all along. -/
theorem C120_exchange_fir [Dot R] (f : Fir R) (hf : f.WF) (c : List R) (hc : c.length = f.b.length) (x y : List R) (hx : x ≠ []) (hy : y ≠ []) :
    ∃ y1 f1 y2 f2 z, f.filter x = (.ok y1, f1) ∧ (f1.setB c).filter y = (.ok y2, f2) ∧ (f.setB c).filter (x ++ y) = (.ok (z ++ y2), f2) ∧
      z.length = x.length := by
  have hf' : (f.setB c).WF := ⟨hc.trans hf.1, by rw [Fir.setB, hc]; exact hf.2⟩
  obtain ⟨y1, h1, l1, -⟩ := Fir.runLoop_wf f hf x
  obtain ⟨z, h2, l2, -⟩ := Fir.runLoop_wf (f.setB c) hf' x
  have hst : ({ f.setB c with s := ((x.map (f.setB c).cast).reverse ++ (f.setB c).s).take (f.setB c).b.length } : Fir R) =
      Fir.setB { f with s := ((x.map f.cast).reverse ++ f.s).take f.b.length } c := by
    simp [Fir.setB, hc]
  rw [hst] at h2
  have hwf : (Fir.setB { f with s := ((x.map f.cast).reverse ++ f.s).take f.b.length } c).WF := by
    refine ⟨?_, hf'.2⟩
    have := hf.1
    simp [Fir.setB, hc]
    omega
  obtain ⟨y2, f2, h3⟩ : ∃ y2 f2, runLoop Fir.step (Fir.setB { f with s := ((x.map f.cast).reverse ++ f.s).take f.b.length } c) y = (.ok y2, f2) := by
    obtain ⟨y2, h3, -⟩ := Fir.runLoop_wf _ hwf y
    exact ⟨_, _, h3⟩
  refine ⟨y1, { f with s := ((x.map f.cast).reverse ++ f.s).take f.b.length }, y2, f2, z, ?_, ?_, ?_, l2⟩
  · unfold Fir.filter; rw [if_neg (by simpa using hx), h1]
  · unfold Fir.filter; rw [if_neg (by simpa using hy), h3]
  · unfold Fir.filter; rw [if_neg (by simp [hx]), runLoop_append, h2, thenRun, h3]

example := C120_exchange_fir (⟨id, [1, 2], [0, 3]⟩ : Fir ℚ) ⟨rfl, by simp⟩ [5, -1] rfl [1, 4] [2] (by simp) (by simp)

private theorem iir_state_b [Add R] [Mul R] [Dot R] (c : List R) (x : List R) : ∀ (f : Iir R), f.WF → c.length = f.b.length →
    ∃ y1 z g, runLoop Iir.step f x = (.ok y1, g) ∧ runLoop Iir.step (f.setB c) x = (.ok z, g.setB c) ∧ z.length = x.length ∧ (g.setB c).WF := by
  induction x with
  | nil => intro f hf hc; exact ⟨[], [], f, rfl, rfl, rfl, hf.1.trans hc.symm, hc.trans hf.2.1, by rw [Iir.setB, hc]; exact hf.2.2⟩
  | cons v x ih =>
    intro f hf hc
    have hf' : (f.setB c).WF := ⟨hf.1.trans hc.symm, hc.trans hf.2.1, by rw [Iir.setB, hc]; exact hf.2.2⟩
    have e1 := Iir.step_wf f hf v
    have e2 := Iir.step_wf (f.setB c) hf' v
    obtain ⟨w1, -, w3, -⟩ := Iir.step_wf_wf f hf v
    obtain ⟨y1, z, g, h1, h2, h3, h4⟩ := ih _ w1 (by rw [w3, hc])
    have hmem : (f.setB c).mem = f.mem := rfl
    refine ⟨f.cast (dot f.comb (f.cast v :: f.mem.dropLast)) :: y1, (f.setB c).cast (dot (f.setB c).comb ((f.setB c).cast v :: (f.setB c).mem.dropLast)) :: z, g,
      ?_, ?_, by simp [h3], h4⟩
    · rw [runLoop, e1]
      rw [e1] at h1
      simp only at h1 ⊢
      rw [h1]
    · rw [runLoop, e2]
      rw [e1] at h2
      simp only at h2 ⊢
      have : ({ f.setB c with s := (f.setB c).cast v :: (f.setB c).mem.dropLast } : Iir R) = Iir.setB { f with s := f.cast v :: f.mem.dropLast } c := rfl
      rw [this, h2]

/-- C120, IirFilter: the same for the coefficients `b`, since the state does not depend on them. -/
theorem C120_exchange_iir [Add R] [Mul R] [Dot R] (f : Iir R) (hf : f.WF) (c : List R) (hc : c.length = f.b.length) (x y : List R) (hx : x ≠ []) (hy : y ≠ []) :
    ∃ y1 f1 y2 f2 z, f.filter x = (.ok y1, f1) ∧ (f1.setB c).filter y = (.ok y2, f2) ∧ (f.setB c).filter (x ++ y) = (.ok (z ++ y2), f2) ∧
      z.length = x.length := by
  obtain ⟨y1, z, g, h1, h2, h3, h4⟩ := iir_state_b c x f hf hc
  obtain ⟨y2, f2, k1, -⟩ := Iir.runLoop_wf (g.setB c) h4 y
  refine ⟨y1, g, y2, f2, z, ?_, ?_, ?_, h3⟩
  · unfold Iir.filter; rw [if_neg (by simpa using hx), h1]
  · unfold Iir.filter; rw [if_neg (by simpa using hy), k1]
  · unfold Iir.filter; rw [if_neg (by simp [hx]), runLoop_append, h2, thenRun, k1]

example := C120_exchange_iir (⟨id, [0, 1 / 2], [1, 2], [0, 3]⟩ : Iir ℚ) ⟨rfl, rfl, by simp⟩ [5, -1] rfl [1, 4] [2] (by simp) (by simp)

/-- C120, FirFilter: nonempty coefficients of another length are accepted, but `filter` raises ValueError, when the first sample is in the state already. -/
theorem C120_length_fir [Dot R] (f : Fir R) (hs : f.s ≠ []) (c : List R) (hb : c ≠ []) (hc : c.length ≠ f.s.length) (v : R) (x : List R) :
    (f.setB c).filter (v :: x) = (.error .valueError, { f with b := c, s := f.cast v :: f.s.dropLast }) := by
  unfold Fir.filter
  rw [if_neg (by simp), runLoop]
  have : (f.setB c).step v = (.error .valueError, { f with b := c, s := f.cast v :: f.s.dropLast }) := by
    rcases hfs : f.s with _ | ⟨s0, t⟩
    · exact absurd hfs hs
    · rcases t with _ | ⟨s1, t⟩
      · simp [hfs] at hc
        simp [Fir.step, Fir.setB, hfs, hb, hc]
      · simp [hfs] at hc
        simp [Fir.step, Fir.setB, hfs, shiftRight, hb, hc]
  rw [this]

example := C120_length_fir (⟨id, [1, 2], [0, 3]⟩ : Fir ℚ) (by simp) [5, -1, 4] (by simp) (by simp) 1 [2]

/-- C120: no coefficients `b` at all are accepted as well, and `filter` raises IndexError, before it changes anything. -/
theorem C120_empty [Add R] [Mul R] [Dot R] (f : Fir R) (g : Iir R) (v : R) (x : List R) :
    (f.setB []).filter (v :: x) = (.error .indexError, f.setB []) ∧ (g.setB []).filter (v :: x) = (.error .indexError, g.setB []) := ⟨rfl, rfl⟩

example := C120_empty (⟨id, [1, 2], [0, 3]⟩ : Fir ℚ) ⟨id, [0, 1 / 2], [1, 2], [0, 3]⟩ 1 [2]

/-- C120, IirFilter: coefficients `a` of another length than the state are accepted, but `filter` raises ValueError, before it changes anything. -/
theorem C120_length_iir [Add R] [Mul R] [Dot R] (f : Iir R) (hb : f.b ≠ []) (hs : 1 < f.s.length) (c : List R) (hc : c.length ≠ f.s.length) (v : R) (x : List R) :
    (f.setA c).filter (v :: x) = (.error .valueError, f.setA c) := by
  unfold Iir.filter
  rw [if_neg (by simp), runLoop]
  have : (f.setA c).step v = (.error .valueError, f.setA c) := by
    simp [Iir.step, Iir.setA, hb, hs, hc]
  rw [this]

example := C120_length_iir (⟨id, [0, 1 / 2], [1, 2], [0, 3]⟩ : Iir ℚ) (by simp) (by simp) [0, 1, 2] (by simp) 1 [2]

private theorem broadcast_step [Add R] [Mul R] [Dot R] (β : R) (n : ℕ) (hn : 0 < n) (f : Iir R) (ha : f.a.length = n) (hs : f.s.length = n) (v : R) :
    ∃ r s, (f.setB [β]).step v = (.ok r, { f with b := [β], s := s }) ∧
      (f.setB (List.replicate n β)).step v = (.ok r, { f with b := List.replicate n β, s := s }) ∧ s.length = n := by
  have hwf : (f.setB (List.replicate n β)).WF := ⟨by simp [Iir.setB, ha], by simp [Iir.setB, hs], by simpa [Iir.setB] using hn⟩
  have e := Iir.step_wf _ hwf v
  have hl : ((f.setB (List.replicate n β)).cast v :: (f.setB (List.replicate n β)).mem.dropLast).length = n := by
    have : (f.setB (List.replicate n β)).mem.length = n := by rw [Iir.mem_length]; exact hs
    simp [this]; omega
  refine ⟨_, _, ?_, e, hl⟩
  have hbc : bcAdd (f.a.map (· * β)) [β] = bcAdd (f.a.map (· * β)) (List.replicate n β) := by
    rcases hfa : f.a with _ | ⟨a0, t⟩
    · simp [hfa] at ha; omega
    · rcases t with _ | ⟨a1, t⟩
      · simp [hfa] at ha; subst ha; rfl
      · have h1 : ¬ ((a0 :: a1 :: t).map (· * β)).length = [β].length := by simp
        have h2 : ((a0 :: a1 :: t).map (· * β)).length = (List.replicate n β).length := by simp [← ha, hfa]
        unfold bcAdd
        rw [if_neg h1, if_pos h2]
        simp only [List.map_cons]
        congr 1
        · apply List.ext_getElem
          · simp [← ha, hfa]
          intro i i1 i2
          simp only [List.getElem_zipWith, List.getElem_replicate]
          rcases i with _ | _ | i
          · rfl
          · rfl
          · simp
  have hrep : List.replicate n β = β :: List.replicate (n - 1) β := by
    obtain ⟨m, rfl⟩ : ∃ m, n = m + 1 := ⟨n - 1, by omega⟩
    simp [List.replicate_succ]
  have key : (f.setB [β]).step v = (((f.setB (List.replicate n β)).step v).1, (((f.setB (List.replicate n β)).step v).2).setB [β]) := by
    rcases f with ⟨cast, a, b, s⟩
    simp only at ha hs hbc
    show Iir.step ⟨cast, a, [β], s⟩ v = ((Iir.step ⟨cast, a, List.replicate n β, s⟩ v).1, ((Iir.step ⟨cast, a, List.replicate n β, s⟩ v).2).setB [β])
    unfold Iir.step
    dsimp only
    rw [if_neg (show ¬ [β].length = 0 by simp), if_neg (show ¬ (List.replicate n β).length = 0 by rw [List.length_replicate]; omega)]
    have hq : ∃ q, (if s.length > 1 then if a.length = s.length then Except.ok (shiftRight (s.modifyHead (fun s0 => cast (s0 + dot a s))))
      else Except.error PyErr.valueError else Except.ok s : Res (List R)) = .ok q := by
      rw [if_pos (ha.trans hs.symm)]
      split_ifs <;> exact ⟨_, rfl⟩
    obtain ⟨q, hq⟩ := hq
    simp only [hq]
    rcases q with _ | ⟨q0, t⟩
    · rfl
    · simp only [hbc]
      generalize hc : bcAdd (a.map (· * β)) (List.replicate n β) = c
      rw [hrep] at hc ⊢
      simp only [hc]
      rcases c with er | c
      · rfl
      · simp only
        split_ifs <;> rfl
  rw [key, e]
  rfl

private theorem broadcast_loop [Add R] [Mul R] [Dot R] (β : R) (n : ℕ) (hn : 0 < n) (x : List R) : ∀ f : Iir R, f.a.length = n → f.s.length = n →
    (runLoop Iir.step (f.setB [β]) x).1 = (runLoop Iir.step (f.setB (List.replicate n β)) x).1 ∧
      (runLoop Iir.step (f.setB [β]) x).2.s = (runLoop Iir.step (f.setB (List.replicate n β)) x).2.s := by
  induction x with
  | nil => intro f _ _; exact ⟨rfl, rfl⟩
  | cons v x ih =>
    intro f ha hs
    obtain ⟨r, s, e1, e2, hl⟩ := broadcast_step β n hn f ha hs v
    obtain ⟨i1, i2⟩ := ih { f with s := s } ha hl
    have g1 : ({ f with b := [β], s := s } : Iir R) = Iir.setB { f with s := s } [β] := rfl
    have g2 : ({ f with b := List.replicate n β, s := s } : Iir R) = Iir.setB { f with s := s } (List.replicate n β) := rfl
    rw [runLoop, runLoop, e1, e2]
    simp only
    rw [g1, g2]
    rcases h1 : runLoop Iir.step (Iir.setB { f with s := s } [β]) x with ⟨r1, t1⟩
    rcases h2 : runLoop Iir.step (Iir.setB { f with s := s } (List.replicate n β)) x with ⟨r2, t2⟩
    rw [h1, h2] at i1 i2
    simp only at i1 i2
    subst i1
    rcases r1 with er | r1 <;> exact ⟨rfl, i2⟩

/-- C120, IirFilter: a single coefficient `b` is accepted for any order, and stands for as many equal ones (numpy broadcasts line 310). -/
theorem C120_broadcast_iir [Add R] [Mul R] [Dot R] (f : Iir R) (hf : f.WF) (β : R) (x : List R) :
    ((f.setB [β]).filter x).1 = ((f.setB (List.replicate f.b.length β)).filter x).1 ∧
      ((f.setB [β]).filter x).2.s = ((f.setB (List.replicate f.b.length β)).filter x).2.s := by
  unfold Iir.filter
  split_ifs
  · exact ⟨rfl, rfl⟩
  · obtain ⟨h1, h2⟩ := broadcast_loop β f.b.length hf.2.2 x f (hf.1) (hf.2.1.symm)
    exact ⟨h1, h2⟩

example := C120_broadcast_iir (⟨id, [0, 1 / 2], [1, 2], [0, 3]⟩ : Iir ℚ) ⟨rfl, rfl, by simp⟩ 7 [1, 4]

end Exchange

section Restore

variable {R : Type} [Field R] [Dot R]

/-- `f.s = p`. -/
def setState : Obj R → ℕ → Obj R
  | .fir f, l => .fir (f.setS l)
  | .iir f, l => .iir (f.setS l)

/-- C120: a copy of the state, taken before other signals and assigned after them, brings the filter back exactly. -/
theorem C120_restore (o : Obj R) (h : Heap R) (hs : o.state < h.length) (hc : ∀ p ∈ o.coefs, p < h.length) (hn : o.state ∉ o.coefs) (x y ys : List R)
    (hy : ((o.value h).filter y).1 = .ok ys) :
    let h1 := (h.alloc (h.read o.state)).2
    let h2 := (o.filter h1 (.list x)).2
    ∃ l, ((setState o (h.alloc (h.read o.state)).1).filter h2 (.list y)).1 = .ok l ∧ ((setState o (h.alloc (h.read o.state)).1).filter h2 (.list y)).2.read l = ys := by
  intro h1 h2
  have hlen : h1.length = h.length + 1 := Heap.length_alloc _ _
  have hr : ∀ l < h.length, h1.read l = h.read l := fun l hl => Heap.read_alloc_lt _ _ _ hl
  obtain ⟨k1, k2, -, -, -⟩ := obj_filter o h1 (.list x) (by simp) (by omega) (fun p hp => by have := hc p hp; omega) hn (by simp)
  have hk1 : h1.length ≤ h2.length := k1
  have hloc : (h.alloc (h.read o.state)).1 = h.length := rfl
  rw [hloc]
  have hsaved : h2.read h.length = h.read o.state := by
    rw [k2 _ (by omega) (by omega)]
    exact Heap.read_alloc_self _ _
  have hcoef : ∀ p ∈ o.coefs, h2.read p = h.read p := fun p hp => by
    rw [k2 _ (by have := hc p hp; omega) (fun e => hn (e ▸ hp)), hr _ (hc p hp)]
  have hst : (setState o h.length).state = h.length := by cases o <;> rfl
  have hco : (setState o h.length).coefs = o.coefs := by cases o <;> rfl
  have hval : (setState o h.length).value h2 = o.value h := by
    cases o with
    | fir f => simp [setState, Obj.value, FirRef.setS, hsaved, hcoef f.b (by simp [Obj.coefs]), Obj.state]
    | iir f => simp [setState, Obj.value, IirRef.setS, hsaved, hcoef f.a (by simp [Obj.coefs]), hcoef f.b (by simp [Obj.coefs]), Obj.state]
  obtain ⟨-, -, -, -, m5⟩ := obj_filter (setState o h.length) h2 (.list y) (by simp) (by rw [hst]; omega)
    (fun p hp => by rw [hco] at hp; have := hc p hp; omega) (by rw [hst, hco]; intro hp; exact absurd (hc _ hp) (by omega)) (by simp)
  obtain ⟨l, e1, -, -, e2⟩ := m5 ys (by rw [hval]; exact hy)
  exact ⟨l, e1, e2⟩

/-- C120: without the copy nothing is saved: `p = f.s` is the state itself, and `f.s = p` afterwards changes nothing. -/
theorem C120_not_saved (o : Obj R) (h : Heap R) (hs : o.state < h.length) (hc : ∀ p ∈ o.coefs, p < h.length) (hn : o.state ∉ o.coefs) (x y ys : List R)
    (hy : (((o.value h).filter x).2.filter y).1 = .ok ys) :
    let h2 := (o.filter h (.list x)).2
    ∃ l, ((setState o o.state).filter h2 (.list y)).1 = .ok l ∧ ((setState o o.state).filter h2 (.list y)).2.read l = ys := by
  intro h2
  have hself : setState o o.state = o := by cases o <;> rfl
  rw [hself]
  obtain ⟨k1, k2, k3, -, -⟩ := obj_filter o h (.list x) (by simp) hs hc hn (by simp)
  have hk1 : h.length ≤ h2.length := k1
  obtain ⟨-, -, -, -, m5⟩ := obj_filter o h2 (.list y) (by simp) (by omega) (fun p hp => by have := hc p hp; omega) hn (by simp)
  obtain ⟨l, e1, -, -, e2⟩ := m5 ys (by rw [k3]; exact hy)
  exact ⟨l, e1, e2⟩

/-- C120: two FirFilters of one length which have been assigned the same state array: what one filters, the other takes to have filtered. -/
theorem C120_shared (f g : FirRef R) (h : Heap R) (hfs : f.s < h.length) (hfb : f.b < h.length) (hgb : g.b < h.length) (hf : f.b ≠ f.s) (hg : g.b ≠ f.s)
    (hcast : g.cast = f.cast) (hlf : (h.read f.b).length = (h.read f.s).length) (hlg : (h.read g.b).length = (h.read f.s).length) (hpos : h.read f.s ≠ [])
    (x y : List R) (hx : x ≠ []) (hy : y ≠ []) :
    let g' := g.setS f.s
    ∃ l z ys, (g'.filter (f.filter h (.list x)).2 (.list y)).1 = .ok l ∧ (g'.filter (f.filter h (.list x)).2 (.list y)).2.read l = ys ∧
      ((Fir.filter ⟨g.cast, h.read g.b, h.read f.s⟩ (x ++ y)).1 = .ok (z ++ ys)) ∧ z.length = x.length := by
  intro g'
  obtain ⟨k1, k2, k3, -, -⟩ := obj_filter (.fir f) h (.list x) (by simp) hfs (by simpa [Obj.coefs] using hfb) (by simpa [Obj.coefs, Obj.state] using hf.symm) (by simp)
  have hpos' : 0 < (h.read f.s).length := List.length_pos_iff.mpr hpos
  have hwf : Fir.WF (⟨f.cast, h.read f.b, h.read f.s⟩ : Fir R) := ⟨hlf, by simp only; omega⟩
  obtain ⟨y1, f1, y2, f2, z, e1, e2, e3, e4⟩ := C120_exchange_fir _ hwf (h.read g.b) (hlg.trans hlf.symm) x y hx hy
  set h2 := (f.filter h (.list x)).2 with hh2
  have hval : f.view h2 = f1 := by
    have : VObj.fir (f.view h2) = VObj.fir f1 := by
      have h3 : Obj.value h2 (.fir f) = ((Obj.value h (.fir f)).filter x).2 := k3
      simp only [Obj.value, VObj.filter, e1] at h3
      exact h3
    injection this
  have hgv : Obj.value h2 (.fir g') = .fir (f1.setB (h.read g.b)) := by
    have hb : h2.read g.b = h.read g.b := k2 _ hgb hg
    rw [← hval]
    simp only [Obj.value, g', FirRef.setS, FirRef.view, Fir.setB, hb, hcast]
  obtain ⟨-, -, -, -, m5⟩ := obj_filter (.fir g') h2 (.list y) (by simp) (by show f.s < _; exact lt_of_lt_of_le hfs k1)
    (by simp [Obj.coefs, g', FirRef.setS]; exact lt_of_lt_of_le hgb k1) (by simp [Obj.coefs, Obj.state, g', FirRef.setS]; exact hg.symm) (by simp)
  obtain ⟨l, q1, -, -, q2⟩ := m5 y2 (by rw [hgv]; simp only [VObj.filter, Arg.read, e2])
  refine ⟨l, z, y2, q1, q2, ?_, e4⟩
  rw [hcast]
  have : (Fir.setB ⟨f.cast, h.read f.b, h.read f.s⟩ (h.read g.b) : Fir R) = ⟨f.cast, h.read g.b, h.read f.s⟩ := rfl
  rw [← this, e3]

end Restore

/-- C120, RankFilter: a state of any length may be assigned, but `filter` of a nonempty signal succeeds exactly if the index is within it. -/
theorem C120_rank {R K : Type*} [LinearOrder K] (argsort : List K → List ℕ) (ha : IsArgsort argsort) (key : R → K) (f : Rank R) (h0 : 0 ≤ f.index) (s : List R)
    (x : List R) (hx : x ≠ []) :
    (∃ y, ((f.setS s).filter argsort key x).1 = .ok y) ↔ f.index < s.length := by
  constructor
  · rintro ⟨y, hy⟩
    by_contra hlt
    rcases x with _ | ⟨v, x⟩
    · exact hx rfl
    · unfold Rank.filter at hy
      rw [if_neg (by simp), runLoop] at hy
      have : ∃ e g, (f.setS s).step argsort key v = (.error e, g) := by
        unfold Rank.step
        rcases hs : (f.setS s).s with _ | ⟨s0, t⟩
        · exact ⟨_, _, rfl⟩
        · have hs' : s = s0 :: t := hs
          have hperm := ha ((v :: t).map key)
          have hlen : ((argsort ((v :: t).map key)).filterMap fun i => (v :: t)[i]?).length ≤ (v :: t).length := by
            refine (List.length_filterMap_le _ _).trans ?_
            have := hperm.1.length_eq
            simp at this ⊢
            omega
          have : pyGet ((argsort ((v :: t).map key)).filterMap fun i => (v :: t)[i]?) (f.setS s).index = .error .indexError := by
            have hi : (f.setS s).index = f.index := rfl
            unfold pyGet
            rw [hi, if_neg (by omega), if_neg (by omega), List.getElem?_eq_none]
            rw [hs'] at hlt
            simp at hlt hlen ⊢
            omega
          simp only [this]
          exact ⟨_, _, rfl⟩
      obtain ⟨e, g, hst⟩ := this
      rw [hst] at hy
      cases hy
  · intro hlt
    obtain ⟨ys, g, h1, -⟩ := Rank.runLoop_spec argsort ha key x (f.setS s) h0 hlt
    refine ⟨ys, ?_⟩
    unfold Rank.filter
    rw [if_neg (by simpa using hx), h1]

/-- Exchanging the coefficients of a moving average after the sample 4: the 4 is weighted by the new coefficient. -/
example : ((Fir.filter (⟨id, [1, 1], [0, 0]⟩ : Fir ℚ) [4]).2.setB [1, 10]).filter [5] = (.ok [45], ⟨id, [1, 10], [5, 4]⟩) := by
  norm_num [Fir.filter, runLoop, Fir.step, Fir.setB, shiftRight, dot]

/-- The hypotheses of `C120_exchange_fir`, `C120_exchange_iir` and `C120_broadcast_iir` hold. -/
example : (⟨id, [1, 1], [0, 0]⟩ : Fir ℚ).WF ∧ (⟨id, [0, 1/2], [1, 1], [0, 0]⟩ : Iir ℚ).WF ∧ ([1, 10] : List ℚ).length = ([1, 1] : List ℚ).length := by
  simp [Fir.WF, Iir.WF]

/-- A single coefficient for a filter of order one. -/
example : ((⟨id, [0, 1/2], [1, 1], [0, 0]⟩ : Iir ℚ).setB [3]).filter [2, 0] = (.ok [6, 9], ⟨id, [0, 1/2], [3], [0, 2]⟩) := by
  norm_num [Iir.filter, runLoop, Iir.step, Iir.setB, shiftRight, dot, bcAdd]

/-- The hypotheses of `C120_length_fir` and `C120_length_iir` hold. -/
example : (⟨id, [1, 1], [0, 0]⟩ : Fir ℚ).s ≠ [] ∧ ([1, 2, 3] : List ℚ).length ≠ (⟨id, [1, 1], [0, 0]⟩ : Fir ℚ).s.length ∧
    1 < (⟨id, [0, 1/2], [1, 1], [0, 0]⟩ : Iir ℚ).s.length := by
  simp

/-- The hypotheses of `C120_restore`, `C120_not_saved` and `C120_shared` hold for a filter whose coefficients and state are the first two arrays, and another whose
coefficients are the third. -/
example : let h : Heap ℚ := [[1, 1], [0, 3], [1, 10]]
    let f : FirRef ℚ := ⟨id, 0, 1⟩
    (Obj.fir f).state < h.length ∧ (∀ p ∈ (Obj.fir f).coefs, p < h.length) ∧ (Obj.fir f).state ∉ (Obj.fir f).coefs ∧
      ((Obj.value h (.fir f)).filter [2]).1 = .ok [2] ∧ (h.read 2).length = (h.read f.s).length ∧ h.read f.s ≠ [] ∧ 2 ≠ f.s := by
  norm_num [Obj.state, Obj.coefs, Obj.value, VObj.filter, Heap.read, Fir.filter, runLoop, Fir.step, shiftRight, dot]
  exact List.cons_ne_nil _ _

/-- The hypotheses of `C120_rank` hold, and an index beyond the state assigned makes `filter` raise. -/
example : IsArgsort (argsortRef (K := ℚ)) ∧ (0 : ℤ) ≤ (⟨[0, 0, 0], 2⟩ : Rank ℚ).index ∧
    ¬ ((⟨[0, 0, 0], 2⟩ : Rank ℚ).index < (([0, 0] : List ℚ).length : ℤ)) :=
  ⟨argsortRef_isArgsort, by norm_num, by norm_num⟩

end Verif.Props
