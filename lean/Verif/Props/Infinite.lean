import Verif.Props.Nan
import Verif.Spec.Ext
import Mathlib.Tactic.Linarith
import Mathlib.Data.EReal.Basic

/-
Property C143: infinite samples in FirFilter, IirFilter, PidFilter and RankFilter.
-/

namespace Verif.Props

open Verif.Spec

/-- What is left of a value when the infinities are taken for nan. -/
def toNum : Ext → Num ℝ
  | .fin v => .val v
  | _ => .nan

theorem toNum_val {e : Ext} {v : ℝ} (h : toNum e = .val v) : e = .fin v := by
  cases e with
  | fin w => simpa [toNum] using h
  | inf s => simp [toNum] at h
  | nan => simp [toNum] at h

theorem toNum_nan {e : Ext} : toNum e = .nan ↔ ¬ e.IsFin := by
  cases e with
  | fin w => simp [toNum, Ext.IsFin]
  | inf s => simp [toNum, Ext.IsFin]
  | nan => simp [toNum, Ext.IsFin]

theorem toNum_add (u v : Ext) : toNum (u + v) = toNum u + toNum v := by
  show toNum (Ext.add u v) = _
  cases u <;> cases v <;> simp only [Ext.add] <;> (try split_ifs) <;> rfl

theorem toNum_neg (v : Ext) : toNum (Ext.neg v) = Num.map (- ·) (toNum v) := by
  cases v <;> rfl

theorem toNum_sub (u v : Ext) : toNum (u - v) = toNum u - toNum v := by
  show toNum (u + Ext.neg v) = _
  rw [toNum_add, toNum_neg]
  cases u <;> cases v <;> simp only [toNum, Num.map, val_add, val_sub, nan_add, add_nan, nan_sub, sub_nan, sub_eq_add_neg]

theorem toNum_mul (u v : Ext) : toNum (u * v) = toNum u * toNum v := by
  show toNum (Ext.mul u v) = _
  cases u <;> cases v <;> simp only [Ext.mul] <;> (try split_ifs) <;> rfl

theorem ext_dot_cons (u v : Ext) (a b : List Ext) : dot (u :: a) (v :: b) = u * v + dot a b := rfl

theorem num_dot_nil : dot ([] : List (Num ℝ)) [] = Num.val 0 := by
  have := dot_val ([] : List ℝ) []
  simpa [dot_def] using this

theorem num_dot_cons (u v : Num ℝ) (a b : List (Num ℝ)) (h : a.length = b.length) : dot (u :: a) (v :: b) = u * v + dot a b := by
  classical
  by_cases hn : Num.nan ∈ u :: a ∨ Num.nan ∈ v :: b
  · have e1 : dot (u :: a) (v :: b) = Num.nan := by
      show (if Num.nan ∈ u :: a ∨ Num.nan ∈ v :: b then Num.nan else _) = _
      rw [if_pos hn]
    rw [e1]
    by_cases h2 : Num.nan ∈ a ∨ Num.nan ∈ b
    · have e2 : dot a b = Num.nan := by
        show (if Num.nan ∈ a ∨ Num.nan ∈ b then Num.nan else _) = _
        rw [if_pos h2]
      rw [e2, add_nan]
    · have : u = Num.nan ∨ v = Num.nan := by
        simp only [List.mem_cons] at hn
        rw [not_or] at h2
        rcases hn with (h | h) | (h | h)
        · exact Or.inl h.symm
        · exact absurd h h2.1
        · exact Or.inr h.symm
        · exact absurd h h2.2
      rcases this with rfl | rfl
      · rfl
      · rw [mul_nan, nan_add]
  · rw [not_or] at hn
    obtain ⟨p, hp⟩ := eq_map_of_not_nan _ hn.1
    obtain ⟨q, hq⟩ := eq_map_of_not_nan _ hn.2
    rcases p with _ | ⟨p0, p⟩
    · simp at hp
    rcases q with _ | ⟨q0, q⟩
    · simp at hq
    simp only [List.map_cons, List.cons.injEq] at hp hq
    obtain ⟨rfl, rfl⟩ := hp
    obtain ⟨rfl, rfl⟩ := hq
    rw [← List.map_cons, ← List.map_cons, dot_val, dot_val, val_mul, val_add]
    simp [dot_def]

theorem toNum_dot (a b : List Ext) (h : a.length = b.length) : toNum (dot a b) = dot (a.map toNum) (b.map toNum) := by
  induction a generalizing b with
  | nil =>
    rcases b with _ | ⟨v, b⟩
    · rw [List.map_nil, num_dot_nil]
      rfl
    · simp at h
  | cons u a ih =>
    rcases b with _ | ⟨v, b⟩
    · simp at h
    · have hl : a.length = b.length := by simpa using h
      rw [ext_dot_cons, toNum_add, toNum_mul, ih b hl, List.map_cons, List.map_cons, num_dot_cons _ _ _ _ (by simpa using hl)]

/-- Two loops, the second one a projection of the first. -/
theorem runLoop_proj {σ τ ι κ ο π : Type*} (step1 : σ → ι → Res ο × σ) (step2 : τ → κ → Res π × τ) (rel : σ → τ → Prop) (j : ι → κ) (o : ο → π)
    (h : ∀ s t x, rel s t → (step2 t (j x)).1 = (step1 s x).1.map o ∧ rel (step1 s x).2 (step2 t (j x)).2) (s : σ) (t : τ) (hst : rel s t) (xs : List ι) :
    (runLoop step2 t (xs.map j)).1 = (runLoop step1 s xs).1.map (List.map o) ∧ rel (runLoop step1 s xs).2 (runLoop step2 t (xs.map j)).2 := by
  induction xs generalizing s t with
  | nil => exact ⟨rfl, hst⟩
  | cons x xs ih =>
    obtain ⟨h1, h2⟩ := h s t x hst
    simp only [runLoop, List.map_cons]
    rcases e1 : step1 s x with ⟨r1, s'⟩
    rcases e2 : step2 t (j x) with ⟨r2, t'⟩
    rw [e1, e2] at h1 h2
    simp only at h1 h2
    subst h1
    cases r1 with
    | error e => exact ⟨rfl, h2⟩
    | ok y =>
      obtain ⟨h3, h4⟩ := ih s' t' h2
      simp only [Except.map]
      rcases e3 : runLoop step1 s' xs with ⟨r3, s''⟩
      rcases e4 : runLoop step2 t' (xs.map j) with ⟨r4, t''⟩
      rw [e3, e4] at h3 h4
      simp only at h3 h4
      subst h3
      cases r3 with
      | error e => exact ⟨rfl, h4⟩
      | ok ys => exact ⟨rfl, h4⟩

/-- The filter as it is, in the numbers with infinities. -/
def extFir (f : Fir ℝ) : Fir Ext := ⟨id, f.b.map .fin, f.s.map .fin⟩

/-- The filter as it is, in the numbers with infinities. -/
def extIir (f : Iir ℝ) : Iir Ext := ⟨id, f.a.map .fin, f.b.map .fin, f.s.map .fin⟩

/-- The filter as it is, in the numbers with infinities. -/
def extPid (f : Pid ℝ ℝ) : Pid Ext Ext := ⟨id, .fin f.b0, .fin f.b1, .fin f.b2, .fin f.s0, .fin f.s1, .fin f.s2, f.limit.map .fin⟩

/-- An infinite magnitude is not below `inf`, nor is nan (`IsNan`). -/
instance : IsNan Ext := ⟨fun | .fin _ => false | _ => true⟩

theorem toNum_map_fin (l : List ℝ) : (l.map Ext.fin).map toNum = l.map Num.val := by
  rw [List.map_map]
  rfl

theorem map_toNum_eq (l : List Ext) (m : List ℝ) (h : l.map toNum = m.map Num.val) : l = m.map .fin := by
  induction l generalizing m with
  | nil => cases m with
    | nil => rfl
    | cons => simp at h
  | cons e l ih =>
    cases m with
    | nil => simp at h
    | cons v m =>
      simp only [List.map_cons, List.cons.injEq] at h
      rw [List.map_cons, ih m h.2, toNum_val h.1]

theorem num_map_id : (Num.map id : Num ℝ → Num ℝ) = id := by
  funext v
  cases v <;> rfl

theorem getElem?_toNum_nan (y : List Ext) (n : ℕ) (hn : n < y.length) : (y.map toNum)[n]? = some .nan ↔ ¬ (y[n]).IsFin := by
  rw [List.getElem?_map, List.getElem?_eq_getElem hn, Option.map_some, Option.some.injEq, toNum_nan]

/-- The projection of a filter. -/
def FirProj (s : Fir Ext) (t : Fir (Num ℝ)) : Prop := s.cast = id ∧ t.cast = id ∧ s.WF ∧ t.b = s.b.map toNum ∧ t.s = s.s.map toNum

theorem firProj_step (s : Fir Ext) (t : Fir (Num ℝ)) (x : Ext) (h : FirProj s t) : (t.step (toNum x)).1 = (s.step x).1.map toNum ∧ FirProj (s.step x).2 (t.step (toNum x)).2 := by
  obtain ⟨h1, h2, h3, h4, h5⟩ := h
  have ht : t.WF := by
    obtain ⟨w1, w2⟩ := h3
    exact ⟨by rw [h4, h5]; simpa using w1, by rw [h4]; simpa using w2⟩
  have hw := Fir.step_wf_wf s h3 x
  rw [Fir.step_wf s h3] at hw ⊢
  rw [Fir.step_wf t ht]
  have hl : s.b.length = (x :: s.s.dropLast).length := by
    have := h3.1
    have := h3.2
    simp
    omega
  have e1 : toNum x :: t.s.dropLast = (x :: s.s.dropLast).map toNum := by rw [h5, List.map_cons, List.map_dropLast]
  refine ⟨?_, h1, h2, hw, h4, ?_⟩
  · simp only [h1, h2, id, Except.map]
    rw [e1, h4, ← toNum_dot _ _ hl]
  · simp only [h1, h2, id]
    exact e1

/-- C143: FirFilter.  An output is not finite exactly when one of the samples under its coefficients is not (also under a zero coefficient); every other output is what it were with any numbers in
place of these samples, and after `len(b)` further numbers no trace is left in the object. -/
theorem C143_fir (f : Fir ℝ) (hc : f.cast = id) (hl : f.b.length = f.s.length) (hb : f.b ≠ []) (x : List Ext) (hx : x ≠ []) :
    ∃ y f', (extFir f).filter x = (.ok y, f') ∧ y.length = x.length ∧
      (∀ n < x.length, ((∃ v, y[n]? = some (.fin v)) ↔ ∀ i ≤ n, n < i + f.b.length → ∃ v, x[i]? = some (.fin v))) ∧
      ∀ z : List ℝ, z.length = x.length → (∀ (i : ℕ) (v : ℝ), x[i]? = some (.fin v) → z[i]? = some v) → ∃ yz fz, f.filter z = (.ok yz, fz) ∧
        (∀ (n : ℕ) (v : ℝ), y[n]? = some (.fin v) → yz[n]? = some v) ∧
        ((∀ i, i + f.b.length ≥ x.length → i < x.length → ∃ v, x[i]? = some (.fin v)) → f' = extFir fz) := by
  have hrel : FirProj (extFir f) (nanFir f) := by
    refine ⟨rfl, by rw [nanFir, hc]; exact num_map_id, ⟨by simpa [extFir] using hl, by simpa [extFir] using List.length_pos_iff.mpr hb⟩, (toNum_map_fin f.b).symm, (toNum_map_fin f.s).symm⟩
  obtain ⟨e1, e2⟩ := runLoop_proj Fir.step Fir.step FirProj toNum toNum firProj_step _ _ hrel x
  obtain ⟨y', f'', n1, n2, n3, n4⟩ := C112_fir_nan f hl hb (x.map toNum) (by simpa using hx)
  have hx0 : x.length ≠ 0 := by simpa using hx
  simp only [Fir.filter, List.length_map, hx0, if_false] at n1 ⊢
  rw [n1] at e1 e2
  rcases hrun : runLoop Fir.step (extFir f) x with ⟨r, f'⟩
  rw [hrun] at e1 e2
  cases r with
  | error e => simp [Except.map] at e1
  | ok y =>
    simp only [Except.map, Except.ok.injEq] at e1
    subst e1
    rw [List.length_map, List.length_map] at n2
    refine ⟨y, f', rfl, n2, fun n hn => ?_, fun z hz hzx => ?_⟩
    · have hy : (∃ v, y[n]? = some (.fin v)) ↔ ¬ (y.map toNum)[n]? = some Num.nan := by
        rw [getElem?_toNum_nan y n (by omega), not_not, List.getElem?_eq_getElem (by omega)]
        simp [Ext.IsFin]
      rw [hy, n3 n (by simpa using hn)]
      push Not
      refine forall₂_congr fun i hi => forall_congr' fun hL => ?_
      have hix : i < x.length := by omega
      rw [Ne, getElem?_toNum_nan x i hix, not_not, List.getElem?_eq_getElem hix]
      simp [Ext.IsFin]
    · obtain ⟨yz, fz, k1, k2, k3⟩ := n4 z (by
        refine List.forall₂_iff_get.mpr ⟨by simpa using hz, fun i h1 h2 => ?_⟩
        simp only [List.get_eq_getElem, List.getElem_map]
        have hix : i < x.length := by simpa using h2
        rcases hxi : x[i] with v | s | _
        · left
          have := hzx i v (by rw [List.getElem?_eq_getElem hix, hxi])
          rw [List.getElem?_eq_getElem h1, Option.some.injEq] at this
          rw [this]
          rfl
        · exact Or.inr rfl
        · exact Or.inr rfl)
      refine ⟨yz, fz, by simpa [Fir.filter, hz, hx0] using k1, fun n v hv => ?_, fun hlast => ?_⟩
      · have hn : n < y.length := by
          by_contra hge
          rw [List.getElem?_eq_none (by omega)] at hv
          simp at hv
        have := k2 n (by simpa using n2 ▸ hn) (by rw [List.getElem?_map, hv]; simp [toNum])
        rw [List.getElem?_map, hv] at this
        rcases hyz : yz[n]? with _ | w
        · rw [hyz] at this
          simp at this
        · rw [hyz] at this
          simpa [toNum] using this.symm
      · have := k3 (by
          intro i hi
          have hix : i < x.length := by
            by_contra hge
            rw [List.getElem?_eq_none (by simpa using hge)] at hi
            simp at hi
          rw [List.length_map]
          by_contra hge
          obtain ⟨v, hv⟩ := hlast i (by omega) hix
          rw [List.getElem?_map, hv] at hi
          simp [toNum] at hi)
        obtain ⟨p1, p2, -, p4, p5⟩ := e2
        rw [this] at p4 p5
        obtain ⟨c, b, s⟩ := f'
        simp only at p1 p4 p5
        rw [extFir, map_toNum_eq b fz.b p4.symm, map_toNum_eq s fz.s p5.symm, p1]

theorem ext_dot_fin (a b : List ℝ) : ∃ v, dot (a.map Ext.fin) (b.map Ext.fin) = .fin v := by
  induction a generalizing b with
  | nil => exact ⟨0, rfl⟩
  | cons u a ih =>
    rcases b with _ | ⟨w, b⟩
    · exact ⟨0, rfl⟩
    · obtain ⟨v, hv⟩ := ih b
      rw [List.map_cons, List.map_cons, ext_dot_cons, hv]
      exact ⟨u * w + v, rfl⟩

theorem ext_all_fin (l : List Ext) (h : ∀ e ∈ l, e.IsFin) : ∃ m : List ℝ, l = m.map .fin := by
  induction l with
  | nil => exact ⟨[], rfl⟩
  | cons e l ih =>
    obtain ⟨v, rfl⟩ := h e (by simp)
    obtain ⟨m, rfl⟩ := ih fun e he => h e (by simp [he])
    exact ⟨v :: m, rfl⟩

theorem ext_dot_one (a : List ℝ) (w : List Ext) (i : ℕ) (s : Bool) (h : a.length = w.length) (hi : w[i]? = some (.inf s)) (hf : ∀ (k : ℕ) (e : Ext), w[k]? = some e → k ≠ i → e.IsFin) :
    dot (a.map Ext.fin) w = if at0 a i = 0 then .nan else .inf (s != decide (at0 a i < 0)) := by
  induction a generalizing w i with
  | nil =>
    rcases w with _ | ⟨e, w⟩
    · simp at hi
    · simp at h
  | cons u a ih =>
    rcases w with _ | ⟨e, w⟩
    · simp at h
    have hl : a.length = w.length := by simpa using h
    rw [List.map_cons, ext_dot_cons]
    rcases i with _ | i
    · have he : e = .inf s := by simpa using hi
      subst he
      obtain ⟨m, rfl⟩ := ext_all_fin w (by
        intro e he
        obtain ⟨k, hk⟩ := List.mem_iff_getElem?.mp he
        exact hf (k + 1) e (by simpa using hk) (by omega))
      obtain ⟨v, hv⟩ := ext_dot_fin a m
      rw [hv, at0_cons_zero]
      show Ext.add (Ext.mul _ _) _ = _
      simp only [Ext.mul]
      split_ifs <;> rfl
    · obtain ⟨v, rfl⟩ := hf 0 e rfl (by omega)
      rw [ih w i hl (by simpa using hi) fun k e hk hki => hf (k + 1) e (by simpa using hk) (by omega), at0_cons_succ]
      show Ext.add (Ext.mul _ _) _ = _
      simp only [Ext.mul]
      split_ifs <;> rfl

/-- C143: FirFilter, the answer to a single infinite sample: under a coefficient zero nan, under any other coefficient the infinity with the sign of the product. -/
theorem C143_fir_infinite (f : Fir ℝ) (hl : f.b.length = f.s.length) (hb : f.b ≠ []) (x : List Ext) (m : ℕ) (s : Bool) (hm : x[m]? = some (.inf s))
    (hf : ∀ (k : ℕ) (e : Ext), x[k]? = some e → k ≠ m → e.IsFin) :
    ∃ y f', (extFir f).filter x = (.ok y, f') ∧ y.length = x.length ∧
      ∀ i < f.b.length, m + i < x.length → y[m + i]? = some (if at0 f.b i = 0 then .nan else .inf (s != decide (at0 f.b i < 0))) := by
  have hx : x ≠ [] := by
    rintro rfl
    simp at hm
  have hwf : (extFir f).WF := ⟨by simpa [extFir] using hl, by simpa [extFir] using List.length_pos_iff.mpr hb⟩
  obtain ⟨y, h1, h2, h3⟩ := Fir.filter_wf (extFir f) hwf x hx
  refine ⟨y, _, h1, h2, fun i hi hmi => ?_⟩
  rw [h3 (m + i) hmi]
  have hid : ∀ l : List Ext, l.map (extFir f).cast = l := fun l => List.map_id l
  rw [hid]
  congr 1
  show dot (f.b.map Ext.fin) _ = _
  have hw := window_get x (extFir f).s (m + i) (extFir f).b.length
  refine ext_dot_one f.b _ i s ?_ ?_ ?_
  · simp [extFir]
    omega
  · rw [hw i hmi, if_pos (by simpa [extFir] using hi), if_pos (by omega), Nat.add_sub_cancel, hm]
  · intro k e hk hki
    rw [hw k hmi] at hk
    split_ifs at hk with c1 c2
    · exact hf _ e hk (by omega)
    · rw [extFir, List.getElem?_map] at hk
      rcases hs : f.s[k - (m + i + 1)]? with _ | v
      · rw [hs] at hk
        simp at hk
      · rw [hs] at hk
        exact ⟨v, by simpa using hk.symm⟩

/-- Concrete case of C143: an infinite sample under the coefficients 2, 0, -1 gives inf, nan and -inf; the outputs before and after are numbers. -/
example : ∃ y f', (extFir ⟨id, [2, 0, -1], [0, 0, 0]⟩).filter [.fin 1, .inf false, .fin 1, .fin 1, .fin 1] = (.ok y, f') ∧ y = [.fin 2, .inf false, .nan, .inf true, .fin 1] := by
  obtain ⟨y, f', h1, h2, h3⟩ := C143_fir_infinite ⟨id, [2, 0, -1], [0, 0, 0]⟩ rfl (by simp) [.fin 1, .inf false, .fin 1, .fin 1, .fin 1] 1 false rfl (by
    rintro (_ | _ | _ | _ | _ | k) e he hk
    · exact ⟨1, by simpa using he.symm⟩
    · exact absurd rfl hk
    · exact ⟨1, by simpa using he.symm⟩
    · exact ⟨1, by simpa using he.symm⟩
    · exact ⟨1, by simpa using he.symm⟩
    · simp at he)
  obtain ⟨y', f'', g1, g2, g3, g4⟩ := C143_fir ⟨id, [2, 0, -1], [0, 0, 0]⟩ rfl rfl (by simp) [.fin 1, .inf false, .fin 1, .fin 1, .fin 1] (by simp)
  rw [h1] at g1
  obtain ⟨rfl, -⟩ : y = y' ∧ f' = f'' := by simpa using g1
  refine ⟨y, f', h1, ?_⟩
  obtain ⟨yz, fz, k1, k2, -⟩ := g4 [1, 0, 1, 1, 1] rfl (by
    rintro (_ | _ | _ | _ | _ | k) v he <;> simp_all)
  have hyz : yz = [2, 0, 1, 2, 1] := by
    have : (Fir.filter (⟨id, [2, 0, -1], [0, 0, 0]⟩ : Fir ℝ) [1, 0, 1, 1, 1]).1 = .ok [2, 0, 1, 2, 1] := by
      norm_num [Fir.filter, runLoop, Fir.step, shiftRight, dot_def]
    rw [k1] at this
    simpa using this
  subst hyz
  have e0 : ∃ v, y[0]? = some (.fin v) := (g3 0 (by simp)).mpr (by
    intro i hi _
    obtain rfl : i = 0 := by omega
    exact ⟨1, rfl⟩)
  have e4 : ∃ v, y[4]? = some (.fin v) := (g3 4 (by simp)).mpr (by
    intro i hi hL
    have : 4 < i + 3 := hL
    obtain rfl | rfl | rfl : i = 2 ∨ i = 3 ∨ i = 4 := by omega
    all_goals exact ⟨1, rfl⟩)
  obtain ⟨v0, e0⟩ := e0
  obtain ⟨v4, e4⟩ := e4
  have a0 := k2 0 v0 e0
  have a4 := k2 4 v4 e4
  have b0 := h3 0 (by simp) (by simp)
  have b1 := h3 1 (by simp) (by simp)
  have b2 := h3 2 (by simp) (by simp)
  have hlt : ¬ (2 : ℝ) < 0 := by norm_num
  clear g1 g3 g4 k1 k2 h1 h3 g2
  match y, h2 with
  | [p, q, r, t, u], _ =>
    simp [at0, hlt] at e0 e4 a0 a4 b0 b1 b2
    simp [e0, e4, ← a0, ← a4, b0, b1, b2]

/-- The projection of a filter. -/
def IirProj (s : Iir Ext) (t : Iir (Num ℝ)) : Prop :=
  s.cast = id ∧ t.cast = id ∧ s.WF ∧ t.a = s.a.map toNum ∧ t.b = s.b.map toNum ∧ t.s = s.s.map toNum

theorem iirProj_comb (s : Iir Ext) (t : Iir (Num ℝ)) (ha : t.a = s.a.map toNum) (hb : t.b = s.b.map toNum) : t.comb = s.comb.map toNum := by
  rcases hsb : s.b with _ | ⟨b0, bt⟩
  · simp [Iir.comb, hb, hsb]
  · simp only [Iir.comb, hb, hsb, ha, List.map_cons, List.map_map]
    rw [← List.map_cons, List.map_zipWith, List.zipWith_map_right, List.zipWith_map_left, List.zipWith_map_left]
    congr 1
    funext u v
    simp only [Function.comp, toNum_add, toNum_mul]

theorem iirProj_mem (s : Iir Ext) (t : Iir (Num ℝ)) (h : IirProj s t) : t.mem = s.mem.map toNum := by
  obtain ⟨h1, h2, h3, h4, h5, h6⟩ := h
  have hl : s.a.length = s.s.length := h3.1.trans h3.2.1
  rcases hs : s.s with _ | ⟨s0, st⟩
  · simp [Iir.mem, h6, hs]
  · simp only [Iir.mem, h6, hs, h1, h2, h4, id, List.map_cons, List.modifyHead_cons, toNum_add]
    rw [← List.map_cons, toNum_dot _ _ (by rw [hl, hs])]

theorem iirProj_step (s : Iir Ext) (t : Iir (Num ℝ)) (x : Ext) (h : IirProj s t) : (t.step (toNum x)).1 = (s.step x).1.map toNum ∧ IirProj (s.step x).2 (t.step (toNum x)).2 := by
  have hm := iirProj_mem s t h
  obtain ⟨h1, h2, h3, h4, h5, h6⟩ := h
  have ht : t.WF := by
    obtain ⟨w1, w2, w3⟩ := h3
    exact ⟨by rw [h4, h5]; simpa using w1, by rw [h5, h6]; simpa using w2, by rw [h5]; simpa using w3⟩
  have hw := (Iir.step_wf_wf s h3 x).1
  have hcl := Iir.comb_length s h3
  rw [Iir.step_wf s h3] at hw ⊢
  rw [Iir.step_wf t ht, iirProj_comb s t h4 h5, hm]
  have hl : s.comb.length = (x :: s.mem.dropLast).length := by
    have := h3.2.1
    have := h3.2.2
    simp [Iir.mem_length]
    omega
  have e1 : toNum x :: (s.mem.map toNum).dropLast = (x :: s.mem.dropLast).map toNum := by rw [List.map_cons, List.map_dropLast]
  refine ⟨?_, h1, h2, hw, h4, h5, ?_⟩
  · simp only [h1, h2, id, Except.map]
    rw [e1, ← toNum_dot _ _ hl]
  · simp only [h1, h2, id]
    exact e1

/-- C143: IirFilter with at least two coefficients.  Before the first sample which is not finite the outputs are the usual ones; from it on no output is finite, in this call and in all later calls. -/
theorem C143_iir (f : Iir ℝ) (hc : f.cast = id) (ha : f.a.length = f.b.length) (hs : f.b.length = f.s.length) (h2 : 1 < f.b.length) (x : List Ext) (hx : x ≠ []) :
    ∃ y f', (extIir f).filter x = (.ok y, f') ∧ y.length = x.length ∧
      (∀ n < x.length, ((∃ v, y[n]? = some (.fin v)) ↔ ∀ i ≤ n, ∃ v, x[i]? = some (.fin v))) ∧
      (∀ z : List ℝ, z.length = x.length → (∀ (i : ℕ) (v : ℝ), x[i]? = some (.fin v) → z[i]? = some v) → ∃ yz fz, f.filter z = (.ok yz, fz) ∧
        ∀ (n : ℕ) (v : ℝ), y[n]? = some (.fin v) → yz[n]? = some v) ∧
      ((∃ e ∈ x, ¬ e.IsFin) → ∀ calls : List (List Ext), (∀ c ∈ calls, c ≠ []) →
        ∃ ys f'', callChunks Iir.filter f' calls = (.ok ys, f'') ∧ ys.length = calls.flatten.length ∧ ∀ e ∈ ys, ¬ e.IsFin) := by
  have hrel : IirProj (extIir f) (nanIir f) := by
    refine ⟨rfl, by rw [nanIir, hc]; exact num_map_id, ⟨by simpa [extIir] using ha, by simpa [extIir] using hs, by simp [extIir]; omega⟩, (toNum_map_fin f.a).symm, (toNum_map_fin f.b).symm,
      (toNum_map_fin f.s).symm⟩
  obtain ⟨e1, e2⟩ := runLoop_proj Iir.step Iir.step IirProj toNum toNum iirProj_step _ _ hrel x
  obtain ⟨y', f'', n1, n2, n3, n4, n5⟩ := C112_iir_nan f ha hs h2 (x.map toNum) (by simpa using hx)
  have hx0 : x.length ≠ 0 := by simpa using hx
  simp only [Iir.filter, List.length_map, hx0, if_false] at n1 ⊢
  rw [n1] at e1 e2
  rcases hrun : runLoop Iir.step (extIir f) x with ⟨r, f'⟩
  rw [hrun] at e1 e2
  cases r with
  | error e => simp [Except.map] at e1
  | ok y =>
    simp only [Except.map, Except.ok.injEq] at e1
    subst e1
    rw [List.length_map, List.length_map] at n2
    refine ⟨y, f', rfl, n2, fun n hn => ?_, fun z hz hzx => ?_, fun hbad calls hne => ?_⟩
    · have hy : (∃ v, y[n]? = some (.fin v)) ↔ ¬ (y.map toNum)[n]? = some Num.nan := by
        rw [getElem?_toNum_nan y n (by omega), not_not, List.getElem?_eq_getElem (by omega)]
        simp [Ext.IsFin]
      rw [hy, n3 n (by simpa using hn)]
      push Not
      refine forall₂_congr fun i hi => ?_
      have hix : i < x.length := by omega
      rw [Ne, getElem?_toNum_nan x i hix, not_not, List.getElem?_eq_getElem hix]
      simp [Ext.IsFin]
    · obtain ⟨yz, fz, k1, k2⟩ := n4 z (by
        refine List.forall₂_iff_get.mpr ⟨by simpa using hz, fun i h1 h2 => ?_⟩
        simp only [List.get_eq_getElem, List.getElem_map]
        have hix : i < x.length := by simpa using h2
        rcases hxi : x[i] with v | s | _
        · left
          have := hzx i v (by rw [List.getElem?_eq_getElem hix, hxi])
          rw [List.getElem?_eq_getElem h1, Option.some.injEq] at this
          rw [this]
          rfl
        · exact Or.inr rfl
        · exact Or.inr rfl)
      refine ⟨yz, fz, by simpa [Iir.filter, hz, hx0] using k1, fun n v hv => ?_⟩
      have hn : n < y.length := by
        by_contra hge
        rw [List.getElem?_eq_none (by omega)] at hv
        simp at hv
      have := k2 n (by simpa using n2 ▸ hn) (by rw [List.getElem?_map, hv]; simp [toNum])
      rw [List.getElem?_map, hv] at this
      rcases hyz : yz[n]? with _ | w
      · rw [hyz] at this
        simp at this
      · rw [hyz] at this
        simpa [toNum] using this.symm
    · have hnan : Num.nan ∈ x.map toNum := by
        obtain ⟨e, he, hf⟩ := hbad
        exact List.mem_map.mpr ⟨e, he, toNum_nan.mpr hf⟩
      have hcall := n5 hnan (calls.map (List.map toNum)) (by
        intro c hc
        obtain ⟨d, hd, rfl⟩ := List.mem_map.mp hc
        simpa using hne d hd)
      have hgen : ∀ (calls : List (List Ext)) (g : Iir Ext) (h : Iir (Num ℝ)), IirProj g h → (∀ c ∈ calls, c ≠ []) →
          (callChunks Iir.filter h (calls.map (List.map toNum))).1 = (callChunks Iir.filter g calls).1.map (List.map toNum) := by
        intro calls
        induction calls with
        | nil => intro g h _ _; rfl
        | cons c cs ih =>
          intro g h hgh hne
          have hc0 : c.length ≠ 0 := by simpa using hne c (by simp)
          obtain ⟨a1, a2⟩ := runLoop_proj Iir.step Iir.step IirProj toNum toNum iirProj_step g h hgh c
          simp only [callChunks, List.map_cons, Iir.filter, List.length_map, hc0, if_false]
          rcases r1 : runLoop Iir.step g c with ⟨q1, g1⟩
          rcases r2 : runLoop Iir.step h (c.map toNum) with ⟨q2, h1⟩
          rw [r1, r2] at a1 a2
          simp only at a1 a2
          subst a1
          cases q1 with
          | error e => rfl
          | ok ys =>
            have := ih g1 h1 a2 fun d hd => hne d (by simp [hd])
            simp only [Except.map]
            rcases r3 : callChunks Iir.filter g1 cs with ⟨q3, g3⟩
            rcases r4 : callChunks Iir.filter h1 (cs.map (List.map toNum)) with ⟨q4, h4⟩
            rw [r3, r4] at this
            simp only at this
            subst this
            cases q3 with
            | error e => rfl
            | ok zs => simp [Except.map]
      obtain ⟨h', hh⟩ := hcall
      have hfin := hgen calls f' f'' e2 hne
      rw [hh] at hfin
      rcases hq : callChunks Iir.filter f' calls with ⟨q, g⟩
      rw [hq] at hfin
      cases q with
      | error e => simp [Except.map] at hfin
      | ok ys =>
        simp only [Except.map, Except.ok.injEq] at hfin
        have hlen := congrArg List.length hfin
        rw [List.length_replicate, List.length_map, ← List.map_flatten, List.length_map] at hlen
        refine ⟨ys, g, rfl, hlen.symm, fun e he => toNum_nan.mp ?_⟩
        have : toNum e ∈ ys.map toNum := List.mem_map.mpr ⟨e, he, rfl⟩
        rw [← hfin] at this
        exact List.eq_of_mem_replicate this

/-- Concrete case of C143: a recursive filter with two coefficients which has received an infinite sample gives no number any more. -/
example : ∃ y f', (extIir ⟨id, [1, 1 / 2], [1, 0], [0, 0]⟩).filter [.inf true, .fin 0] = (.ok y, f') ∧ ¬ (∃ v, y[1]? = some (.fin v)) ∧
    ∃ ys f'', callChunks Iir.filter f' [[.fin 0], [.fin 3, .fin 4]] = (.ok ys, f'') ∧ ys.length = 3 ∧ ∀ e ∈ ys, ¬ e.IsFin := by
  obtain ⟨y, f', h1, h2, h3, -, h5⟩ := C143_iir ⟨id, [1, 1 / 2], [1, 0], [0, 0]⟩ rfl rfl rfl (by simp) [.inf true, .fin 0] (by simp)
  refine ⟨y, f', h1, fun h => ?_, h5 ⟨.inf true, by simp, by simp [Ext.IsFin]⟩ [[.fin 0], [.fin 3, .fin 4]] (by simp)⟩
  obtain ⟨v, hv⟩ := (h3 1 (by simp)).mp h 0 (by omega)
  simp at hv

/-- The projection of a filter. -/
def PidProj (s : Pid Ext Ext) (t : Pid (Num ℝ) (Num ℝ)) : Prop :=
  s.cast = id ∧ t.cast = id ∧ t.b0 = toNum s.b0 ∧ t.b1 = toNum s.b1 ∧ t.b2 = toNum s.b2 ∧ t.s0 = toNum s.s0 ∧ t.s1 = toNum s.s1 ∧ t.s2 = toNum s.s2 ∧
    ∃ l : Option ℝ, s.limit = l.map .fin ∧ t.limit = l.map .val

theorem belowLimit_proj (v : Ext) (l : Option ℝ) : belowLimit (Num.map (fun r : ℝ => |r|) (toNum v)) (l.map Num.val) = belowLimit (Ext.abs v) (l.map Ext.fin) := by
  cases l with
  | none => cases v <;> rfl
  | some l =>
    simp only [Option.map_some, belowLimit]
    congr 1
    cases v with
    | fin v => exact propext Iff.rfl
    | inf s => exact propext ⟨fun h => h.elim, fun h => by cases (h : false = true)⟩
    | nan => exact propext Iff.rfl

theorem pidProj_step (s : Pid Ext Ext) (t : Pid (Num ℝ) (Num ℝ)) (x : Ext) (h : PidProj s t) :
    (t.step (Num.map fun r : ℝ => |r|) (toNum x)).1 = (s.step Ext.abs x).1.map toNum ∧ PidProj (s.step Ext.abs x).2 (t.step (Num.map fun r : ℝ => |r|) (toNum x)).2 := by
  obtain ⟨h1, h2, h3, h4, h5, h6, h7, h8, l, h9, h10⟩ := h
  have e1 : t.s1 + toNum x = toNum (s.s1 + x) := by rw [toNum_add, h7]
  have e2 : toNum x - t.s0 = toNum (x - s.s0) := by rw [toNum_sub, h6]
  have e3 : (if belowLimit (Num.map (fun r : ℝ => |r|) (t.s1 + toNum x)) t.limit then t.s1 + toNum x else t.s1) = toNum (if belowLimit (Ext.abs (s.s1 + x)) s.limit then s.s1 + x else s.s1) := by
    rw [e1, h10, h9, belowLimit_proj, h7]
    split_ifs <;> rfl
  simp only [Pid.step, h1, h2, id, Except.map]
  refine ⟨?_, rfl, rfl, h3, h4, h5, rfl, e3, e2, l, h9, h10⟩
  rw [e3, e2, toNum_dot _ _ (by simp), h3, h4, h5]
  rfl

/-- C143: PidFilter, with the initial infinite limit or a finite one.  An infinite sample spoils its own output and the next one, no other, and is never added to the integral: `inf < inf` is false. -/
theorem C143_pid (f : Pid ℝ ℝ) (hc : f.cast = id) (x : List Ext) (hx : x ≠ []) :
    ∃ y f', (extPid f).filter Ext.abs x = (.ok y, f') ∧ y.length = x.length ∧
      (∀ n < x.length, ((∃ v, y[n]? = some (.fin v)) ↔ (∃ v, x[n]? = some (.fin v)) ∧ (0 < n → ∃ v, x[n - 1]? = some (.fin v)))) ∧
      ∀ (n : ℕ) (v p : ℝ), x[n]? = some (.fin v) → (n = 0 ∧ p = f.s0 ∨ 0 < n ∧ x[n - 1]? = some (.fin p)) →
        y[n]? = some (.fin (f.b0 * v + f.b1 * (f.filter (fun r => |r|) ((x.take (n + 1)).filterMap fun | .fin r => some r | _ => none)).2.s1 + f.b2 * (v - p))) := by
  have hrel : PidProj (extPid f) (nanPid f) := ⟨rfl, by rw [nanPid, hc]; exact num_map_id, rfl, rfl, rfl, rfl, rfl, rfl, f.limit, rfl, rfl⟩
  obtain ⟨e1, -⟩ := runLoop_proj (Pid.step Ext.abs) (Pid.step (Num.map fun r : ℝ => |r|)) PidProj toNum toNum pidProj_step _ _ hrel x
  obtain ⟨y', f'', n1, n2, n3, n4⟩ := C112_pid_nan (fun r : ℝ => |r|) f (x.map toNum) (by simpa using hx)
  have hx0 : x.length ≠ 0 := by simpa using hx
  simp only [Pid.filter, List.length_map, hx0, if_false] at n1
  rw [n1] at e1
  have hfil : (extPid f).filter Ext.abs x = runLoop (Pid.step Ext.abs) (extPid f) x := by rw [Pid.filter, if_neg hx0]
  rw [hfil]
  rcases hrun : runLoop (Pid.step Ext.abs) (extPid f) x with ⟨r, f'⟩
  rw [hrun] at e1
  cases r with
  | error e => simp [Except.map] at e1
  | ok y =>
    simp only [Except.map, Except.ok.injEq] at e1
    subst e1
    rw [List.length_map, List.length_map] at n2
    have hfinx : ∀ n, n < x.length → ((∃ v, x[n]? = some (.fin v)) ↔ ¬ (x.map toNum)[n]? = some Num.nan) := by
      intro n hn
      rw [getElem?_toNum_nan x n hn, not_not, List.getElem?_eq_getElem hn]
      simp [Ext.IsFin]
    refine ⟨y, f', rfl, n2, fun n hn => ?_, fun n v p hv hp => ?_⟩
    · have hy : (∃ v, y[n]? = some (.fin v)) ↔ ¬ (y.map toNum)[n]? = some Num.nan := by
        rw [getElem?_toNum_nan y n (by omega), not_not, List.getElem?_eq_getElem (by omega)]
        simp [Ext.IsFin]
      rw [hy, n3 n (by simpa using hn), hfinx n hn]
      push Not
      refine and_congr Iff.rfl (forall_congr' fun h0 => ?_)
      rw [hfinx (n - 1) (by omega)]
    · have := n4 n v p (by rw [List.getElem?_map, hv]; rfl) (by
        rcases hp with h | ⟨h0, h⟩
        · exact Or.inl h
        · exact Or.inr ⟨h0, p, by rw [List.getElem?_map, h]; rfl, by rw [hc]; rfl⟩)
      rw [hc] at this
      have hvals : Num.vals ((x.map toNum).take (n + 1)) = (x.take (n + 1)).filterMap fun | .fin r => some r | _ => none := by
        rw [← List.map_take, Num.vals, List.filterMap_map]
        congr 1
        funext e
        cases e <;> rfl
      rw [hvals, List.getElem?_map] at this
      rcases hyn : y[n]? with _ | e
      · rw [hyn] at this
        simp at this
      · rw [hyn, Option.map_some, Option.some.injEq] at this
        rw [toNum_val this]
        simp [dot_def]
        ring

/-- Concrete case of C143: an integrating PidFilter with the initial limit.  The infinite sample spoils two outputs and is left out of the integral. -/
example : ∃ y f', (extPid ⟨id, 0, 1, 0, 0, 0, 0, none⟩).filter Ext.abs [.fin 1, .inf false, .fin 3, .fin 4] = (.ok y, f') ∧ ¬ (∃ v, y[1]? = some (.fin v)) ∧ ¬ (∃ v, y[2]? = some (.fin v)) ∧
    y[3]? = some (.fin 8) := by
  obtain ⟨y, f', h1, h2, h3, h4⟩ := C143_pid ⟨id, 0, 1, 0, 0, 0, 0, none⟩ rfl [.fin 1, .inf false, .fin 3, .fin 4] (by simp)
  refine ⟨y, f', h1, fun h => ?_, fun h => ?_, ?_⟩
  · obtain ⟨v, hv⟩ := ((h3 1 (by simp)).mp h).1
    simp at hv
  · obtain ⟨v, hv⟩ := ((h3 2 (by simp)).mp h).2 (by omega)
    simp at hv
  · rw [h4 3 4 3 rfl (Or.inr ⟨by omega, rfl⟩)]
    have hf : ([.fin 1, .inf false, .fin 3, .fin 4] : List Ext).filterMap (fun | .fin r => some r | _ => none) = [1, 3, 4] := rfl
    have ht : ([.fin 1, .inf false, .fin 3, .fin 4] : List Ext).take (3 + 1) = [.fin 1, .inf false, .fin 3, .fin 4] := rfl
    rw [ht, hf]
    norm_num [Pid.filter, runLoop, Pid.step, belowLimit]

/-- C143: RankFilter.  Of a window with infinities the output is -inf exactly when it holds more than `index` of them, and +inf exactly when at most `index` values are below +inf. -/
theorem C143_rank (argsort : List EReal → List ℕ) (ha : IsArgsort argsort) (index order : ℕ) (hio : index ≤ order) (s : List EReal) (hs : s.length = order + 1) (x : List EReal) (hx : x ≠ []) :
    ∃ f : Rank EReal, Rank.new index order = .ok f ∧
      ∃ y f', Rank.filter argsort id { f with s := s } x = (.ok y, f') ∧ y.length = x.length ∧
        ∀ n < x.length, (y[n]? = some ⊥ ↔ index < (lookback order s x n).count ⊥) ∧ (y[n]? = some ⊤ ↔ order < index + (lookback order s x n).count ⊤) := by
  obtain ⟨f, h1, y, f', h2, h3, h4⟩ := C16_rank_order_statistic argsort ha id index order hio s hs x hx
  refine ⟨f, h1, y, f', h2, h3, fun n hn => ?_⟩
  obtain ⟨v, hv, hr⟩ := h4 n hn
  have hlen : (lookback order s x n).length = order + 1 := by simp [lookback]
  obtain ⟨r1, r2, r3⟩ := hr
  rw [hv]
  simp only [Option.some.injEq, id] at *
  generalize lookback order s x n = w at *
  have hbot : w.countP (fun e => e ≤ (⊥ : EReal)) = w.count ⊥ := by
    rw [List.count]
    refine List.countP_congr fun e _ => by simp
  have htop : w.countP (fun e => e < (⊤ : EReal)) + w.count ⊤ = order + 1 := by
    rw [← hlen, List.length_eq_countP_add_countP (fun e => decide (e < (⊤ : EReal))), List.count]
    congr 1
    refine List.countP_congr fun e _ => by simp
  constructor
  · constructor
    · rintro rfl
      rw [← hbot]
      exact r3
    · intro h
      by_contra hne
      have : w.countP (fun e => e ≤ (⊥ : EReal)) ≤ w.countP (fun e => e < v) := List.countP_mono_left fun e _ he => by
        have : e = ⊥ := by simpa using he
        subst this
        simpa using bot_lt_iff_ne_bot.mpr hne
      omega
  · constructor
    · rintro rfl
      omega
    · intro h
      by_contra hne
      have : w.countP (fun e => e ≤ v) ≤ w.countP (fun e => e < (⊤ : EReal)) := List.countP_mono_left fun e _ he => by
        have h1 : e ≤ v := by simpa using he
        simpa using lt_of_le_of_lt h1 (lt_top_iff_ne_top.mpr hne)
      omega

/-- Concrete case of C143: a median of three which holds one infinity of either sign, and one which holds two. -/
example : ([(⊤ : EReal), 3, ⊥].count ⊥, [(⊤ : EReal), 3, ⊥].count ⊤, [(⊤ : EReal), ⊤, 3].count ⊤) = (1, 1, 2) := by
  have h1 : (3 : EReal) ≠ ⊥ := by exact_mod_cast EReal.coe_ne_bot 3
  have h2 : (3 : EReal) ≠ ⊤ := by exact_mod_cast EReal.coe_ne_top 3
  simp [h1, h2]

end Verif.Props
