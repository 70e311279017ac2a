import Verif.Model.PolyphaseThreads
import Verif.Props.PolyphaseBank

/-!
C115: threads which construct PolyphaseRateFilter at the same time.
-/

namespace Verif.Props

open Verif Verif.Spec

/-- The process after the statements of a schedule, which names the thread that runs next. -/
noncomputable def ppRun (rr cc : ℕ) (rate : ℕ → ℝ) (p : PPProcess) (schedule : List ℕ) : PPProcess := schedule.foldl (PPProcess.step rr cc rate) p

/-- The rows of `a` with the first `n` divided by their sums. -/
private noncomputable def divided (n : ℕ) (a : List (List ℝ)) : List (List ℝ) := a.mapIdx fun i row => if i < n then row.map (· / row.sum) else row

private theorem divided_zero (a : List (List ℝ)) : divided 0 a = a := by
  apply List.ext_getElem <;> simp [divided]

private theorem divided_all (n : ℕ) (a : List (List ℝ)) (h : a.length ≤ n) : divided n a = a.map fun row => row.map (· / row.sum) := by
  apply List.ext_getElem
  · simp [divided]
  · intro i h1 h2
    simp only [divided, List.length_mapIdx] at h1
    simp only [divided, List.getElem_mapIdx, List.getElem_map]
    rw [if_pos (by omega)]

private theorem divided_succ (n : ℕ) (a : List (List ℝ)) : (divided n a).modify n (fun row => row.map (· / row.sum)) = divided (n + 1) a := by
  apply List.ext_getElem
  · simp [divided]
  · intro i h1 h2
    simp only [divided, List.getElem_modify, List.getElem_mapIdx]
    by_cases h : n = i
    · subst h
      simp
    · by_cases g : i < n
      · simp [h, g, Nat.lt_succ_of_lt g]
      · have : ¬ i < n + 1 := by omega
        simp [h, g, this]

/-- The array which a thread refers to. -/
private def PPRef : PPAt → Option ℕ
  | .loaded b => some b
  | .rows b _ => some b
  | _ => none

/-- The invariant of the process, for the prototype `c`. -/
private structure PPInv (rr cc : ℕ) (rate : ℕ → ℝ) (c : List ℝ) (p : PPProcess) : Prop where
  bound : p.cls < p.arrays.length
  bounds : ∀ t b, PPRef (p.at_ t) = some b → b < p.arrays.length
  cls : p.read p.cls = List.replicate rr (List.replicate cc 0) ∨ p.read p.cls = Polyphase.bank rr cc c
  loaded : ∀ t b, p.at_ t = .loaded b → p.read b = List.replicate rr (List.replicate cc 0) ∨ p.read b = Polyphase.bank rr cc c
  full : ∀ t b, p.at_ t = .loaded b → p.read b = Polyphase.bank rr cc c → p.read p.cls = Polyphase.bank rr cc c
  own : ∀ t b ii, p.at_ t = .rows b ii → b ≠ p.cls ∧ (∀ u, u ≠ t → PPRef (p.at_ u) ≠ some b) ∧ ii ≤ rr ∧ p.read b = divided ii (np.reshapeF rr cc c)
  done : ∀ t, p.at_ t = .done → p.read p.cls = Polyphase.bank rr cc c
  valid : ∀ t, (0 ≤ rate t ∧ rate t ≤ rr → ∀ e, p.at_ t ≠ .raised e) ∧ (¬ (0 ≤ rate t ∧ rate t ≤ rr) → p.at_ t = .start ∨ p.at_ t = .raised .valueError)

private theorem ppInv_init (rr cc : ℕ) (rate : ℕ → ℝ) (c : List ℝ) : PPInv rr cc rate c (PPProcess.init rr cc) := by
  constructor <;> simp [PPProcess.init, PPRef, PPProcess.read]

private theorem zeros_all (rr cc : ℕ) (a : List (List ℝ)) :
    a = List.replicate rr (List.replicate cc 0) → (open scoped Classical in (a.all fun row => row.all fun v => decide (v = 0)) = true) := by
  rintro rfl
  simp +contextual [List.mem_replicate]

private theorem ppInv_step (rr cc : ℕ) (rate : ℕ → ℝ) (c : List ℝ) (hd : fir.design (some .hann) (0.85 / rr) (cc * rr - 1) 1 false 1 = .ok c)
    (hn : ¬ (open scoped Classical in ((Polyphase.bank rr cc c).all fun row => row.all fun v => decide (v = 0)) = true)) (p : PPProcess) (h : PPInv rr cc rate c p)
    (t : ℕ) : PPInv rr cc rate c (p.step rr cc rate t) ∧ p.read p.cls = (p.step rr cc rate t).read p.cls := by
  obtain ⟨i1, i2, i3, i4, i5, i6, i7, i8⟩ := h
  unfold PPProcess.step
  cases ht : p.at_ t with
  | start =>
    have key : ∀ s, PPRef s = none → (s ≠ .done) → (0 ≤ rate t ∧ rate t ≤ rr → ∀ e, s ≠ .raised e) →
        (¬ (0 ≤ rate t ∧ rate t ≤ rr) → s = .start ∨ s = .raised .valueError) →
        PPInv rr cc rate c { p with at_ := Function.update p.at_ t s } := by
      intro s hs hs' hv1 hv2
      refine ⟨i1, ?_, i3, ?_, ?_, ?_, ?_, ?_⟩
      · intro u b hu
        by_cases e : u = t
        · subst e; simp [hs] at hu
        · simp only [Function.update_of_ne e] at hu; exact i2 u b hu
      · intro u b hu
        by_cases e : u = t
        · subst e; simp at hu; simp [hu, PPRef] at hs
        · simp only [Function.update_of_ne e] at hu; exact i4 u b hu
      · intro u b hu
        by_cases e : u = t
        · subst e; simp at hu; simp [hu, PPRef] at hs
        · simp only [Function.update_of_ne e] at hu; exact i5 u b hu
      · intro u b ii hu
        by_cases e : u = t
        · subst e; simp at hu; simp [hu, PPRef] at hs
        · simp only [Function.update_of_ne e] at hu
          obtain ⟨a1, a2, a3, a4⟩ := i6 u b ii hu
          refine ⟨a1, fun v hv => ?_, a3, a4⟩
          by_cases e' : v = t
          · subst e'; simp [hs]
          · simp only [Function.update_of_ne e']; exact a2 v hv
      · intro u hu
        by_cases e : u = t
        · subst e; simp at hu; exact absurd hu hs'
        · simp only [Function.update_of_ne e] at hu; exact i7 u hu
      · intro u
        by_cases e : u = t
        · subst e; simp only [Function.update_self]; exact ⟨hv1, hv2⟩
        · simp only [Function.update_of_ne e]; exact i8 u
    by_cases hr : rate t < 0 ∨ rate t > rr
    · simp only [if_pos hr]
      refine ⟨key _ rfl (by simp) (fun hv => ?_) (fun _ => Or.inr rfl), rfl⟩
      rcases hr with hr | hr <;> linarith [hv.1, hv.2]
    · simp only [if_neg hr]
      refine ⟨key _ rfl (by simp) (fun _ e => by simp) (fun hv => ?_), rfl⟩
      push Not at hr
      exact absurd hr hv
  | checked =>
    refine ⟨⟨i1, ?_, i3, ?_, ?_, ?_, ?_, ?_⟩, rfl⟩
    · intro u b hu
      by_cases e : u = t
      · subst e; simp [PPRef] at hu; subst hu; exact i1
      · simp only [Function.update_of_ne e] at hu; exact i2 u b hu
    · intro u b hu
      by_cases e : u = t
      · subst e; simp at hu; subst hu; exact i3
      · simp only [Function.update_of_ne e] at hu; exact i4 u b hu
    · intro u b hu
      by_cases e : u = t
      · subst e; simp at hu; subst hu; exact id
      · simp only [Function.update_of_ne e] at hu; exact i5 u b hu
    · intro u b ii hu
      by_cases e : u = t
      · subst e; simp at hu
      · simp only [Function.update_of_ne e] at hu
        obtain ⟨a1, a2, a3, a4⟩ := i6 u b ii hu
        refine ⟨a1, fun v hv => ?_, a3, a4⟩
        by_cases e' : v = t
        · subst e'; simp [PPRef]; exact fun h => a1 h.symm
        · simp only [Function.update_of_ne e']; exact a2 v hv
    · intro u hu
      by_cases e : u = t
      · subst e; simp at hu
      · simp only [Function.update_of_ne e] at hu; exact i7 u hu
    · intro u
      by_cases e : u = t
      · subst e
        simp only [Function.update_self]
        refine ⟨fun _ e => by simp, fun hv => ?_⟩
        have := (i8 u).2 hv
        simp [ht] at this
      · simp only [Function.update_of_ne e]; exact i8 u
  | loaded b =>
    have hvt : 0 ≤ rate t ∧ rate t ≤ rr := by
      by_contra hv
      have := (i8 t).2 hv
      simp [ht] at this
    simp only []
    split_ifs with hz
    · simp only [hd]
      have hold : ∀ l < p.arrays.length, ((p.arrays ++ [np.reshapeF rr cc c]).getD l [] : List (List ℝ)) = p.read l := by
        intro l hl
        simp [PPProcess.read, List.getD_eq_getElem?_getD, List.getElem?_append_left hl]
      refine ⟨⟨?_, ?_, ?_, ?_, ?_, ?_, ?_, ?_⟩, ?_⟩
      · simp; omega
      · intro u b' hu
        by_cases e : u = t
        · subst e; simp [PPRef] at hu; subst hu; simp
        · simp only [Function.update_of_ne e] at hu; have := i2 u b' hu; simp; omega
      · simp only [PPProcess.read]; rw [hold _ i1]; exact i3
      · intro u b' hu
        by_cases e : u = t
        · subst e; simp at hu
        · simp only [Function.update_of_ne e] at hu
          simp only [PPProcess.read]
          rw [hold _ (i2 u b' (by simp [hu, PPRef]))]; exact i4 u b' hu
      · intro u b' hu
        by_cases e : u = t
        · subst e; simp at hu
        · simp only [Function.update_of_ne e] at hu
          simp only [PPProcess.read]
          rw [hold _ (i2 u b' (by simp [hu, PPRef])), hold _ i1]; exact i5 u b' hu
      · intro u b' ii hu
        by_cases e : u = t
        · subst e
          simp at hu
          obtain ⟨rfl, rfl⟩ := hu
          refine ⟨by simp; omega, fun v hv => ?_, Nat.zero_le _, ?_⟩
          · simp only [Function.update_of_ne hv]
            intro hb
            have := i2 v _ hb
            omega
          · rw [divided_zero]; simp [PPProcess.read]
        · simp only [Function.update_of_ne e] at hu
          obtain ⟨a1, a2, a3, a4⟩ := i6 u b' ii hu
          have hb' := i2 u b' (by simp [hu, PPRef])
          refine ⟨a1, fun v hv => ?_, a3, ?_⟩
          · by_cases e' : v = t
            · subst e'; simp [PPRef]; omega
            · simp only [Function.update_of_ne e']; exact a2 v hv
          · simp only [PPProcess.read]; rw [hold _ hb']; exact a4
      · intro u hu
        by_cases e : u = t
        · subst e; simp at hu
        · simp only [Function.update_of_ne e] at hu
          simp only [PPProcess.read]; rw [hold _ i1]; exact i7 u hu
      · intro u
        by_cases e : u = t
        · subst e
          simp only [Function.update_self]
          exact ⟨fun _ e => by simp, fun hv => absurd hvt hv⟩
        · simp only [Function.update_of_ne e]; exact i8 u
      · show _ = PPProcess.read _ _
        simp only [PPProcess.read]; rw [hold _ i1]; rfl
    · have hbk : p.read b = Polyphase.bank rr cc c := by
        rcases i4 t b ht with g | g
        · exact absurd (zeros_all rr cc _ g) hz
        · exact g
      refine ⟨⟨i1, ?_, i3, ?_, ?_, ?_, ?_, ?_⟩, rfl⟩
      · intro u b hu
        by_cases e : u = t
        · subst e; simp [PPRef] at hu
        · simp only [Function.update_of_ne e] at hu; exact i2 u b hu
      · intro u b hu
        by_cases e : u = t
        · subst e; simp at hu
        · simp only [Function.update_of_ne e] at hu; exact i4 u b hu
      · intro u b hu
        by_cases e : u = t
        · subst e; simp at hu
        · simp only [Function.update_of_ne e] at hu; exact i5 u b hu
      · intro u b ii hu
        by_cases e : u = t
        · subst e; simp at hu
        · simp only [Function.update_of_ne e] at hu
          obtain ⟨a1, a2, a3, a4⟩ := i6 u b ii hu
          refine ⟨a1, fun v hv => ?_, a3, a4⟩
          by_cases e' : v = t
          · subst e'; simp [PPRef]
          · simp only [Function.update_of_ne e']; exact a2 v hv
      · intro u hu
        by_cases e : u = t
        · exact i5 t b ht hbk
        · simp only [Function.update_of_ne e] at hu; exact i7 u hu
      · intro u
        by_cases e : u = t
        · subst e
          simp only [Function.update_self]
          exact ⟨fun _ e => by simp, fun hv => absurd hvt hv⟩
        · simp only [Function.update_of_ne e]; exact i8 u
  | rows b ii =>
    have hvt : 0 ≤ rate t ∧ rate t ≤ rr := by
      by_contra hv
      have := (i8 t).2 hv
      simp [ht] at this
    obtain ⟨o1, o2, o3, o4⟩ := i6 t b ii ht
    have hbl := i2 t b (by simp [ht, PPRef])
    simp only []
    split_ifs with hlt
    · have hold : ∀ l, l ≠ b → ((p.arrays.modify b fun a => a.modify ii fun row => row.map (· / row.sum)).getD l [] : List (List ℝ)) = p.read l := by
        intro l hl
        simp [PPProcess.read, List.getD_eq_getElem?_getD, List.getElem?_modify, Ne.symm hl]
      have hnew : ((p.arrays.modify b fun a => a.modify ii fun row => row.map (· / row.sum)).getD b [] : List (List ℝ)) =
          divided (ii + 1) (np.reshapeF rr cc c) := by
        rw [← divided_succ, ← o4]
        simp [PPProcess.read, List.getD_eq_getElem?_getD, List.getElem?_eq_getElem hbl]
      have hne : ∀ u b', u ≠ t → PPRef (p.at_ u) = some b' → b' ≠ b := by
        intro u b' hu hb' hbb
        exact o2 u hu (hbb ▸ hb')
      refine ⟨⟨?_, ?_, ?_, ?_, ?_, ?_, ?_, ?_⟩, ?_⟩
      · simpa using i1
      · intro u b' hu
        by_cases e : u = t
        · subst e; simp [PPRef] at hu; subst hu; simpa using hbl
        · simp only [Function.update_of_ne e] at hu; simpa using i2 u b' hu
      · simp only [PPProcess.read]; rw [hold _ (Ne.symm o1)]; exact i3
      · intro u b' hu
        by_cases e : u = t
        · subst e; simp at hu
        · simp only [Function.update_of_ne e] at hu
          simp only [PPProcess.read]
          rw [hold _ (hne u b' e (by simp [hu, PPRef]))]; exact i4 u b' hu
      · intro u b' hu
        by_cases e : u = t
        · subst e; simp at hu
        · simp only [Function.update_of_ne e] at hu
          simp only [PPProcess.read]
          rw [hold _ (hne u b' e (by simp [hu, PPRef])), hold _ (Ne.symm o1)]; exact i5 u b' hu
      · intro u b' jj hu
        by_cases e : u = t
        · subst e
          simp at hu
          obtain ⟨rfl, rfl⟩ := hu
          refine ⟨o1, fun v hv => ?_, hlt, hnew⟩
          simp only [Function.update_of_ne hv]
          exact o2 v hv
        · simp only [Function.update_of_ne e] at hu
          obtain ⟨a1, a2, a3, a4⟩ := i6 u b' jj hu
          have hb' := hne u b' e (by simp [hu, PPRef])
          refine ⟨a1, fun v hv => ?_, a3, ?_⟩
          · by_cases e' : v = t
            · subst e'; simp [PPRef]; exact fun h => hb' h.symm
            · simp only [Function.update_of_ne e']; exact a2 v hv
          · simp only [PPProcess.read]; rw [hold _ hb']; exact a4
      · intro u hu
        by_cases e : u = t
        · subst e; simp at hu
        · simp only [Function.update_of_ne e] at hu
          simp only [PPProcess.read]; rw [hold _ (Ne.symm o1)]; exact i7 u hu
      · intro u
        by_cases e : u = t
        · subst e
          simp only [Function.update_self]
          exact ⟨fun _ e => by simp, fun hv => absurd hvt hv⟩
        · simp only [Function.update_of_ne e]; exact i8 u
      · show _ = PPProcess.read _ _
        simp only [PPProcess.read]; rw [hold _ (Ne.symm o1)]; rfl
    · have hbk : p.read b = Polyphase.bank rr cc c := by
        rw [o4, divided_all _ _ (by simp [np.reshapeF]; omega)]; rfl
      refine ⟨⟨hbl, ?_, Or.inr hbk, ?_, ?_, ?_, ?_, ?_⟩, rfl⟩
      · intro u b hu
        by_cases e : u = t
        · subst e; simp [PPRef] at hu
        · simp only [Function.update_of_ne e] at hu; exact i2 u b hu
      · intro u b hu
        by_cases e : u = t
        · subst e; simp at hu
        · simp only [Function.update_of_ne e] at hu; exact i4 u b hu
      · intro u b hu _
        exact hbk
      · intro u b' jj hu
        by_cases e : u = t
        · subst e; simp at hu
        · simp only [Function.update_of_ne e] at hu
          obtain ⟨a1, a2, a3, a4⟩ := i6 u b' jj hu
          refine ⟨?_, fun v hv => ?_, a3, a4⟩
          · rintro rfl
            exact o2 u e (by simp [hu, PPRef])
          · by_cases e' : v = t
            · subst e'; simp [PPRef]
            · simp only [Function.update_of_ne e']; exact a2 v hv
      · intro u _
        exact hbk
      · intro u
        by_cases e : u = t
        · subst e
          simp only [Function.update_self]
          exact ⟨fun _ e => by simp, fun hv => absurd hvt hv⟩
        · simp only [Function.update_of_ne e]; exact i8 u
  | done => exact ⟨⟨i1, i2, i3, i4, i5, i6, i7, i8⟩, rfl⟩
  | raised e => exact ⟨⟨i1, i2, i3, i4, i5, i6, i7, i8⟩, rfl⟩

private theorem ppInv_run (rr cc : ℕ) (rate : ℕ → ℝ) (c : List ℝ) (hd : fir.design (some .hann) (0.85 / rr) (cc * rr - 1) 1 false 1 = .ok c)
    (hn : ¬ (open scoped Classical in ((Polyphase.bank rr cc c).all fun row => row.all fun v => decide (v = 0)) = true)) (schedule : List ℕ) :
    ∀ p, PPInv rr cc rate c p → PPInv rr cc rate c (ppRun rr cc rate p schedule) := by
  induction schedule with
  | nil => exact fun p h => h
  | cons t l ih => exact fun p h => ih _ (ppInv_step rr cc rate c hd hn p h t).1

/-- An array which no thread is dividing is never written again. -/
private theorem kept_step (rr cc : ℕ) (rate : ℕ → ℝ) (p : PPProcess) (l : ℕ) (hl : l < p.arrays.length) (ho : ∀ u ii, p.at_ u ≠ .rows l ii) (t : ℕ) :
    (p.step rr cc rate t).read l = p.read l ∧ l < (p.step rr cc rate t).arrays.length ∧ ∀ u ii, (p.step rr cc rate t).at_ u ≠ .rows l ii := by
  have upd : ∀ s, (∀ ii, s ≠ .rows l ii) → ∀ u ii, Function.update p.at_ t s u ≠ .rows l ii := by
    intro s hs u ii
    by_cases e : u = t
    · subst e; simp; exact hs ii
    · simp only [Function.update_of_ne e]; exact ho u ii
  unfold PPProcess.step
  cases ht : p.at_ t with
  | start =>
    simp only []
    split_ifs
    · exact ⟨rfl, hl, upd _ (by simp)⟩
    · exact ⟨rfl, hl, upd _ (by simp)⟩
  | checked => exact ⟨rfl, hl, upd _ (by simp)⟩
  | loaded b =>
    simp only []
    split_ifs
    · cases hd : fir.design (some .hann) (0.85 / rr) (cc * rr - 1) 1 false 1 with
      | error e => exact ⟨rfl, hl, upd _ (by simp)⟩
      | ok c =>
        refine ⟨?_, by simp; omega, upd _ (fun ii h => ?_)⟩
        · simp [PPProcess.read, List.getD_eq_getElem?_getD, List.getElem?_append_left hl]
        · simp at h; omega
    · exact ⟨rfl, hl, upd _ (by simp)⟩
  | rows b ii =>
    have hb : b ≠ l := fun h => ho t ii (h ▸ ht)
    simp only []
    split_ifs
    · refine ⟨?_, by simpa using hl, upd _ (fun jj h => ?_)⟩
      · simp [PPProcess.read, List.getD_eq_getElem?_getD, List.getElem?_modify, hb]
      · simp at h; exact hb h.1
    · exact ⟨rfl, hl, upd _ (by simp)⟩
  | done => exact ⟨rfl, hl, ho⟩
  | raised e => exact ⟨rfl, hl, ho⟩

private theorem kept_run (rr cc : ℕ) (rate : ℕ → ℝ) (l : ℕ) (schedule : List ℕ) : ∀ p : PPProcess, l < p.arrays.length → (∀ u ii, p.at_ u ≠ .rows l ii) →
    (ppRun rr cc rate p schedule).read l = p.read l := by
  induction schedule with
  | nil => exact fun p _ _ => rfl
  | cons t s ih =>
    intro p hl ho
    obtain ⟨h1, h2, h3⟩ := kept_step rr cc rate p l hl ho t
    exact (ih _ h2 h3).trans h1

/-- The statements which a thread has yet to run, at most. -/
private def PPLeft (rr : ℕ) : PPAt → ℕ
  | .start => rr + 4
  | .checked => rr + 3
  | .loaded _ => rr + 2
  | .rows _ ii => rr + 1 - ii
  | .done => 0
  | .raised _ => 0

private theorem left_step (rr cc : ℕ) (rate : ℕ → ℝ) (c : List ℝ) (p : PPProcess) (h : PPInv rr cc rate c p) (t u : ℕ) :
    PPLeft rr ((p.step rr cc rate t).at_ u) ≤ PPLeft rr (p.at_ u) - (if u = t then 1 else 0) := by
  have upd : ∀ s, PPLeft rr s + 1 ≤ PPLeft rr (p.at_ t) → PPLeft rr (Function.update p.at_ t s u) ≤ PPLeft rr (p.at_ u) - (if u = t then 1 else 0) := by
    intro s hs
    by_cases e : u = t
    · subst e; simp; omega
    · simp [Function.update_of_ne e, e]
  have base : PPLeft rr (p.at_ t) = 0 → PPLeft rr (p.at_ u) ≤ PPLeft rr (p.at_ u) - (if u = t then 1 else 0) := by
    intro hs
    by_cases e : u = t
    · subst e; simp [hs]
    · simp [e]
  generalize (if u = t then 1 else 0) = d at upd base ⊢
  unfold PPProcess.step
  cases ht : p.at_ t with
  | start =>
    simp only []
    split_ifs
    · exact upd _ (by rw [ht]; simp [PPLeft])
    · exact upd _ (by rw [ht]; simp [PPLeft])
  | checked => exact upd _ (by simp [ht, PPLeft])
  | loaded b =>
    simp only []
    split_ifs
    · cases hd : fir.design (some .hann) (0.85 / rr) (cc * rr - 1) 1 false 1 with
      | error e => exact upd (.raised e) (by simp [ht, PPLeft])
      | ok c => exact upd (.rows p.arrays.length 0) (by simp [ht, PPLeft])
    · exact upd _ (by simp [ht, PPLeft])
  | rows b ii =>
    have := (h.own t b ii ht).2.2.1
    simp only []
    split_ifs
    · exact upd _ (by simp [ht, PPLeft]; omega)
    · exact upd _ (by simp [ht, PPLeft]; omega)
  | done => exact base (by simp [ht, PPLeft])
  | raised e' => exact base (by simp [ht, PPLeft])

private theorem left_run (rr cc : ℕ) (rate : ℕ → ℝ) (c : List ℝ) (hd : fir.design (some .hann) (0.85 / rr) (cc * rr - 1) 1 false 1 = .ok c)
    (hn : ¬ (open scoped Classical in ((Polyphase.bank rr cc c).all fun row => row.all fun v => decide (v = 0)) = true)) (u : ℕ) (schedule : List ℕ) :
    ∀ p, PPInv rr cc rate c p → PPLeft rr ((ppRun rr cc rate p schedule).at_ u) ≤ PPLeft rr (p.at_ u) - schedule.count u := by
  induction schedule with
  | nil => exact fun p _ => by simp [ppRun]
  | cons t l ih =>
    intro p h
    have h1 := left_step rr cc rate c p h t u
    have h2 := ih _ (ppInv_step rr cc rate c hd hn p h t).1
    rw [List.count_cons]
    show PPLeft rr ((ppRun rr cc rate (p.step rr cc rate t) l).at_ u) ≤ _
    by_cases e : u = t
    · subst e; simp at h1 ⊢; omega
    · have e' : ¬ t = u := fun h => e h.symm
      simp [e, e'] at h1 ⊢; omega

/-- The bank of the code, which is what the first constructor of a program with one thread leaves in the class variable. -/
private theorem the_bank : ∃ c, fir.design (some .hann) (0.85 / ((256 : ℕ) : ℝ)) (((15 : ℕ) : ℤ) * ((256 : ℕ) : ℤ) - 1) 1 false 1 = .ok c ∧
    (Polyphase.bank 256 15 c).length = 256 ∧ IsBank 15 (Polyphase.bank 256 15 c) ∧ (∀ r ∈ Polyphase.bank 256 15 c, r.sum = 1) ∧
    (Polyphase.new 256 15 (List.replicate 256 (List.replicate 15 0)) 1).2 = Polyphase.bank 256 15 c ∧
    ¬ (open scoped Classical in ((Polyphase.bank 256 15 c).all fun row => row.all fun v => decide (v = 0)) = true) := by
  have hinit : ppClass (List.replicate 256 (List.replicate 15 0)) := by
    refine ⟨List.length_replicate, ⟨List.ne_nil_of_length_pos (by rw [List.length_replicate]; norm_num), by norm_num,
      fun r hr => by rw [List.eq_of_mem_replicate hr, List.length_replicate]⟩, Or.inl fun r hr v hv => ?_⟩
    rw [List.eq_of_mem_replicate hr] at hv
    exact List.eq_of_mem_replicate hv
  obtain ⟨p, B', h1, -, -, -, h2, h3, h4, -⟩ := C37_constructed _ hinit 1 (by norm_num) (by norm_num)
  obtain ⟨b, c, d1, -⟩ := bank_design
  have hdes : fir.design (some .hann) (0.85 / ((256 : ℕ) : ℝ)) (((15 : ℕ) : ℤ) * ((256 : ℕ) : ℤ) - 1) 1 false 1 = .ok b := by
    rw [← d1]; norm_num
  have hB : B' = Polyphase.bank 256 15 b := by
    have := h1
    unfold Polyphase.new at this
    rw [if_neg (by norm_num)] at this
    simp only [] at this
    rw [if_pos (zeros_all 256 15 _ rfl), hdes] at this
    exact (congrArg Prod.snd this).symm
  subst hB
  refine ⟨b, hdes, h2, h3, h4, by rw [h1], fun hz => ?_⟩
  rw [List.all_eq_true] at hz
  obtain ⟨row, rest, e⟩ := List.exists_cons_of_ne_nil h3.1
  have hm : row ∈ Polyphase.bank 256 15 b := by rw [e]; simp
  have hs := h4 row hm
  have hz' := hz row hm
  rw [List.all_eq_true] at hz'
  rw [List.sum_eq_zero (fun v hv => by simpa using hz' v hv)] at hs
  norm_num at hs

/-- C115.  Whatever the number of threads, the rates and the order in which their statements run, the class variable is at every moment either as it was
imported, which is zero, or the whole bank, the one which a program with a single thread makes.  The first holds only while no constructor has
returned. -/
theorem C115_whole (rate : ℕ → ℝ) (schedule : List ℕ) :
    ∃ B, (∃ p, Polyphase.new 256 15 (List.replicate 256 (List.replicate 15 0)) 1 = (.ok p, B)) ∧ B.length = 256 ∧ IsBank 15 B ∧ (∀ r ∈ B, r.sum = 1) ∧
      (((ppRun 256 15 rate (PPProcess.init 256 15) schedule).read (ppRun 256 15 rate (PPProcess.init 256 15) schedule).cls =
          List.replicate 256 (List.replicate 15 0) ∧ ∀ t, (ppRun 256 15 rate (PPProcess.init 256 15) schedule).at_ t ≠ .done) ∨
        (ppRun 256 15 rate (PPProcess.init 256 15) schedule).read (ppRun 256 15 rate (PPProcess.init 256 15) schedule).cls = B) := by
  obtain ⟨c, h1, h2, h3, h4, h5, h6⟩ := the_bank
  have hI := ppInv_run 256 15 rate c h1 h6 schedule _ (ppInv_init 256 15 rate c)
  refine ⟨_, ⟨?_, ?_⟩, h2, h3, h4, ?_⟩
  · exact { index := 0, rate := 1, s := List.replicate 15 0 }
  · rw [← h5]
    unfold Polyphase.new
    rw [if_neg (by norm_num)]
    simp only []
    rw [if_pos (zeros_all 256 15 _ rfl), h1]
  · by_cases hd : ∃ t, (ppRun 256 15 rate (PPProcess.init 256 15) schedule).at_ t = .done
    · obtain ⟨t, ht⟩ := hd
      exact Or.inr (hI.done t ht)
    · rcases hI.cls with g | g
      · exact Or.inl ⟨g, fun t ht => hd ⟨t, ht⟩⟩
      · exact Or.inr g

/-- C115.  No thread waits for another: a constructor with a rate in [0, 256] has returned when its thread has run 260 statements, and one with another rate
has raised ValueError, whatever the other threads have done. -/
theorem C115_finishes (rate : ℕ → ℝ) (schedule : List ℕ) (t : ℕ) (h : 260 ≤ schedule.count t) :
    (0 ≤ rate t ∧ rate t ≤ 256 → (ppRun 256 15 rate (PPProcess.init 256 15) schedule).at_ t = .done) ∧
      (¬ (0 ≤ rate t ∧ rate t ≤ 256) → (ppRun 256 15 rate (PPProcess.init 256 15) schedule).at_ t = .raised .valueError) := by
  obtain ⟨c, h1, -, -, -, -, h6⟩ := the_bank
  have hI := ppInv_run 256 15 rate c h1 h6 schedule _ (ppInv_init 256 15 rate c)
  have hl := left_run 256 15 rate c h1 h6 t schedule _ (ppInv_init 256 15 rate c)
  have hv := hI.valid t
  have ho := fun b ii => hI.own t b ii
  rw [show PPLeft 256 ((PPProcess.init 256 15).at_ t) = 260 from rfl] at hl
  generalize (ppRun 256 15 rate (PPProcess.init 256 15) schedule) = q at hl hv ho
  have h256 : ((256 : ℕ) : ℝ) = 256 := by norm_num
  rw [h256] at hv
  cases e : q.at_ t with
  | start => simp [e, PPLeft] at hl; omega
  | checked => simp [e, PPLeft] at hl; omega
  | loaded b => simp [e, PPLeft] at hl; omega
  | rows b ii =>
    have := (ho b ii e).2.2.1
    simp [e, PPLeft] at hl; omega
  | done =>
    refine ⟨fun _ => rfl, fun g => ?_⟩
    have := hv.2 g
    simp [e] at this
  | raised e' =>
    refine ⟨fun g => absurd e (hv.1 g e'), fun g => ?_⟩
    have := hv.2 g
    rw [e] at this
    rcases this with k | k
    · simp at k
    · exact k

/-- C115.  An array which the class variable has referred to at some moment is never written afterwards, so a call of filter which holds it sees the same
coefficients until it ends. -/
theorem C115_kept (rate : ℕ → ℝ) (before after : List ℕ) :
    (ppRun 256 15 rate (PPProcess.init 256 15) (before ++ after)).read (ppRun 256 15 rate (PPProcess.init 256 15) before).cls =
      (ppRun 256 15 rate (PPProcess.init 256 15) before).read (ppRun 256 15 rate (PPProcess.init 256 15) before).cls := by
  obtain ⟨c, h1, -, -, -, -, h6⟩ := the_bank
  have hI := ppInv_run 256 15 rate c h1 h6 before _ (ppInv_init 256 15 rate c)
  have : ppRun 256 15 rate (PPProcess.init 256 15) (before ++ after) = ppRun 256 15 rate (ppRun 256 15 rate (PPProcess.init 256 15) before) after := by
    simp [ppRun, List.foldl_append]
  rw [this]
  exact kept_run 256 15 rate _ after _ hI.bound fun u ii hu => (hI.own u _ ii hu).1 rfl

/-- Two threads whose statements alternate both build a bank; both constructors have returned after 260 statements of each. -/
example : (ppRun 256 15 (fun _ => 2) (PPProcess.init 256 15) (List.replicate 260 [0, 1]).flatten).at_ 0 = .done ∧
    (ppRun 256 15 (fun _ => 2) (PPProcess.init 256 15) (List.replicate 260 [0, 1]).flatten).at_ 1 = .done :=
  ⟨(C115_finishes _ _ 0 (by decide +kernel)).1 (by norm_num), (C115_finishes _ _ 1 (by decide +kernel)).1 (by norm_num)⟩

end Verif.Props
