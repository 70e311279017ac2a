import Verif.Model.Pid
import Verif.Model.Rank
import Verif.Spec.Nan
import Verif.Lemmas.Fir
import Verif.Lemmas.Iir
import Verif.Lemmas.Goertzel
import Verif.Props.Rank
import Mathlib.Order.WithBot

/-
C112: how long a sample which is not a number is remembered.
-/

namespace Verif.Props

open Verif.Spec Verif.Spec.Num

variable {R K F : Type*}

/-- The filter as it is, in the numbers with nan. -/
def nanFir (f : Fir R) : Fir (Num R) := ⟨Num.map f.cast, f.b.map val, f.s.map val⟩

/-- The filter as it is, in the numbers with nan. -/
def nanIir (f : Iir R) : Iir (Num R) := ⟨Num.map f.cast, f.a.map val, f.b.map val, f.s.map val⟩

/-- The filter as it is, in the numbers with nan. -/
def nanGoertzel (g : Goertzel R F) : Goertzel (Num R) F := ⟨nanIir g.iir, g.index, g.w.map val, g.frequency⟩

/-- The filter as it is, in the numbers with nan. -/
def nanPid (f : Pid R K) : Pid (Num R) (Num K) :=
  ⟨Num.map f.cast, val f.b0, val f.b1, val f.b2, val f.s0, val f.s1, val f.s2, f.limit.map val⟩

instance : IsNan (Num K) := ⟨fun | val _ => false | nan => true⟩

@[simp] theorem vals_map (l : List R) : vals (l.map val) = l := by
  induction l with
  | nil => rfl
  | cons a t ih => simpa [vals] using ih

theorem nan_notMem_map (l : List R) : nan ∉ l.map val := by simp

@[simp] theorem val_add [Add R] (v w : R) : (val v + val w : Num R) = val (v + w) := rfl
@[simp] theorem val_sub [Sub R] (v w : R) : (val v - val w : Num R) = val (v - w) := rfl
@[simp] theorem val_mul [Mul R] (v w : R) : (val v * val w : Num R) = val (v * w) := rfl
@[simp] theorem nan_add [Add R] (v : Num R) : (nan + v : Num R) = nan := rfl
@[simp] theorem add_nan [Add R] (v : Num R) : (v + nan : Num R) = nan := by cases v <;> rfl
@[simp] theorem nan_sub [Sub R] (v : Num R) : (nan - v : Num R) = nan := rfl
@[simp] theorem sub_nan [Sub R] (v : Num R) : (v - nan : Num R) = nan := by cases v <;> rfl
@[simp] theorem mul_nan [Mul R] (v : Num R) : (v * nan : Num R) = nan := by cases v <;> rfl

open Classical in
theorem dot_val [Dot R] (a b : List R) : dot (a.map val) (b.map val) = (val (dot a b) : Num R) := by
  have h : ¬ (nan ∈ a.map val ∨ nan ∈ b.map val) := by simp
  show (if nan ∈ a.map val ∨ nan ∈ b.map val then nan else val (dot (vals (a.map val)) (vals (b.map val)))) = _
  rw [if_neg h, vals_map, vals_map]

open Classical in
theorem dot_nan [Dot R] (a b : List (Num R)) (h : nan ∈ b) : dot a b = nan := by
  show (if nan ∈ a ∨ nan ∈ b then nan else val (dot (vals a) (vals b))) = _
  rw [if_pos (Or.inr h)]

theorem eq_map_of_not_nan (l : List (Num R)) (h : nan ∉ l) : ∃ m : List R, l = m.map val := by
  induction l with
  | nil => exact ⟨[], rfl⟩
  | cons a t ih =>
    obtain ⟨m, hm⟩ := ih (fun h' => h (List.mem_cons_of_mem _ h'))
    cases a with
    | val v => exact ⟨v :: m, by simp [hm]⟩
    | nan => simp at h

theorem fills_get {z : List R} {x : List (Num R)} (h : Fills z x) (i : ℕ) (v : R) (hi : x[i]? = some (val v)) :
    z[i]? = some v := by
  unfold Fills at h
  induction h generalizing i with
  | nil => simp at hi
  | cons h0 _ ih =>
    cases i with
    | zero => simp at hi ⊢; rcases h0 with h0 | h0 <;> simp_all
    | succ i => simpa using ih i (by simpa using hi)

theorem fills_length {z : List R} {x : List (Num R)} (h : Fills z x) : z.length = x.length := h.length_eq

/-! ## FirFilter -/

theorem dot_window [Dot R] (c : R → R) (b : List R) (u : List R) (w : List (Num R)) (hl : w.length = u.length)
    (hu : ∀ (i : ℕ) (v : R), w[i]? = some (val v) → u[i]? = some v) :
    (Num.map c (dot (b.map val) w) = nan ↔ nan ∈ w) ∧
    (nan ∉ w → Num.map c (dot (b.map val) w) = val (c (dot b u)) ∧ w = u.map val) := by
  have key : nan ∉ w → w = u.map val := by
    intro h
    obtain ⟨m, rfl⟩ := eq_map_of_not_nan w h
    congr 1
    refine List.ext_getElem? fun i => ?_
    rcases Nat.lt_or_ge i m.length with hi | hi
    · rw [hu i m[i] (by simp [hi]), List.getElem?_eq_getElem hi]
    · rw [List.getElem?_eq_none hi, List.getElem?_eq_none (by simpa [← hl] using hi)]
  have h2 : nan ∉ w → Num.map c (dot (b.map val) w) = val (c (dot b u)) ∧ w = u.map val := by
    intro h
    have := key h
    refine ⟨?_, this⟩
    rw [this, dot_val]; rfl
  refine ⟨⟨fun h => ?_, fun h => ?_⟩, h2⟩
  · by_contra hn
    rw [(h2 hn).1] at h; cases h
  · rw [dot_nan _ _ h]; rfl

theorem window_get {S : Type*} (x s : List S) (n L i : ℕ) (hn : n < x.length) :
    (((x.take (n + 1)).reverse ++ s).take L)[i]? =
      if i < L then (if i ≤ n then x[n - i]? else s[i - (n + 1)]?) else none := by
  have hl : (x.take (n + 1)).reverse.length = n + 1 := by simp; omega
  by_cases hL : i < L
  · rw [List.getElem?_take_of_lt hL, if_pos hL]
    split_ifs with hi
    · rw [List.getElem?_append_left (by omega), List.getElem?_reverse (by simp; omega), List.length_take,
        Nat.min_eq_left (by omega), List.getElem?_take_of_lt (by omega)]
      congr 1
    · rw [List.getElem?_append_right (by omega), hl]
  · rw [if_neg hL, List.getElem?_eq_none (by simp; omega)]

/-- C112: FirFilter.  An output is nan exactly when one of the samples under its coefficients is nan (also under a zero
coefficient); every other output is what it were with any number in place of the nans; and when the last `len(b)`
samples of a call are numbers no trace of an earlier nan is left in the object. -/
theorem C112_fir_nan [Dot R] (f : Fir R) (hl : f.b.length = f.s.length) (hb : f.b ≠ []) (x : List (Num R))
    (hx : x ≠ []) :
    ∃ y f', (nanFir f).filter x = (.ok y, f') ∧ y.length = x.length ∧
      (∀ n < x.length, (y[n]? = some nan ↔ ∃ i ≤ n, n < i + f.b.length ∧ x[i]? = some nan)) ∧
      ∀ z, Fills z x → ∃ yz fz, f.filter z = (.ok yz, fz) ∧
        (∀ n < x.length, y[n]? ≠ some nan → y[n]? = yz[n]?.map val) ∧
        ((∀ i, x[i]? = some nan → i + f.b.length < x.length) → f' = nanFir fz) := by
  have hwf : f.WF := ⟨hl, List.length_pos_iff.mpr hb⟩
  have hwf' : (nanFir f).WF := by simpa [Fir.WF, nanFir] using hwf
  obtain ⟨y, h1, h2, h3⟩ := Fir.filter_wf (nanFir f) hwf' x hx
  have hcast : ∀ l : List (Num R), ∀ i : ℕ, (l.map (Num.map f.cast))[i]? = some nan ↔ l[i]? = some nan := by
    intro l i
    rw [List.getElem?_map]
    rcases l[i]? with _ | (v | _) <;> simp [Num.map]
  have hmem : ∀ n < x.length,
      (nan ∈ (((x.take (n + 1)).map (Num.map f.cast)).reverse ++ f.s.map val).take f.b.length ↔
        ∃ i ≤ n, n < i + f.b.length ∧ x[i]? = some nan) := by
    intro n hn
    rw [List.mem_iff_getElem?]
    have hn' : n < (x.map (Num.map f.cast)).length := by simpa using hn
    constructor
    · rintro ⟨i, hi⟩
      rw [List.map_take, window_get _ _ _ _ _ hn'] at hi
      split_ifs at hi with hL hi'
      · exact ⟨n - i, by omega, by omega, (hcast x _).mp hi⟩
      · simp at hi
    · rintro ⟨i, hi, hL, hv⟩
      refine ⟨n - i, ?_⟩
      rw [List.map_take, window_get _ _ _ _ _ hn', if_pos (by omega), if_pos (by omega), hcast,
        Nat.sub_sub_self hi]
      exact hv
  have hwin : ∀ z, Fills z x → ∀ n < x.length, ∀ (i : ℕ) (v : R),
      ((((x.take (n + 1)).map (Num.map f.cast)).reverse ++ f.s.map val).take f.b.length)[i]? = some (val v) →
      ((((z.take (n + 1)).map f.cast).reverse ++ f.s).take f.b.length)[i]? = some v := by
    intro z hz n hn i v hi
    have hn' : n < (x.map (Num.map f.cast)).length := by simpa using hn
    have hn'' : n < (z.map f.cast).length := by simpa [fills_length hz] using hn
    rw [List.map_take, window_get _ _ _ _ _ hn'] at hi
    rw [List.map_take, window_get _ _ _ _ _ hn'']
    split_ifs at hi ⊢ with hL hi'
    · rw [List.getElem?_map] at hi ⊢
      rcases h : x[n - i]? with _ | (w | _)
      · simp [h] at hi
      · rw [fills_get hz _ w h]
        simpa [h, Num.map] using hi
      · simp [h, Num.map] at hi
    · simpa using hi
  have hlen : ∀ z, Fills z x → ∀ n,
      ((((x.take (n + 1)).map (Num.map f.cast)).reverse ++ f.s.map val).take f.b.length).length =
      ((((z.take (n + 1)).map f.cast).reverse ++ f.s).take f.b.length).length := by
    intro z hz n; simp [fills_length hz]
  have hout : ∀ n < x.length, y[n]? = some (Num.map f.cast (dot (f.b.map val)
      ((((x.take (n + 1)).map (Num.map f.cast)).reverse ++ f.s.map val).take f.b.length))) := by
    intro n hn
    simpa [nanFir] using h3 n hn
  refine ⟨y, _, h1, h2, fun n hn => ?_, fun z hz => ?_⟩
  · rw [hout n hn, ← hmem n hn, Option.some_inj]
    constructor
    · intro h
      by_contra hn'
      obtain ⟨m, hm⟩ := eq_map_of_not_nan _ hn'
      rw [hm, dot_val] at h; cases h
    · intro h; rw [dot_nan _ _ h]; rfl
  · obtain ⟨yz, k1, k2, k3⟩ := Fir.filter_wf f hwf z (by
      intro h; have := fills_length hz; rw [h] at this; exact hx (List.length_eq_zero_iff.mp (by simpa using this.symm)))
    refine ⟨yz, _, k1, fun n hn hne => ?_, fun hlast => ?_⟩
    · have hd := dot_window f.cast f.b _ _ (hlen z hz n) (hwin z hz n hn)
      rw [hout n hn] at hne ⊢
      rw [(hd.2 (fun h => hne (by rw [hd.1.mpr h]))).1, k3 n (by rw [fills_length hz]; exact hn)]
      rfl
    · have hn : x.length - 1 < x.length := by have := List.length_pos_iff.mpr hx; omega
      have hd := dot_window f.cast f.b _ _ (hlen z hz (x.length - 1)) (hwin z hz _ hn)
      have hnot : nan ∉ (((x.take (x.length - 1 + 1)).map (Num.map f.cast)).reverse ++ f.s.map val).take f.b.length := by
        rw [hmem _ hn]
        rintro ⟨i, hi, hi', hv⟩
        have := hlast i hv
        omega
      have hw := (hd.2 hnot).2
      rw [List.take_of_length_le (by omega : x.length ≤ x.length - 1 + 1),
        List.take_of_length_le (by rw [fills_length hz]; omega : z.length ≤ x.length - 1 + 1)] at hw
      simp only [nanFir, List.length_map, Fir.mk.injEq, true_and]
      exact hw

/-- Concrete case of C112: two coefficients, the second of them zero; the nan spoils two outputs. -/
example : ∃ y f', (nanFir (⟨id, [1, 0], [0, 0]⟩ : Fir ℤ)).filter [val 1, nan, val 3, val 4] = (.ok y, f') ∧
    y = [val 1, nan, nan, val 4] := by
  obtain ⟨y, f', h1, h2, h3, h4⟩ := C112_fir_nan (⟨id, [1, 0], [0, 0]⟩ : Fir ℤ) rfl (by simp)
    [val 1, nan, val 3, val 4] (by simp)
  refine ⟨y, f', h1, ?_⟩
  obtain ⟨yz, fz, k1, k2, -⟩ := h4 [1, 7, 3, 4] (by simp [Fills])
  have e : (Fir.filter (⟨id, [1, 0], [0, 0]⟩ : Fir ℤ) [1, 7, 3, 4]).1 = .ok [1, 7, 3, 4] := by decide +kernel
  rw [k1] at e
  simp only [Except.ok.injEq] at e
  subst e
  have n0 : y[0]? ≠ some nan := by
    rw [Ne, h3 0 (by simp)]
    rintro ⟨i, hi, -, h⟩
    obtain rfl : i = 0 := by omega
    simp at h
  have n3 : y[3]? ≠ some nan := by
    rw [Ne, h3 3 (by simp)]; rintro ⟨i, hi, hi', h⟩
    simp only [List.length_cons, List.length_nil] at hi'
    have : i = 2 ∨ i = 3 := by omega
    rcases this with rfl | rfl <;> simp at h
  have e0 := k2 0 (by simp) n0
  have e3 := k2 3 (by simp) n3
  have e1 : y[1]? = some nan := (h3 1 (by simp)).mpr ⟨1, le_rfl, by simp, rfl⟩
  have e2 : y[2]? = some nan := (h3 2 (by simp)).mpr ⟨1, by omega, by simp, rfl⟩
  match y, h2 with
  | [a, b, c, d], _ => simp at e0 e1 e2 e3; simp [e0, e1, e2, e3]

/-! ## IirFilter -/

/-- A state with a nan in it, of a filter with at least two coefficients. -/
def Poisoned (g : Iir (Num R)) : Prop := g.WF ∧ 1 < g.s.length ∧ nan ∈ g.s ∧ ∀ v, g.cast v = nan ↔ v = nan

theorem poisoned_step [Add R] [Mul R] [Dot R] (g : Iir (Num R)) (hg : Poisoned g) (x : Num R) :
    ∃ g', g.step x = (.ok nan, g') ∧ Poisoned g' := by
  obtain ⟨h1, h2, h3, h4⟩ := hg
  have hm : nan ∈ g.mem.dropLast := by
    rcases hs : g.s with _ | ⟨s0, _ | ⟨s1, t⟩⟩
    · simp [hs] at h2
    · simp [hs] at h2
    · rw [Iir.mem, hs, List.modifyHead_cons, List.dropLast_cons_of_ne_nil (by simp), ← hs, dot_nan _ _ h3]
      simp [(h4 nan).mpr rfl]
  have hw := Iir.step_wf_wf g h1 x
  rw [Iir.step_wf g h1] at hw ⊢
  rw [dot_nan _ _ (List.mem_cons_of_mem _ hm), (h4 nan).mpr rfl]
  refine ⟨_, rfl, ⟨hw.1, ?_, List.mem_cons_of_mem _ hm, h4⟩⟩
  simp [Iir.mem_length]; omega

theorem poisoned_run [Add R] [Mul R] [Dot R] (x : List (Num R)) : ∀ g : Iir (Num R), Poisoned g →
    ∃ g', runLoop Iir.step g x = (.ok (List.replicate x.length nan), g') ∧ Poisoned g' := by
  induction x with
  | nil => intro g hg; exact ⟨g, rfl, hg⟩
  | cons x xs ih =>
    intro g hg
    obtain ⟨g1, h1, hg1⟩ := poisoned_step g hg x
    obtain ⟨g2, h2, hg2⟩ := ih g1 hg1
    exact ⟨g2, by simp [runLoop, h1, h2, List.replicate_succ], hg2⟩

theorem nanIir_wf (f : Iir R) (hf : f.WF) : (nanIir f).WF := by simpa [Iir.WF, nanIir] using hf

theorem nanIir_mem [Add R] [Dot R] (f : Iir R) : (nanIir f).mem = f.mem.map val := by
  rcases hs : f.s with _ | ⟨s0, t⟩
  · simp [Iir.mem, nanIir, hs]
  · simp only [Iir.mem, nanIir, hs, List.map_cons, List.modifyHead_cons]
    rw [← List.map_cons, dot_val]; rfl

theorem nanIir_comb [Add R] [Mul R] (f : Iir R) : (nanIir f).comb = f.comb.map val := by
  rcases hb : f.b with _ | ⟨b0, t⟩
  · simp [Iir.comb, nanIir, hb]
  · simp only [Iir.comb, nanIir, hb, List.map_cons, List.map_map]
    rw [← List.map_cons, List.zipWith_map_right, List.map_zipWith]
    rw [List.zipWith_map_left, List.zipWith_map_left]
    rfl

theorem nanIir_step [Add R] [Mul R] [Dot R] (f : Iir R) (hf : f.WF) (v : R) :
    ∃ y f1, f.step v = (.ok y, f1) ∧ f1.WF ∧ f1.s.length = f.s.length ∧
      (nanIir f).step (val v) = (.ok (val y), nanIir f1) := by
  have hw := (Iir.step_wf_wf f hf v).1
  have hl : (f.cast v :: f.mem.dropLast).length = f.s.length := by
    have := hf.2.1; have := hf.2.2
    simp [Iir.mem_length]; omega
  rw [Iir.step_wf f hf] at hw
  refine ⟨_, _, Iir.step_wf f hf v, hw, hl, ?_⟩
  rw [Iir.step_wf _ (nanIir_wf f hf), nanIir_mem, nanIir_comb]
  have : (nanIir f).cast (val v) :: (f.mem.map val).dropLast = (f.cast v :: f.mem.dropLast).map val := by
    rw [List.map_cons, List.map_dropLast]; rfl
  rw [this, dot_val]
  rfl

theorem nanIir_poisoned [Add R] [Mul R] [Dot R] (f : Iir R) (hf : f.WF) (h2 : 1 < f.s.length) :
    ∃ g, (nanIir f).step nan = (.ok nan, g) ∧ Poisoned g := by
  have hw := Iir.step_wf_wf _ (nanIir_wf f hf) nan
  rw [Iir.step_wf _ (nanIir_wf f hf)] at hw ⊢
  have hc : (nanIir f).cast nan = nan := rfl
  rw [hc] at hw ⊢
  rw [dot_nan _ _ (List.mem_cons_self ..), hc]
  refine ⟨_, rfl, hw.1, ?_, List.mem_cons_self .., ?_⟩
  · simp [Iir.mem_length, nanIir]; omega
  · intro v; cases v <;> simp [nanIir, Num.map]

theorem nanIir_run [Add R] [Mul R] [Dot R] (x : List (Num R)) : ∀ f : Iir R, f.WF → 1 < f.s.length →
    ∃ y f', runLoop Iir.step (nanIir f) x = (.ok y, f') ∧ y.length = x.length ∧
      (∀ n < x.length, (y[n]? = some nan ↔ ∃ i ≤ n, x[i]? = some nan)) ∧
      (nan ∈ x → Poisoned f') ∧
      ∀ z, Fills z x → ∃ yz fz, runLoop Iir.step f z = (.ok yz, fz) ∧
        (∀ n < x.length, y[n]? ≠ some nan → y[n]? = yz[n]?.map val) ∧ (nan ∉ x → f' = nanIir fz) := by
  induction x with
  | nil =>
    intro f _ _
    refine ⟨[], _, rfl, rfl, by simp, by simp, fun z hz => ?_⟩
    have : z = [] := List.length_eq_zero_iff.mp (fills_length hz)
    subst this
    exact ⟨[], f, rfl, by simp, fun _ => rfl⟩
  | cons a xs ih =>
    intro f hf h2
    cases a with
    | val v =>
      obtain ⟨y0, f1, h1, hf1, hl1, hn1⟩ := nanIir_step f hf v
      obtain ⟨y, f', k1, k2, k3, k4, k5⟩ := ih f1 hf1 (by omega)
      refine ⟨val y0 :: y, f', by simp [runLoop, hn1, k1], by simp [k2], ?_, ?_, fun z hz => ?_⟩
      · intro n hn
        cases n with
        | zero => simp
        | succ n =>
          simp only [List.length_cons, Nat.add_lt_add_iff_right] at hn
          rw [List.getElem?_cons_succ, k3 n hn]
          constructor
          · rintro ⟨i, hi, hv⟩
            exact ⟨i + 1, by omega, by simpa using hv⟩
          · rintro ⟨i, hi, hv⟩
            cases i with
            | zero => simp at hv
            | succ i => exact ⟨i, by omega, by simpa using hv⟩
      · intro h; exact k4 (by simpa using h)
      · obtain ⟨z0, zs, h0, hz', rfl⟩ := List.forall₂_cons_right_iff.mp hz
        obtain ⟨yz, fz, m1, m2, m3⟩ := k5 zs hz'
        have : z0 = v := by rcases h0 with h0 | h0 <;> simp_all
        subst this
        refine ⟨y0 :: yz, fz, by simp [runLoop, h1, m1], ?_, ?_⟩
        · intro n hn hne
          cases n with
          | zero => simp
          | succ n => exact m2 n (by simpa using hn) (by simpa using hne)
        · intro h; exact m3 (fun h' => h (List.mem_cons_of_mem _ h'))
    | nan =>
      obtain ⟨g, h1, hg⟩ := nanIir_poisoned f hf h2
      obtain ⟨g', k1, hg'⟩ := poisoned_run xs g hg
      have hall : ∀ n < (nan :: xs).length, (List.replicate (xs.length + 1) (nan : Num R))[n]? = some nan := by
        intro n hn
        rw [List.getElem?_replicate, if_pos (by simpa using hn)]
      refine ⟨List.replicate (xs.length + 1) nan, g', by simp [runLoop, h1, k1, List.replicate_succ], by simp, ?_,
        fun _ => hg', fun z hz => ?_⟩
      · intro n hn
        exact ⟨fun _ => ⟨0, by omega, rfl⟩, fun _ => hall n hn⟩
      · obtain ⟨yz, fz, m1, -⟩ := Iir.runLoop_wf f hf z
        refine ⟨yz, fz, m1, fun n hn hne => absurd (hall n hn) hne, fun h => ?_⟩
        simp at h

/-- C112: IirFilter (IntegralFilter too) with at least two coefficients.  The outputs before the first nan are what they
were with any number in its place; from the first nan on every output is nan, for the rest of the call and in every
later call, although the feedback of `s[0]` has the coefficient `a[0] = 0`. -/
theorem C112_iir_nan [Add R] [Mul R] [Dot R] (f : Iir R) (ha : f.a.length = f.b.length) (hs : f.b.length = f.s.length)
    (h2 : 1 < f.b.length) (x : List (Num R)) (hx : x ≠ []) :
    ∃ y f', (nanIir f).filter x = (.ok y, f') ∧ y.length = x.length ∧
      (∀ n < x.length, (y[n]? = some nan ↔ ∃ i ≤ n, x[i]? = some nan)) ∧
      (∀ z, Fills z x → ∃ yz fz, f.filter z = (.ok yz, fz) ∧
        ∀ n < x.length, y[n]? ≠ some nan → y[n]? = yz[n]?.map val) ∧
      (nan ∈ x → ∀ calls : List (List (Num R)), (∀ c ∈ calls, c ≠ []) →
        ∃ f'', callChunks Iir.filter f' calls = (.ok (List.replicate calls.flatten.length nan), f'')) := by
  have hwf : f.WF := ⟨ha, hs, by omega⟩
  obtain ⟨y, f', h1, h3, h4, h5, h6⟩ := nanIir_run x f hwf (by omega)
  have hx0 : x.length ≠ 0 := by simpa using hx
  refine ⟨y, f', by rw [Iir.filter, if_neg hx0, h1], h3, h4, fun z hz => ?_, fun hn calls hne => ?_⟩
  · obtain ⟨yz, fz, k1, k2, -⟩ := h6 z hz
    exact ⟨yz, fz, by rw [Iir.filter, if_neg (by rw [fills_length hz]; exact hx0), k1], k2⟩
  · rw [callChunks_eq_runLoop Iir.step Iir.filter (fun st x hx => by
      rw [Iir.filter, if_neg (by simpa using hx)]) f' calls hne]
    obtain ⟨g', k1, -⟩ := poisoned_run calls.flatten f' (h5 hn)
    exact ⟨g', k1⟩

/-- C112: an IirFilter with one coefficient has no memory: exactly the nan samples give nan. -/
theorem C112_iir_single [Add R] [Mul R] [Dot R] (f : Iir R) (ha : f.a.length = 1) (hb : f.b.length = 1)
    (hs : f.s.length = 1) (x : List (Num R)) (hx : x ≠ []) :
    ∃ y f', (nanIir f).filter x = (.ok y, f') ∧ y.length = x.length ∧
      ∀ n < x.length, (y[n]? = some nan ↔ x[n]? = some nan) := by
  have hx0 : x.length ≠ 0 := by simpa using hx
  simp only [Iir.filter, if_neg hx0]
  have hwf : f.WF := ⟨by omega, by omega, by omega⟩
  have hgen : ∀ x : List (Num R), ∀ g : Iir (Num R), g.WF → g.s.length = 1 → g.comb = f.comb.map val →
      g.cast = Num.map f.cast → ∃ y f', runLoop Iir.step g x = (.ok y, f') ∧ y.length = x.length ∧
      ∀ n < x.length, (y[n]? = some nan ↔ x[n]? = some nan) := by
    intro x
    induction x with
    | nil => intro g _ _ _ _; exact ⟨[], g, rfl, rfl, by simp⟩
    | cons a xs ih =>
      intro g hg hl hcomb hc
      have hst := Iir.step_wf g hg a
      have hd : g.mem.dropLast = [] := List.length_eq_zero_iff.mp (by simp [Iir.mem_length, hl])
      obtain ⟨k1, k2, k3, k4⟩ := Iir.step_wf_wf g hg a
      rw [hst] at k1 k2 k3 k4
      obtain ⟨y, f', m1, m2, m3⟩ := ih _ k1 (by simp [hd]) (by rw [← hcomb]; simp only [Iir.comb]) hc
      refine ⟨_ :: y, f', by simp only [runLoop, hst, m1]; rfl, by simp [m2], ?_⟩
      intro n hn
      cases n with
      | zero =>
        simp only [List.getElem?_cons_zero, Option.some_inj]
        rw [hd, hcomb, hc]
        cases a with
        | val v =>
          have : [Num.map f.cast (val v)] = [f.cast v].map val := rfl
          rw [this, dot_val]; simp [Num.map]
        | nan =>
          have : nan ∈ [Num.map f.cast (nan : Num R)] := by simp [Num.map]
          rw [dot_nan _ _ this]; simp [Num.map]
      | succ n => simpa using m3 n (by simpa using hn)
  exact hgen x (nanIir f) (nanIir_wf f hwf) (by simp [nanIir, hs]) (nanIir_comb f) rfl

/-- Concrete case of C112: the integrator of rectangles (IntegralFilter, order 1) after a nan. -/
example (y : List (Num ℤ)) (f') (h : (nanIir (⟨id, [0, 1], [1, 0], [0, 0]⟩ : Iir ℤ)).filter [val 1, nan, val 3] = (.ok y, f')) :
    y[0]? ≠ some nan ∧ y[2]? = some nan := by
  obtain ⟨y', f'', h1, -, h3, -⟩ := C112_iir_nan (⟨id, [0, 1], [1, 0], [0, 0]⟩ : Iir ℤ) rfl rfl (by simp)
    [val 1, nan, val 3] (by simp)
  rw [h] at h1
  obtain ⟨rfl, -⟩ : y = y' ∧ _ := by simpa using h1
  refine ⟨?_, (h3 2 (by simp)).mpr ⟨1, by omega, rfl⟩⟩
  rw [Ne, h3 0 (by simp)]
  rintro ⟨i, hi, h⟩
  obtain rfl : i = 0 := by omega
  simp at h

/-! ## GoertzelFilter -/

theorem weighted_fills [Mul R] (u : R) (w : List R) (z : List R) (x : List (Num R)) (h : Fills z x) :
    Fills (weighted u w z) (weighted (val u) (w.map val) x) := by
  unfold Fills at h ⊢
  induction h generalizing w with
  | nil => cases w <;> simp [weighted]
  | cons h0 _ ih =>
    cases w with
    | nil => simp [weighted]
    | cons a t =>
      simp only [weighted, List.map_cons, List.zipWith_cons_cons, List.forall₂_cons]
      refine ⟨?_, ih t⟩
      rcases h0 with h0 | h0 <;> simp [h0]

theorem weighted_nan [Mul R] (u : R) (w : List R) (x : List (Num R)) (hl : x.length = w.length) :
    nan ∈ weighted (val u) (w.map val) x ↔ nan ∈ x := by
  induction x generalizing w with
  | nil => simp [weighted]
  | cons a t ih =>
    cases w with
    | nil => simp at hl
    | cons b w =>
      have := ih w (by simpa using hl)
      simp only [weighted, List.map_cons, List.zipWith_cons_cons, List.mem_cons] at this ⊢
      rw [this]
      cases a <;> simp

theorem block_nan [Add R] [Mul R] [Dot R] (i0 : Iir R) (hwf : i0.WF) (h2 : 1 < i0.s.length) (u : R) (w : List R)
    (hw : w ≠ []) (x : List (Num R)) (hl : x.length = w.length) :
    (blockValue (nanIir i0) (val u) (w.map val) x = some nan ↔ nan ∈ x) ∧
    ∀ z, Fills z x → nan ∉ x →
      blockValue (nanIir i0) (val u) (w.map val) x = (blockValue i0 u w z).map val := by
  obtain ⟨y, f', h1, h3, h4, h5, h6⟩ := nanIir_run (weighted (val u) (w.map val) x) i0 hwf h2
  have hwl : (weighted (val u) (w.map val) x).length = w.length := by simp [weighted, hl]
  have hpos : 0 < w.length := List.length_pos_iff.mpr hw
  have hbv : blockValue (nanIir i0) (val u) (w.map val) x = y[w.length - 1]? := by
    simp only [blockValue, feed, h1, List.getLast?_eq_getElem?, h3, hwl]
  have hiff : blockValue (nanIir i0) (val u) (w.map val) x = some nan ↔ nan ∈ x := by
    rw [hbv, h4 _ (by omega), ← weighted_nan u w x hl, List.mem_iff_getElem?]
    constructor
    · rintro ⟨i, -, h⟩; exact ⟨i, h⟩
    · rintro ⟨i, h⟩
      refine ⟨i, ?_, h⟩
      have := (List.getElem?_eq_some_iff.mp h).1
      omega
  refine ⟨hiff, fun z hz hn => ?_⟩
  obtain ⟨yz, fz, k1, k2, -⟩ := h6 _ (weighted_fills u w z x hz)
  have hlz := runLoop_ok_length _ _ _ _ _ k1
  have hzl : yz.length = w.length := by rw [hlz]; simp [weighted, fills_length hz, hl]
  have hbz : blockValue i0 u w z = yz[w.length - 1]? := by
    simp only [blockValue, feed, k1, List.getLast?_eq_getElem?, hzl]
  rw [hbz, hbv]
  refine k2 _ (by omega) (fun h => hn (hiff.mp (by rw [hbv]; exact h)))

theorem blocks_get {S : Type*} (N : ℕ) (l : List S) (k : ℕ) (hk : k < l.length / N) :
    (blocks N l)[k]? = some ((l.drop (k * N)).take N) := by
  simp [blocks, List.getElem?_map, List.getElem?_range hk]

/-- C112: GoertzelFilter.  Cut the whole input (all calls in a row) into blocks of the window length: exactly the blocks
which contain a nan yield nan; the others yield what they yield with any numbers in place of the nans. -/
theorem C112_goertzel_nan [Zero R] [Add R] [Mul R] [Dot R] (g : Goertzel R F) (gain : ℕ → R) (hwf : g.iir.WF)
    (h2 : 1 < g.iir.b.length) (hz : g.iir.Zeroed) (hi : g.index = 0) (hw : g.w ≠ []) (calls : List (List (Num R)))
    (hne : ∀ c ∈ calls, c ≠ []) :
    ∃ vs g', callChunks (Goertzel.filter fun n => val (gain n)) (nanGoertzel g) calls = (.ok vs, g') ∧
      vs.length = calls.flatten.length / g.w.length ∧
      (∀ k < vs.length, (vs[k]? = some nan ↔ ∃ i, i / g.w.length = k ∧ calls.flatten[i]? = some nan)) ∧
      ∀ zs : List (List R), (∀ c ∈ zs, c ≠ []) → Fills zs.flatten calls.flatten →
        ∃ vz gz, callChunks (Goertzel.filter gain) g zs = (.ok vz, gz) ∧
          ∀ k < vs.length, vs[k]? ≠ some nan → vs[k]? = vz[k]?.map val := by
  have hN : 0 < g.w.length := List.length_pos_iff.mpr hw
  have h2' : 1 < g.iir.s.length := by rw [← hwf.2.1]; exact h2
  have hinv : g.Inv g.iir (gain g.w.length) [] := by
    refine ⟨hwf, hz, by simp [hi], by simpa using hN, ?_⟩
    simp [feed, weighted, runLoop]
  have hinv' : (nanGoertzel g).Inv (nanIir g.iir) (val (gain (nanGoertzel g).w.length)) [] := by
    refine ⟨nanIir_wf _ hwf, ?_, by simp [nanGoertzel, hi], by simpa [nanGoertzel] using hN, ?_⟩
    · have := congrArg (List.map (val : R → Num R)) hz
      rw [List.map_map] at this
      simp only [Iir.Zeroed, nanIir, List.map_map]
      exact this
    · simp [feed, weighted, runLoop, nanGoertzel]
  obtain ⟨vs, g', h1, -, -, h4, -⟩ := Goertzel.chunks_spec (nanIir g.iir) (fun n => val (gain n)) calls _ [] hinv' hne
  have hwl : (nanGoertzel g).w.length = g.w.length := by simp [nanGoertzel]
  simp only [List.nil_append, hwl] at h4
  have hlen : vs.length = calls.flatten.length / g.w.length := by
    have := congrArg List.length h4
    rwa [List.length_map, List.length_map, blocks_length] at this
  have hvs : ∀ k < vs.length, vs[k]? = blockValue (nanIir g.iir) (val (gain g.w.length)) (g.w.map val)
      ((calls.flatten.drop (k * g.w.length)).take g.w.length) := by
    intro k hk
    have := congrArg (fun l => l[k]?) h4
    simp only [List.getElem?_map, blocks_get g.w.length calls.flatten k (hlen ▸ hk), Option.map_some] at this
    rw [List.getElem?_eq_getElem hk] at this ⊢
    simpa [nanGoertzel] using this
  have hbl : ∀ k < vs.length, ((calls.flatten.drop (k * g.w.length)).take g.w.length).length = g.w.length := by
    intro k hk
    rw [hlen] at hk
    have h := Nat.div_mul_le_self calls.flatten.length g.w.length
    have h' : (k + 1) * g.w.length ≤ calls.flatten.length / g.w.length * g.w.length :=
      Nat.mul_le_mul_right _ hk
    rw [Nat.succ_mul] at h'
    rw [List.length_take, List.length_drop]; omega
  have hmem : ∀ k < vs.length, (nan ∈ (calls.flatten.drop (k * g.w.length)).take g.w.length ↔
      ∃ i, i / g.w.length = k ∧ calls.flatten[i]? = some nan) := by
    intro k hk
    rw [List.mem_iff_getElem?]
    constructor
    · rintro ⟨i, hi⟩
      have hlt := (List.getElem?_eq_some_iff.mp hi).1
      rw [hbl k hk] at hlt
      rw [List.getElem?_take_of_lt hlt, List.getElem?_drop] at hi
      refine ⟨k * g.w.length + i, ?_, hi⟩
      rw [Nat.add_comm, Nat.add_mul_div_right _ _ hN, Nat.div_eq_of_lt hlt, Nat.zero_add]
    · rintro ⟨i, rfl, hi⟩
      refine ⟨i % g.w.length, ?_⟩
      rw [List.getElem?_take_of_lt (Nat.mod_lt _ hN), List.getElem?_drop, Nat.mul_comm, Nat.div_add_mod]
      exact hi
  refine ⟨vs, g', h1, hlen, fun k hk => ?_, fun zs hzne hzs => ?_⟩
  · rw [hvs k hk, (block_nan g.iir hwf h2' _ _ hw _ (hbl k hk)).1, hmem k hk]
  · obtain ⟨vz, gz, k1, -, -, k4, -⟩ := Goertzel.chunks_spec g.iir gain zs g [] hinv hzne
    refine ⟨vz, gz, k1, fun k hk hn => ?_⟩
    simp only [List.nil_append] at k4
    have hzl := fills_length hzs
    have hk' : k < zs.flatten.length / g.w.length := by rw [hzl, ← hlen]; exact hk
    have hvz : vz[k]? = blockValue g.iir (gain g.w.length) g.w
        ((zs.flatten.drop (k * g.w.length)).take g.w.length) := by
      have := congrArg (fun l => l[k]?) k4
      simp only [List.getElem?_map, blocks_get g.w.length zs.flatten k hk', Option.map_some] at this
      rcases h : vz[k]? with _ | v
      · simp [h] at this
      · simpa [h] using this
    have hb := block_nan g.iir hwf h2' (gain g.w.length) g.w hw _ (hbl k hk)
    rw [hvs k hk] at hn ⊢
    rw [hvz]
    exact hb.2 _ (List.forall₂_take _ (List.forall₂_drop _ hzs)) (fun h => hn (hb.1.mpr h))

/-- Concrete case of C112: a window of two ones, and three blocks the second of which holds a nan. -/
example : ∃ g : Goertzel ℤ ℤ, g.iir.WF ∧ 1 < g.iir.b.length ∧ g.iir.Zeroed ∧ g.index = 0 ∧ g.w ≠ [] ∧
    Fills [[1, 2, 3], [4, 5, 6]].flatten ([[val 1, val 2, nan], [val 4, val 5, val 6]] : List (List (Num ℤ))).flatten :=
  ⟨⟨⟨id, [0, 1, -1], [1, -1, 0], [0, 0, 0]⟩, 0, [1, 1], 0⟩, ⟨rfl, rfl, by simp⟩, by simp, rfl, rfl, by simp,
    by simp [Fills]⟩

/-! ## PidFilter -/

/-- The integral part of PidFilter on a list of numbers. -/
def heldSum [Add R] [LT K] [DecidableLT K] (mag : R → K) (f : Pid R K) (l : List R) : R :=
  l.foldl (fun t v => if belowLimit (mag (t + v)) f.limit then f.cast (t + v) else t) f.s1

theorem heldSum_eq [Add R] [Sub R] [Dot R] [LT K] [DecidableLT K] (mag : R → K) (l : List R) : ∀ f : Pid R K,
    (runLoop (Pid.step mag) f l).2.s1 = heldSum mag f l := by
  induction l with
  | nil => intro f; rfl
  | cons v l ih =>
    intro f
    have : (runLoop (Pid.step mag) f (v :: l)).2 = (runLoop (Pid.step mag) (Pid.step mag f v).2 l).2 := by
      simp only [runLoop, Pid.step]
      rcases runLoop (Pid.step mag) _ l with ⟨_ | _, _⟩ <;> rfl
    rw [this, ih]
    simp only [heldSum, Pid.step, List.foldl_cons]
    rfl

/-- The sample which the derivative part sees before sample `n`. -/
def before (c : R → R) (s0 : Num R) (x : List (Num R)) : ℕ → Option (Num R)
  | 0 => some s0
  | n + 1 => x[n]?.map (Num.map c)

theorem nanPid_run [Add R] [Sub R] [Dot R] [LT K] [DecidableLT K] (mag : R → K) (f : Pid R K) (x : List (Num R)) :
    ∀ (s0 s2 : Num R) (s1 : R),
    ∃ y s0' s1' s2', runLoop (Pid.step (Num.map mag)) { nanPid f with s0 := s0, s1 := val s1, s2 := s2 } x =
        (.ok y, { nanPid f with s0 := s0', s1 := val s1', s2 := s2' }) ∧ y.length = x.length ∧
      s1' = heldSum mag { f with s1 := s1 } (vals x) ∧
      (∀ n < x.length, (y[n]? = some nan ↔ x[n]? = some nan ∨ before f.cast s0 x n = some nan)) ∧
      ∀ n v p, x[n]? = some (val v) → before f.cast s0 x n = some (val p) →
        y[n]? = some (val (f.cast (dot [f.b0, f.b1, f.b2]
          [f.cast v, heldSum mag { f with s1 := s1 } (vals (x.take (n + 1))), f.cast (v - p)]))) := by
  induction x with
  | nil => intro s0 s2 s1; exact ⟨[], s0, s1, s2, rfl, rfl, rfl, by simp, by simp⟩
  | cons a xs ih =>
    intro s0 s2 s1
    cases a with
    | nan =>
      have hst : Pid.step (Num.map mag) { nanPid f with s0 := s0, s1 := val s1, s2 := s2 } nan =
          (.ok nan, { nanPid f with s0 := nan, s1 := val s1, s2 := nan }) := by
        have hb : belowLimit (Num.map mag (val s1 + nan)) (nanPid f).limit = false := by
          rw [add_nan]
          simp only [nanPid, Num.map]
          rcases f.limit with _ | l
          · rfl
          · exact decide_eq_false (fun h => h)
        simp only [Pid.step, hb]
        rw [dot_nan _ _ (by simp [nanPid, Num.map])]
        simp [nanPid, Num.map]
      obtain ⟨y, t0, t1, t2, k1, k2, k3, k4, k5⟩ := ih nan nan s1
      refine ⟨nan :: y, t0, t1, t2, by simp [runLoop, hst, k1], by simp [k2], k3, ?_, ?_⟩
      · intro n hn
        cases n with
        | zero => simp
        | succ n =>
          rw [List.getElem?_cons_succ, k4 n (by simpa using hn)]
          cases n <;> simp [before, Num.map]
      · intro n v p hv hp
        cases n with
        | zero => simp at hv
        | succ n =>
          rw [List.getElem?_cons_succ] at hv
          rw [List.getElem?_cons_succ, k5 n v p hv ?_]
          · simp [vals]
          · cases n with
            | zero => simp [before, Num.map] at hp
            | succ n => simpa [before] using hp
    | val w =>
      have hb : belowLimit (Num.map mag (val s1 + val w)) (nanPid f).limit = belowLimit (mag (s1 + w)) f.limit := by
        rw [val_add]
        simp only [nanPid, Num.map]
        rcases f.limit with _ | l
        · rfl
        · rfl
      obtain ⟨u, hu⟩ : ∃ u, u = if belowLimit (mag (s1 + w)) f.limit then f.cast (s1 + w) else s1 := ⟨_, rfl⟩
      have hst : Pid.step (Num.map mag) { nanPid f with s0 := s0, s1 := val s1, s2 := s2 } (val w) =
          (.ok (Num.map f.cast (dot [val f.b0, val f.b1, val f.b2] [val (f.cast w), val u, Num.map f.cast (val w - s0)])),
            { nanPid f with s0 := val (f.cast w), s1 := val u, s2 := Num.map f.cast (val w - s0) }) := by
        rw [val_add] at hb
        simp only [Pid.step, val_add, hb]
        have : (if belowLimit (mag (s1 + w)) f.limit = true then (nanPid f).cast (val (s1 + w)) else val s1) = val u := by
          rw [hu]; split_ifs <;> rfl
        rw [this]
        rfl
      obtain ⟨y, t0, t1, t2, k1, k2, k3, k4, k5⟩ := ih (val (f.cast w)) (Num.map f.cast (val w - s0)) u
      have hsum : ∀ l, heldSum mag { f with s1 := s1 } (vals (val w :: l)) = heldSum mag { f with s1 := u } (vals l) := by
        intro l
        rw [hu]
        rfl
      refine ⟨_ :: y, t0, t1, t2, by simp only [runLoop, hst, k1]; rfl, by simp [k2], by rw [hsum, k3], ?_, ?_⟩
      · intro n hn
        cases n with
        | zero =>
          cases s0 with
          | val p =>
            have : dot [val f.b0, val f.b1, val f.b2] [val (f.cast w), val u, Num.map f.cast (val w - val p)] =
                val (dot [f.b0, f.b1, f.b2] [f.cast w, u, f.cast (w - p)]) :=
              dot_val [f.b0, f.b1, f.b2] [f.cast w, u, f.cast (w - p)]
            rw [this]
            simp [before, Num.map]
          | nan =>
            rw [dot_nan _ _ (by simp [Num.map])]
            simp [before, Num.map]
        | succ n =>
          rw [List.getElem?_cons_succ, k4 n (by simpa using hn)]
          cases n <;> simp [before, Num.map]
      · intro n v p hv hp
        cases n with
        | zero =>
          simp only [List.getElem?_cons_zero, Option.some_inj, Num.val.injEq, before] at hv hp
          subst hv hp
          have : dot [val f.b0, val f.b1, val f.b2] [val (f.cast w), val u, Num.map f.cast (val w - val p)] =
                val (dot [f.b0, f.b1, f.b2] [f.cast w, u, f.cast (w - p)]) :=
              dot_val [f.b0, f.b1, f.b2] [f.cast w, u, f.cast (w - p)]
          rw [this]
          simp [heldSum, vals, Num.map, hu]
        | succ n =>
          rw [List.getElem?_cons_succ] at hv
          rw [List.getElem?_cons_succ, k5 n v p hv ?_, List.take_succ_cons, hsum]
          cases n <;> simpa [before, Num.map] using hp

/-- C112: PidFilter, with or without a limit.  A nan spoils its own output and the next one (the derivative), no other:
the comparison with the limit is false for nan, also with `inf`, so the integral skips the nan samples.  An output which
is not nan is that of the formula with the integral of the numbers received so far. -/
theorem C112_pid_nan [Add R] [Sub R] [Dot R] [LT K] [DecidableLT K] (mag : R → K) (f : Pid R K) (x : List (Num R))
    (hx : x ≠ []) :
    ∃ y f', (nanPid f).filter (Num.map mag) x = (.ok y, f') ∧ y.length = x.length ∧
      (∀ n < x.length, (y[n]? = some nan ↔ x[n]? = some nan ∨ 0 < n ∧ x[n - 1]? = some nan)) ∧
      ∀ n v p, x[n]? = some (val v) → (n = 0 ∧ p = f.s0 ∨ 0 < n ∧ ∃ q, x[n - 1]? = some (val q) ∧ p = f.cast q) →
        y[n]? = some (val (f.cast (dot [f.b0, f.b1, f.b2]
          [f.cast v, (f.filter mag (vals (x.take (n + 1)))).2.s1, f.cast (v - p)]))) := by
  have hx0 : x.length ≠ 0 := by simpa using hx
  obtain ⟨y, t0, t1, t2, k1, k2, k3, k4, k5⟩ := nanPid_run mag f x (val f.s0) (val f.s2) f.s1
  refine ⟨y, _, by rw [Pid.filter, if_neg hx0]; exact k1, k2, ?_, ?_⟩
  · intro n hn
    rw [k4 n hn]
    cases n with
    | zero => simp [before]
    | succ n =>
      simp only [before, Nat.add_sub_cancel, Nat.zero_lt_succ, true_and]
      rcases x[n]? with _ | (v | _) <;> simp [Num.map]
  · intro n v p hv hp
    rw [k5 n v p hv ?_]
    · have hne : (vals (x.take (n + 1))).length ≠ 0 := by
        intro h0
        rw [List.length_eq_zero_iff] at h0
        have hm : val v ∈ x.take (n + 1) := by
          rw [List.mem_iff_getElem?]
          exact ⟨n, by rw [List.getElem?_take_of_lt (by omega)]; exact hv⟩
        have : v ∈ vals (x.take (n + 1)) := List.mem_filterMap.mpr ⟨val v, hm, rfl⟩
        rw [h0] at this; simp at this
      rw [Pid.filter, if_neg hne, heldSum_eq]
    · rcases hp with ⟨rfl, rfl⟩ | ⟨hn, q, hq, rfl⟩
      · rfl
      · obtain ⟨m, rfl⟩ : ∃ m, n = m + 1 := ⟨n - 1, by omega⟩
        rw [Nat.add_sub_cancel] at hq
        simp [before, hq, Num.map]

/-- Concrete case of C112: an integrating PidFilter without a limit.  The nan spoils two outputs, the third is the sum of
the two numbers. -/
example : ∃ y f', (nanPid (⟨id, 0, 1, 0, 0, 0, 0, none⟩ : Pid ℤ ℤ)).filter (Num.map fun v => |v|)
    [val 1, nan, val 3, val 4] = (.ok y, f') ∧ y = [val 1, nan, nan, val 8] := by
  obtain ⟨y, f', h1, h2, h3, h4⟩ := C112_pid_nan (fun v => |v|) (⟨id, 0, 1, 0, 0, 0, 0, none⟩ : Pid ℤ ℤ)
    [val 1, nan, val 3, val 4] (by simp)
  refine ⟨y, f', h1, ?_⟩
  have e0 := h4 0 1 0 rfl (Or.inl ⟨rfl, rfl⟩)
  have e3 := h4 3 4 3 rfl (Or.inr ⟨by omega, 3, rfl, rfl⟩)
  have e1 : y[1]? = some nan := (h3 1 (by simp)).mpr (Or.inl rfl)
  have e2 : y[2]? = some nan := (h3 2 (by simp)).mpr (Or.inr ⟨by omega, rfl⟩)
  have d0 : dot [(0 : ℤ), 1, 0] [id 1, (Pid.filter (fun v => |v|) (⟨id, 0, 1, 0, 0, 0, 0, none⟩ : Pid ℤ ℤ)
      (vals [val 1])).2.s1, id (1 - 0)] = 1 := by decide +kernel
  have d3 : dot [(0 : ℤ), 1, 0] [id 4, (Pid.filter (fun v => |v|) (⟨id, 0, 1, 0, 0, 0, 0, none⟩ : Pid ℤ ℤ)
      (vals [val 1, nan, val 3, val 4])).2.s1, id (4 - 3)] = 8 := by decide +kernel
  have e0' : y[0]? = some (val 1) := e0.trans (congrArg (fun v => some (val v)) d0)
  have e3' : y[3]? = some (val 8) := e3.trans (congrArg (fun v => some (val v)) d3)
  match y, h2 with
  | [a, b, c, d], _ => simp at e0' e1 e2 e3'; simp [e0', e1, e2, e3']

/-! ## RankFilter -/

/-- numpy's sorting order: nan comes after every number. -/
def sortKey (mag : R → K) : Num R → WithTop K
  | val v => (mag v : WithTop K)
  | nan => ⊤

theorem count_vals [LinearOrder K] (mag : R → K) (m : K) (w : List (Num R)) :
    w.countP (fun v => sortKey mag v < (m : WithTop K)) = (vals w).countP (fun v => mag v < m) ∧
    w.countP (fun v => sortKey mag v ≤ (m : WithTop K)) = (vals w).countP (fun v => mag v ≤ m) := by
  induction w with
  | nil => simp [vals]
  | cons a t ih =>
    cases a with
    | val v => simpa [vals, sortKey, List.countP_cons] using ih
    | nan => simpa [vals, sortKey, List.countP_cons] using ih

theorem count_top [LinearOrder K] (mag : R → K) (w : List (Num R)) :
    w.countP (fun v => sortKey mag v < (⊤ : WithTop K)) = (vals w).length := by
  induction w with
  | nil => simp [vals]
  | cons a t ih =>
    cases a with
    | val v => simpa [vals, sortKey, List.countP_cons] using ih
    | nan => simpa [vals, sortKey, List.countP_cons] using ih

theorem rank_nan [LinearOrder K] (mag : R → K) (w : List (Num R)) (i : ℕ) (y : Num R)
    (h : IsRank (sortKey mag) w i y) :
    (y = nan ↔ (vals w).length ≤ i) ∧ ∀ v, y = val v → IsRank mag (vals w) i v := by
  obtain ⟨h1, h2, h3⟩ := h
  cases y with
  | nan =>
    refine ⟨⟨fun _ => ?_, fun _ => rfl⟩, fun v hv => by cases hv⟩
    exact count_top mag w ▸ h2
  | val v =>
    have hc := count_vals mag (mag v) w
    have e : sortKey mag (val v) = (mag v : WithTop K) := rfl
    rw [e] at h2 h3
    rw [hc.1] at h2
    rw [hc.2] at h3
    refine ⟨⟨fun h => (by cases h), fun hle => ?_⟩, fun u hu => ?_⟩
    · have := List.countP_le_length (p := fun u => decide (mag u ≤ mag v)) (l := vals w)
      omega
    · cases hu
      exact ⟨List.mem_filterMap.mpr ⟨val v, h1, rfl⟩, h2, h3⟩

/-- C112: RankFilter.  numpy sorts nan behind every number, so the output is nan exactly when the window holds at most
`index` numbers; otherwise it is the number of rank `index` among the numbers of the window. -/
theorem C112_rank_nan [LinearOrder K] [Zero R] (argsort : List (WithTop K) → List ℕ) (ha : IsArgsort argsort)
    (mag : R → K) (index order : ℕ) (hio : index ≤ order) (s : List (Num R)) (hs : s.length = order + 1)
    (x : List (Num R)) (hx : x ≠ []) :
    ∃ f : Rank (Num R), Rank.new index order = .ok f ∧
      ∃ y f', Rank.filter argsort (sortKey mag) { f with s := s } x = (.ok y, f') ∧ y.length = x.length ∧
        ∀ n < x.length, (y[n]? = some nan ↔ (vals (lookback order s x n)).length ≤ index) ∧
          ∀ v, y[n]? = some (val v) → IsRank mag (vals (lookback order s x n)) index v := by
  obtain ⟨f, h1, y, f', h2, h3, h4⟩ := C16_rank_order_statistic argsort ha (sortKey mag) index order hio s hs x hx
  refine ⟨f, h1, y, f', h2, h3, fun n hn => ?_⟩
  obtain ⟨v, hv, hr⟩ := h4 n hn
  have := rank_nan mag _ _ _ hr
  rw [hv]
  exact ⟨by rw [Option.some_inj]; exact this.1, fun u hu => this.2 u (by simpa using hu)⟩

/-- Concrete case of C112: the median of three ignores one nan in the window. -/
example : vals (lookback 2 [(val 0 : Num ℤ), val 0, val 0] [val 5, nan, val 3] 2) = [3, 5] := by decide +kernel

end Verif.Props
