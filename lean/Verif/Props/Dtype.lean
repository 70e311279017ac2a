import Verif.Props.Fir
import Verif.Props.Iir
import Verif.Props.Pid
import Verif.Props.Rank
import Verif.Lemmas.Loop
import Verif.Model.Dtype
import Mathlib.Data.Complex.Basic
import Mathlib.Algebra.Order.Archimedean.Real.Basic
import Mathlib.Tactic.Ring
import Mathlib.Tactic.Linarith

/-
Property C128: what becomes of samples which the coefficients' type cannot hold (fir_filter.py:211, 258, 262-263; iir_filter.py:304, 308-311;
pid_filter.py:82-88; rank_filter.py:85-88).
-/

namespace Verif.Props

open Finset Spec

/-- Two loops whose steps correspond. -/
theorem runLoop_sim {σ τ ι κ ο π : Type*} (step1 : σ → ι → Res ο × σ) (step2 : τ → κ → Res π × τ) (rel : σ → τ → Prop) (i : κ → ι) (o : ο → π)
    (h : ∀ s t x, rel s t → (step2 t x).1 = (step1 s (i x)).1.map o ∧ rel (step1 s (i x)).2 (step2 t x).2) (s : σ) (t : τ) (hst : rel s t) (xs : List κ) :
    (runLoop step2 t xs).1 = (runLoop step1 s (xs.map i)).1.map (List.map o) ∧ rel (runLoop step1 s (xs.map i)).2 (runLoop step2 t xs).2 := by
  induction xs generalizing s t with
  | nil => exact ⟨rfl, hst⟩
  | cons x xs ih =>
    obtain ⟨h1, h2⟩ := h s t x hst
    simp only [runLoop, List.map_cons]
    rcases e1 : step1 s (i x) with ⟨r1, s'⟩
    rcases e2 : step2 t x with ⟨r2, t'⟩
    rw [e1, e2] at h1 h2
    simp only at h1 h2
    subst h1
    cases r1 with
    | error e => exact ⟨rfl, h2⟩
    | ok y =>
      obtain ⟨h3, h4⟩ := ih s' t' h2
      simp only [Except.map]
      rcases e3 : runLoop step1 s' (xs.map i) with ⟨r3, s''⟩
      rcases e4 : runLoop step2 t' xs with ⟨r4, t''⟩
      rw [e3, e4] at h3 h4
      simp only at h3 h4
      subst h3
      cases r3 with
      | error e => exact ⟨rfl, h4⟩
      | ok ys => exact ⟨rfl, h4⟩

section hom

variable {R S : Type*} [Ring R] [Ring S] (φ : R →+* S) (ψ : S → R)

theorem dot_map_hom (a s : List R) : dot (a.map φ) (s.map φ) = φ (dot a s) := by
  rw [dot_def, dot_def, map_list_sum, List.map_zipWith, List.zipWith_map]
  simp only [map_mul]

theorem shiftRight_map {A B : Type*} (g : A → B) (l : List A) : shiftRight (l.map g) = (shiftRight l).map g := by
  cases l with
  | nil => rfl
  | cons a t => rw [List.map_cons, shiftRight, shiftRight, ← List.map_cons, ← List.map_dropLast, List.map_cons]

/-- A filter over the type of the coefficients and the same filter given samples of a larger type. -/
def FirRel (f : Fir R) (g : Fir S) : Prop := f.cast = id ∧ g.cast = (fun v => φ (ψ v)) ∧ g.b = f.b.map φ ∧ g.s = f.s.map φ

theorem FirRel.step (hψ : ∀ r, ψ (φ r) = r) (f : Fir R) (g : Fir S) (x : S) (h : FirRel φ ψ f g) :
    (Fir.step g x).1 = (Fir.step f (ψ x)).1.map φ ∧ FirRel φ ψ (Fir.step f (ψ x)).2 (Fir.step g x).2 := by
  obtain ⟨cf, bf, sf⟩ := f
  obtain ⟨cg, bg, sg⟩ := g
  obtain ⟨h1, h2, h3, h4⟩ := h
  simp only at h1 h2 h3 h4
  subst h1 h2 h3 h4
  unfold Fir.step
  simp only [List.length_map]
  split_ifs with e1 e2
  · exact ⟨rfl, rfl, rfl, rfl, rfl⟩
  all_goals
    rcases sf with _ | ⟨v, t⟩
    · simp only [shiftRight, List.map_nil]; exact ⟨rfl, rfl, rfl, rfl, rfl⟩
    · simp only [shiftRight_map]
      simp only [shiftRight, List.map_cons, List.length_cons, List.length_map, id]
      split_ifs
      · refine ⟨?_, rfl, rfl, rfl, rfl⟩
        rw [← List.map_cons, dot_map_hom, hψ]; rfl
      · exact ⟨rfl, rfl, rfl, rfl, rfl⟩

/-- The same for IirFilter. -/
def IirRel (f : Iir R) (g : Iir S) : Prop :=
  f.cast = id ∧ g.cast = (fun v => φ (ψ v)) ∧ g.a = f.a.map φ ∧ g.b = f.b.map φ ∧ g.s = f.s.map φ

theorem bcAdd_map (u v : List R) : bcAdd (u.map φ) (v.map φ) = (bcAdd u v).map (List.map φ) := by
  have hz : List.zipWith (· + ·) (u.map φ) (v.map φ) = (List.zipWith (· + ·) u v).map φ := by
    rw [List.map_zipWith, List.zipWith_map]; simp only [map_add]
  unfold bcAdd
  rw [hz]
  simp only [List.length_map]
  split_ifs with h
  · rfl
  · rcases u with _ | ⟨u0, _ | ⟨u1, u⟩⟩
    · rcases v with _ | ⟨v0, _ | ⟨v1, v⟩⟩ <;> simp [Except.map]
    · simp [Except.map, Function.comp_def]
    · rcases v with _ | ⟨v0, _ | ⟨v1, v⟩⟩ <;> simp [Except.map, Function.comp_def]

theorem IirRel.step (hψ : ∀ r, ψ (φ r) = r) (f : Iir R) (g : Iir S) (x : S) (h : IirRel φ ψ f g) :
    (Iir.step g x).1 = (Iir.step f (ψ x)).1.map φ ∧ IirRel φ ψ (Iir.step f (ψ x)).2 (Iir.step g x).2 := by
  obtain ⟨cf, af, bf, sf⟩ := f
  obtain ⟨cg, ag, bg, sg⟩ := g
  obtain ⟨h1, h2, h3, h4, h5⟩ := h
  simp only at h1 h2 h3 h4 h5
  subst h1 h2 h3 h4 h5
  have hs : (List.map φ sf).modifyHead (fun s0 => φ (ψ (s0 + dot (List.map φ af) (List.map φ sf)))) =
      (sf.modifyHead fun s0 => id (s0 + dot af sf)).map φ := by
    rw [dot_map_hom]
    cases sf with
    | nil => rfl
    | cons v t => simp only [List.map_cons, List.modifyHead_cons, ← map_add, hψ, id]
  have hc : ∀ b0 : R, List.map (fun v => v * φ b0) (List.map φ af) = List.map φ (af.map (· * b0)) := by
    intro b0; simp [Function.comp_def]
  unfold Iir.step
  simp only [List.length_map]
  rw [hs, shiftRight_map]
  rcases bf with _ | ⟨b0, bf⟩
  · exact ⟨rfl, rfl, rfl, rfl, rfl, rfl⟩
  simp only [List.length_cons, Nat.add_eq_zero_iff, one_ne_zero, and_false, if_false, List.map_cons]
  have key : ∀ t : List R, IirRel φ ψ { cast := id, a := af, b := b0 :: bf, s := id (ψ x) :: t }
      { cast := fun v => φ (ψ v), a := af.map φ, b := φ b0 :: bf.map φ, s := φ (ψ x) :: t.map φ } := fun t => ⟨rfl, rfl, rfl, rfl, rfl⟩
  split_ifs with e1 e2
  · rcases shiftRight (sf.modifyHead fun s0 => id (s0 + dot af sf)) with _ | ⟨v, t⟩
    · exact ⟨rfl, rfl, rfl, rfl, rfl, rfl⟩
    · simp only [List.map_cons, hc]
      rw [← List.map_cons (f := φ) (a := b0), bcAdd_map]
      rcases bcAdd (af.map (· * b0)) (b0 :: bf) with e | c
      · exact ⟨rfl, key t⟩
      · simp only [Except.map, List.length_map]
        split_ifs
        · refine ⟨?_, key t⟩
          rw [← List.map_cons (f := φ) (a := ψ x), dot_map_hom, hψ]; rfl
        · exact ⟨rfl, key t⟩
  · exact ⟨rfl, rfl, rfl, rfl, rfl, rfl⟩
  · rcases sf with _ | ⟨v, t⟩
    · exact ⟨rfl, rfl, rfl, rfl, rfl, rfl⟩
    · simp only [List.map_cons, hc]
      rw [← List.map_cons (f := φ) (a := b0), bcAdd_map]
      rcases bcAdd (af.map (· * b0)) (b0 :: bf) with e | c
      · exact ⟨rfl, key t⟩
      · simp only [Except.map, List.length_map]
        split_ifs
        · refine ⟨?_, key t⟩
          rw [← List.map_cons (f := φ) (a := ψ x), dot_map_hom, hψ]; rfl
        · exact ⟨rfl, key t⟩

theorem Fir.new_none_zero {A : Type*} [Zero A] (cast : A → A) (b : List A) (hb : b ≠ []) (h0 : cast 0 = 0) :
    Fir.new cast b none = .ok { cast := cast, b := b, s := List.replicate b.length 0 } := by
  have : 0 < b.length := List.length_pos_iff.mpr hb
  simp [Fir.new, padTo, hb, this, h0]

theorem hom_zero (hψ : ∀ r, ψ (φ r) = r) : φ (ψ 0) = 0 := by
  rw [← map_zero φ, hψ]

/-- FirFilter with coefficients of the smaller type. -/
theorem fir_hom (hψ : ∀ r, ψ (φ r) = r) (b : List R) (x : List S) (hb : b ≠ []) (hx : x ≠ []) :
    ∃ f g, Fir.new id b none = .ok f ∧ Fir.new (fun v => φ (ψ v)) (b.map φ) none = .ok g ∧
      (g.filter x).1 = (f.filter (x.map ψ)).1.map (List.map φ) := by
  refine ⟨_, _, Fir.new_none_zero id b hb rfl, Fir.new_none_zero _ (b.map φ) (by simpa using hb) (hom_zero φ ψ hψ), ?_⟩
  have hl : x.length ≠ 0 := by simpa using hx
  simp only [Fir.filter, List.length_map, hl, if_false]
  exact (runLoop_sim Fir.step Fir.step (FirRel φ ψ) ψ φ (fun f g v h => FirRel.step φ ψ hψ f g v h) _ _
    ⟨rfl, rfl, rfl, by simp⟩ x).1

/-- IirFilter with coefficients of the smaller type. -/
theorem iir_hom [DecidableEq R] [DecidableEq S] (hψ : ∀ r, ψ (φ r) = r) (a b : List R) (x : List S) (hb : b ≠ []) (h0 : at0 a 0 = 0) (hx : x ≠ []) :
    ∃ f g, Iir.new id (some a) (some b) none = .ok f ∧ Iir.new (fun v => φ (ψ v)) (some (a.map φ)) (some (b.map φ)) none = .ok g ∧
      (g.filter x).1 = (f.filter (x.map ψ)).1.map (List.map φ) := by
  obtain ⟨f, h1, h2, h3, h4, h5⟩ := Iir.new_spec id a b none (Or.inr hb) h0
  have h0' : at0 (a.map φ) 0 = 0 := by
    cases a with
    | nil => rfl
    | cons v t => simp [at0] at h0 ⊢; rw [h0, map_zero]
  obtain ⟨g, g1, g2, g3, g4, g5⟩ := Iir.new_spec (fun v => φ (ψ v)) (a.map φ) (b.map φ) none (Or.inr (by simpa using hb)) h0'
  refine ⟨f, g, h1, g1, ?_⟩
  have hl : x.length ≠ 0 := by simpa using hx
  simp only [Iir.filter, List.length_map, hl, if_false]
  refine (runLoop_sim Iir.step Iir.step (IirRel φ ψ) ψ φ (fun f g v h => IirRel.step φ ψ hψ f g v h) _ _ ?_ x).1
  have hp : ∀ (n : ℕ) (l : List R), padTo n (l.map φ) = (padTo n l).map φ := by intro n l; simp [padTo]
  refine ⟨h2, g2, ?_, ?_, ?_⟩
  · rw [g3, h3]; simp [hp]
  · rw [g4, h4]; simp [hp]
  · rw [g5, h5]; simp [padTo, hom_zero φ ψ hψ]

end hom

section trunc

variable {K : Type*} [Field K] [LinearOrder K] [IsStrictOrderedRing K] [FloorRing K]

/-- The integer of a conversion. -/
def truncZ (v : K) : ℤ := if 0 ≤ v then ⌊v⌋ else ⌈v⌉

omit [IsStrictOrderedRing K] in
theorem truncInt_eq (v : K) : truncInt v = Int.castRingHom K (truncZ v) := by
  unfold truncInt truncZ
  split_ifs <;> rfl

theorem truncZ_int (n : ℤ) : truncZ (Int.castRingHom K n) = n := by
  simp [truncZ]

omit [IsStrictOrderedRing K] in
theorem truncInt_fun : (truncInt : K → K) = fun v => Int.castRingHom K (truncZ v) := funext truncInt_eq

/-- C128.  What conversion to an integer does: the result is an integer, not further from zero, less than one away and on the same side of zero. -/
theorem C128_conversion (v : K) : (∃ n : ℤ, truncInt v = n) ∧ |truncInt v| ≤ |v| ∧ |v - truncInt v| < 1 ∧ 0 ≤ truncInt v * v := by
  refine ⟨⟨truncZ v, truncInt_eq v⟩, ?_⟩
  unfold truncInt
  split_ifs with h
  · have h1 := Int.floor_le v
    have h2 := Int.lt_floor_add_one v
    have h3 : (0 : K) ≤ (⌊v⌋ : ℤ) := by exact_mod_cast Int.floor_nonneg.mpr h
    refine ⟨by rw [abs_of_nonneg h3, abs_of_nonneg h]; exact h1, ?_, mul_nonneg h3 h⟩
    rw [abs_of_nonneg (by linarith)]; linarith
  · have h' : v < 0 := not_le.mp h
    have h1 := Int.le_ceil v
    have h2 := Int.ceil_lt_add_one v
    have h3 : ((⌈v⌉ : ℤ) : K) ≤ 0 := by exact_mod_cast Int.ceil_le.mpr (by simpa using h'.le)
    refine ⟨by rw [abs_of_nonpos h3, abs_of_neg h']; linarith, ?_, mul_nonneg_of_nonpos_of_nonpos h3 h'.le⟩
    rw [abs_of_nonpos (by linarith)]; linarith

example : truncInt (-3 / 2 : ℚ) = -1 ∧ truncInt (3 / 2 : ℚ) = 1 := by norm_num [truncInt]

theorem truncInt_small (v : K) (h : |v| < 1) : truncInt v = 0 := by
  obtain ⟨⟨n, hn⟩, h1, -, -⟩ := C128_conversion v
  rw [hn] at h1 ⊢
  have : |(n : K)| < 1 := lt_of_le_of_lt h1 h
  have h2 : |n| < 1 := by exact_mod_cast this
  rw [Int.abs_lt_one_iff.mp h2, Int.cast_zero]

theorem truncInt_int (n : ℤ) : truncInt (n : K) = n := by
  rw [truncInt_eq]; exact congrArg (Int.castRingHom K) (truncZ_int n)

/-- C128.  A FirFilter of integer coefficients filters the truncated samples. -/
theorem C128_fir_integers (b : List ℤ) (x : List K) (hb : b ≠ []) (hx : x ≠ []) :
    ∃ (f : Fir K) (y : List K) (f' : Fir K), Fir.newInts b none = .ok f ∧ f.filter x = (.ok y, f') ∧ y.length = x.length ∧
      ∀ n, n < x.length → at0 y n = ∑ i ∈ range (n + 1), ((at0 b i : ℤ) : K) * truncInt (at0 x (n - i)) := by
  obtain ⟨f, g, h1, h2, h3⟩ := fir_hom (Int.castRingHom K) truncZ truncZ_int b x hb hx
  obtain ⟨f0, y, f', e1, e2, e3, e4⟩ := C01_fir_convolution b (x.map truncZ) hb (by simpa using hx)
  rw [h1] at e1; cases e1
  rw [e2] at h3
  rcases eg : g.filter x with ⟨r, g'⟩
  rw [eg] at h3
  simp only [Except.map] at h3
  subst h3
  refine ⟨g, _, g', by rw [Fir.newInts, if_neg (by simp), truncInt_fun]; exact h2, eg, by simpa using e3, ?_⟩
  intro n hn
  have := e4 n (by simpa using hn)
  have hy : at0 (List.map (Int.castRingHom K) y) n = ((∑ i ∈ range (n + 1), at0 b i * at0 (x.map truncZ) (n - i) : ℤ) : K) := by
    simp [at0, List.getD, this]
  rw [hy, Int.cast_sum]
  refine sum_congr rfl fun i _ => ?_
  rw [Int.cast_mul, truncInt_eq]
  have hlt : n - i < x.length := by omega
  simp [at0, List.getD, List.getElem?_eq_getElem hlt]

example : ∃ f f' : Fir ℚ, Fir.newInts [2, 1] none = .ok f ∧ f.filter [3 / 2, 1, -1 / 2] = (.ok [2, 3, 1], f') := by
  have t0 : truncInt (0 : ℚ) = 0 := by norm_num [truncInt]
  have t1 : truncInt (3 / 2 : ℚ) = 1 := by norm_num [truncInt]
  have t2 : truncInt (1 : ℚ) = 1 := by norm_num [truncInt]
  have t3 : truncInt (-(1 / 2) : ℚ) = 0 := by norm_num [truncInt]
  have t4 : truncInt (2 : ℚ) = 2 := by norm_num [truncInt]
  have t5 : truncInt (3 : ℚ) = 3 := by norm_num [truncInt]
  refine ⟨⟨truncInt, [2, 1], [0, 0]⟩, ⟨truncInt, [2, 1], [0, 1]⟩, by simp [Fir.newInts, Fir.new, padTo, t0], ?_⟩
  norm_num [Fir.filter, runLoop, Fir.step, shiftRight, dot_def, t0, t1, t2, t3, t4, t5]

/-- C128.  What is lost: less than the sum of the magnitudes of the coefficients, and nothing if the samples are integers. -/
theorem C128_fir_loss (b : List ℤ) (x : List K) (hb : b ≠ []) (hx : x ≠ []) :
    ∃ (f : Fir K) (y : List K) (f' : Fir K), Fir.newInts b none = .ok f ∧ f.filter x = (.ok y, f') ∧
      (∀ n, n < x.length → |at0 y n - conv (b.map fun v : ℤ => (v : K)) x n| ≤ ∑ i ∈ range (n + 1), |((at0 b i : ℤ) : K)|) ∧
      ((∀ v ∈ x, ∃ m : ℤ, v = m) → ∀ n, n < x.length → at0 y n = conv (b.map fun v : ℤ => (v : K)) x n) := by
  obtain ⟨f, y, f', h1, h2, h3, h4⟩ := C128_fir_integers b x hb hx
  have hb' : ∀ i, at0 (b.map fun v : ℤ => (v : K)) i = ((at0 b i : ℤ) : K) := by
    intro i
    by_cases hi : i < b.length
    · simp [at0, List.getD, List.getElem?_eq_getElem hi]
    · simp [at0, List.getD, List.getElem?_eq_none (not_lt.mp hi)]
  refine ⟨f, y, f', h1, h2, ?_, ?_⟩
  · intro n hn
    rw [h4 n hn, conv, ← sum_sub_distrib]
    refine (abs_sum_le_sum_abs _ _).trans (sum_le_sum fun i _ => ?_)
    rw [hb', ← mul_sub, abs_mul]
    have := (C128_conversion (at0 x (n - i))).2.2.1
    rw [abs_sub_comm] at this
    exact mul_le_of_le_one_right (abs_nonneg _) this.le
  · intro hi n hn
    rw [h4 n hn, conv]
    refine sum_congr rfl fun i _ => ?_
    rw [hb']
    have hlt : n - i < x.length := by omega
    have hm : at0 x (n - i) ∈ x := by
      rw [at0, List.getD, List.getElem?_eq_getElem hlt]; exact List.getElem_mem hlt
    obtain ⟨m, hm⟩ := hi _ hm
    rw [hm, truncInt_int]

example : ∀ v ∈ ([3, -2] : List ℚ), ∃ m : ℤ, v = m := by
  intro v hv
  simp only [List.mem_cons, List.not_mem_nil, or_false] at hv
  rcases hv with rfl | rfl
  · exact ⟨3, by norm_num⟩
  · exact ⟨-2, by norm_num⟩

/-- C128.  An IirFilter of integer coefficients, as many forward as recursive ones, is the integer recursion on the truncated samples. -/
theorem C128_iir_integers (a b : List ℤ) (x : List K) (hb : b ≠ []) (hab : a.length ≤ b.length) (h0 : at0 a 0 = 0) (hx : x ≠ []) :
    ∃ (f : Iir K) (y : List ℤ) (f' : Iir K) (z : List ℤ),
      Iir.newInts (a.map fun v : ℤ => (v : K)) b none = .ok f ∧
      f.filter x = (.ok (y.map fun v : ℤ => (v : K)), f') ∧ (z.map fun v : ℤ => (v : K)) = x.map truncInt ∧ Recursion a b z y := by
  obtain ⟨f, g, h1, h2, h3⟩ := iir_hom (Int.castRingHom K) truncZ truncZ_int a b x hb h0 hx
  obtain ⟨f0, y, f', e1, e2, e3⟩ := C07_iir_difference_equation a b (x.map truncZ) (Or.inr hb) h0 (by simpa using hx)
  rw [h1] at e1; cases e1
  rw [e2] at h3
  rcases eg : g.filter x with ⟨r, g'⟩
  rw [eg] at h3
  simp only [Except.map] at h3
  subst h3
  refine ⟨g, y, g', x.map truncZ, by rw [Iir.newInts, if_neg (by simpa using hab), truncInt_fun]; exact h2, eg, ?_, e3⟩
  rw [List.map_map]
  exact List.map_congr_left fun v _ => (truncInt_eq v).symm

example : ([1, 1] : List ℤ) ≠ [] ∧ ([0, 1] : List ℤ).length ≤ ([1, 1] : List ℤ).length ∧ at0 ([0, 1] : List ℤ) 0 = 0 := by decide

omit [LinearOrder K] [IsStrictOrderedRing K] [FloorRing K] in
theorem replicate_dot_zero (c : List K) (n : ℕ) : dot c (List.replicate n 0) = 0 := by
  rw [dot_def]
  induction c generalizing n with
  | nil => simp
  | cons v t ih =>
    cases n with
    | zero => simp
    | succ n => simp [List.replicate_succ, ih]

/-- A loop which leaves the state and returns the same value for each sample. -/
theorem runLoop_const {σ ι ο : Type*} (step : σ → ι → Res ο × σ) (st : σ) (y : ο) (xs : List ι) (h : ∀ v ∈ xs, step st v = (.ok y, st)) :
    runLoop step st xs = (.ok (List.replicate xs.length y), st) := by
  induction xs with
  | nil => rfl
  | cons x xs ih =>
    rw [runLoop_cons_ok step st st x xs y (h x (by simp))]
    simp only [thenRun, ih fun v hv => h v (by simp [hv])]
    rfl

theorem iir_zero_step (f : Iir K) (hc : f.cast = truncInt) (n : ℕ) (ha : f.a.length = n + 1) (hb : f.b.length = n + 1)
    (hs : f.s = List.replicate (n + 1) 0) (x : K) (hx : |x| < 1) : Iir.step f x = (.ok 0, f) := by
  obtain ⟨c, a, b, s⟩ := f
  simp only at hc ha hb hs
  subst hc hs
  rcases b with _ | ⟨b0, b⟩
  · simp at hb
  have hz : truncInt (0 : K) = 0 := truncInt_small 0 (by simp)
  have hsr : shiftRight (List.replicate (n + 1) (0 : K)) = List.replicate (n + 1) 0 := by
    rw [List.replicate_succ, shiftRight, ← List.replicate_succ, List.dropLast_replicate]; rfl
  have hm : (List.replicate (n + 1) (0 : K)).modifyHead (fun s0 => truncInt (s0 + dot a (List.replicate (n + 1) 0))) = List.replicate (n + 1) 0 := by
    rw [replicate_dot_zero, List.replicate_succ, List.modifyHead_cons, add_zero, hz]
  have h1 : bcAdd (List.map (· * b0) a) (b0 :: b) = .ok (List.zipWith (· + ·) (List.map (· * b0) a) (b0 :: b)) := by
    unfold bcAdd; rw [if_pos (by simpa [ha] using hb.symm)]
  unfold Iir.step
  simp only [List.length_cons, Nat.add_eq_zero_iff, one_ne_zero, and_false, if_false, List.length_replicate, ha, if_true, hm, hsr, ite_self]
  rw [List.replicate_succ]
  simp only [h1, truncInt_small x hx]
  rw [← List.replicate_succ, replicate_dot_zero, hz]
  simp [ha] at hb ⊢
  simp [hb]

/-- C128.  An IirFilter of integer forward coefficients, at least as many as the recursive ones, whatever these are, returns nothing but zeros for samples below one. -/
theorem C128_iir_small (a : List K) (b : List ℤ) (x : List K) (hb : b ≠ []) (hab : a.length ≤ b.length) (h0 : at0 a 0 = 0) (hx : x ≠ [])
    (hsmall : ∀ v ∈ x, |v| < 1) :
    ∃ f, Iir.newInts a b none = .ok f ∧ f.filter x = (.ok (List.replicate x.length 0), f) := by
  obtain ⟨f, h1, h2, h3, h4, h5⟩ := Iir.new_spec truncInt a (b.map fun v : ℤ => (v : K)) none (Or.inr (by simpa using hb)) h0
  rw [List.length_map] at h3 h4 h5
  have hz : truncInt (0 : K) = 0 := truncInt_small 0 (by simp)
  have hpos : 0 < b.length := List.length_pos_iff.mpr hb
  obtain ⟨n, hn⟩ : ∃ n, max a.length b.length = n + 1 := ⟨max a.length b.length - 1, by omega⟩
  refine ⟨f, by rw [Iir.newInts, if_neg (by simpa using hab)]; exact h1, ?_⟩
  have hl : x.length ≠ 0 := by simpa using hx
  simp only [Iir.filter, hl, if_false]
  refine runLoop_const Iir.step f 0 x fun v hv => iir_zero_step f h2 n ?_ ?_ ?_ v (hsmall v hv)
  · rw [h3]; simp [padTo]; omega
  · rw [h4]; simp [padTo]; omega
  · rw [h5]; simp [padTo, hz, hn]

example : ∀ v ∈ ([1 / 2, -1 / 2] : List ℚ), |v| < 1 := by
  intro v hv
  simp only [List.mem_cons, List.not_mem_nil, or_false] at hv
  rcases hv with rfl | rfl <;> norm_num [abs_lt]

/-- C128.  The same filter `y_n = y_{n-1}/2 + x_n + x_{n-1}` with integer and with float forward coefficients: the response to an impulse ends after two
samples, and never ends. -/
theorem C128_iir_impulse (n : ℕ) :
    (∃ f f' : Iir ℚ, Iir.newInts [0, 1 / 2] [1, 1] none = .ok f ∧
      f.filter (1 :: 0 :: List.replicate n 0) = (.ok (1 :: 1 :: List.replicate n 0), f')) ∧
    ∃ (f f' : Iir ℚ) (y : List ℚ), Iir.new id (some [0, 1 / 2]) (some [1, 1]) none = .ok f ∧
      f.filter (1 :: 0 :: List.replicate n 0) = (.ok y, f') ∧ ∀ k, k < n → at0 y (k + 2) ≠ 0 := by
  have t0 : truncInt (0 : ℚ) = 0 := by norm_num [truncInt]
  have t1 : truncInt (1 : ℚ) = 1 := by norm_num [truncInt]
  have t2 : truncInt (3 / 2 : ℚ) = 1 := by norm_num [truncInt]
  have t3 : truncInt (1 / 2 : ℚ) = 0 := by norm_num [truncInt]
  refine ⟨?_, ?_⟩
  · have e1 : Iir.step ⟨truncInt, [0, 1 / 2], [1, 1], [0, 0]⟩ (1 : ℚ) = (.ok 1, ⟨truncInt, [0, 1 / 2], [1, 1], [1, 0]⟩) := by
      norm_num [Iir.step, shiftRight, dot_def, bcAdd, t0, t1]
    have e2 : Iir.step ⟨truncInt, [0, 1 / 2], [1, 1], [1, 0]⟩ (0 : ℚ) = (.ok 1, ⟨truncInt, [0, 1 / 2], [1, 1], [0, 1]⟩) := by
      norm_num [Iir.step, shiftRight, dot_def, bcAdd, t0, t1, t2]
    have e3 : Iir.step ⟨truncInt, [0, 1 / 2], [1, 1], [0, 1]⟩ (0 : ℚ) = (.ok 0, ⟨truncInt, [0, 1 / 2], [1, 1], [0, 0]⟩) := by
      norm_num [Iir.step, shiftRight, dot_def, bcAdd, t0, t1, t2, t3]
    have e4 : ∀ m, runLoop Iir.step ⟨truncInt, [0, 1 / 2], [1, 1], [0, 0]⟩ (List.replicate m (0 : ℚ)) =
        (.ok (List.replicate m 0), ⟨truncInt, [0, 1 / 2], [1, 1], [0, 0]⟩) := by
      intro m
      have := runLoop_const Iir.step ⟨truncInt, [0, 1 / 2], [1, 1], [0, 0]⟩ (0 : ℚ) (List.replicate m (0 : ℚ)) fun v hv =>
        iir_zero_step _ rfl 1 rfl rfl rfl v (by rw [List.eq_of_mem_replicate hv]; norm_num)
      simpa using this
    have e5 : ∀ m, ∃ f', runLoop Iir.step ⟨truncInt, [0, 1 / 2], [1, 1], [0, 1]⟩ (List.replicate m (0 : ℚ)) = (.ok (List.replicate m 0), f') := by
      intro m
      cases m with
      | zero => exact ⟨_, rfl⟩
      | succ m =>
        rw [List.replicate_succ, runLoop_cons_ok _ _ _ _ _ _ e3]
        simp only [thenRun, e4]
        exact ⟨_, rfl⟩
    obtain ⟨f', hf'⟩ := e5 n
    refine ⟨⟨truncInt, [0, 1 / 2], [1, 1], [0, 0]⟩, f', by simp [Iir.newInts, Iir.new, Fir.new, padTo, t0], ?_⟩
    simp only [Iir.filter, List.length_cons, Nat.add_eq_zero_iff, one_ne_zero, and_false, if_false]
    rw [runLoop_cons_ok _ _ _ _ _ _ e1]
    simp only [thenRun]
    rw [runLoop_cons_ok _ _ _ _ _ _ e2]
    simp only [thenRun, hf']
    rfl
  · obtain ⟨f, y, f', h1, h2, h3, h4⟩ := C07_iir_difference_equation ([0, 1 / 2] : List ℚ) [1, 1] (1 :: 0 :: List.replicate n 0) (Or.inr (by simp)) rfl (by simp)
    refine ⟨f, f', y, h1, h2, ?_⟩
    have hx : ∀ k, at0 ((1 : ℚ) :: 0 :: List.replicate n 0) (k + 1) = 0 := by
      intro k
      cases k with
      | zero => rfl
      | succ k =>
        simp only [at0, List.getD, List.getElem?_cons_succ, List.getElem?_replicate]
        split_ifs <;> rfl
    have ha : ∀ k, at0 ([0, 1 / 2] : List ℚ) (k + 2) = 0 := by intro k; simp [at0]
    have hb : ∀ k, at0 ([1, 1] : List ℚ) (k + 2) = 0 := by intro k; simp [at0]
    have hrec : ∀ k, k + 2 < n + 2 → at0 y (k + 2) = 1 / 2 * at0 y (k + 1) := by
      intro k hk
      rw [h4 (k + 2) (by simpa using hk)]
      have s1 : ∑ i ∈ Icc 1 (k + 2), at0 ([0, 1 / 2] : List ℚ) i * at0 y (k + 2 - i) = 1 / 2 * at0 y (k + 1) := by
        rw [sum_eq_single 1]
        · simp [at0]
        · intro i hi h1
          obtain ⟨j, rfl⟩ : ∃ j, i = j + 2 := ⟨i - 2, by have := (mem_Icc.mp hi).1; omega⟩
          rw [ha, zero_mul]
        · intro h; simp at h
      have s2 : ∑ i ∈ range (k + 2 + 1), at0 ([1, 1] : List ℚ) i * at0 ((1 : ℚ) :: 0 :: List.replicate n 0) (k + 2 - i) = 0 := by
        refine sum_eq_zero fun i hi => ?_
        rcases i with _ | _ | i
        · rw [show k + 2 - 0 = (k + 1) + 1 by omega, hx, mul_zero]
        · rw [show k + 2 - (0 + 1) = k + 1 by omega, hx, mul_zero]
        · rw [hb, zero_mul]
      rw [s1, s2, add_zero]
    have h1' : at0 y 1 = 3 / 2 := by
      have y0 : at0 y 0 = 1 := by rw [h4 0 (by simp)]; simp [at0]
      rw [h4 1 (by simp)]
      rw [show Icc 1 1 = ({1} : Finset ℕ) by rfl, sum_singleton, sum_range_succ, sum_range_succ, sum_range_zero]
      norm_num [y0]
      norm_num [at0]
    have : ∀ k, k < n + 1 → 0 < at0 y (k + 1) := by
      intro k
      induction k with
      | zero => intro _; rw [h1']; norm_num
      | succ k ih =>
        intro hk
        rw [hrec k (by omega)]
        have := ih (by omega)
        linarith
    intro k hk
    exact (this (k + 1) (by omega)).ne'

omit [IsStrictOrderedRing K] in
/-- C128.  Coefficients which are padded become floats: nothing is lost. -/
theorem C128_padded (a : List K) (b : List ℤ) (s x : List K) (hx : x ≠ []) :
    (b ≠ [] → b.length < s.length → ∃ f y f', Fir.newInts b (some s) = .ok f ∧ f.filter x = (.ok y, f') ∧ y.length = x.length ∧
      ∀ n, n < x.length → y[n]? = some (conv (b.map fun v : ℤ => (v : K)) x n + tail (b.map fun v : ℤ => (v : K)) s n)) ∧
    (at0 a 0 = 0 → b.length < a.length → ∃ f y f', Iir.newInts a b none = .ok f ∧ f.filter x = (.ok y, f') ∧ Recursion a (b.map fun v : ℤ => (v : K)) x y) ∧
    (at0 a 0 = 0 → a ≠ [] → b.length < s.length → ∃ f, Iir.newInts a b (some s) = .ok f ∧ ∀ i, at0 f.s i = at0 s i) := by
  refine ⟨fun hb hl => ?_, fun h0 hl => ?_, fun h0 ha hl => ?_⟩
  · obtain ⟨f, y, f', h1, h2, h3, h4⟩ := C01_fir_difference_equation (b.map fun v : ℤ => (v : K)) (some s) x (by simpa using hb) hx
    exact ⟨f, y, f', by rw [Fir.newInts, if_pos (by simpa using hl)]; exact h1, h2, h3, h4⟩
  · obtain ⟨f, y, f', h1, h2, h3⟩ := C07_iir_difference_equation a (b.map fun v : ℤ => (v : K)) x
      (Or.inl (by rintro rfl; simp at hl)) h0 hx
    exact ⟨f, y, f', by rw [Iir.newInts, if_pos (by simpa using hl)]; exact h1, h2, h3⟩
  · obtain ⟨f, h1, -, -, -, h2⟩ := Iir.new_spec id a (b.map fun v : ℤ => (v : K)) (some s) (Or.inl ha) h0
    refine ⟨f, by rw [Iir.newInts, if_pos (by simpa using Or.inr hl)]; exact h1, fun i => ?_⟩
    rw [h2, List.map_id, at0_padTo]
    rfl

example : ([1] : List ℤ) ≠ [] ∧ ([1] : List ℤ).length < ([0, 1 / 2] : List ℚ).length ∧ at0 ([0, 1 / 2] : List ℚ) 0 = 0 := by decide

/-- C128.  A PidFilter of integer coefficients returns nothing but zeros for samples below one, however many there are, with any limit. -/
theorem C128_pid_small (b0 b1 b2 : ℤ) (limit : Option K) (x : List K) (hx : x ≠ []) (hsmall : ∀ v ∈ x, |v| < 1) :
    ∃ f : Pid K K, Pid.newInts [b0, b1, b2] = .ok f ∧
      Pid.filter (fun v => |v|) { f with limit := limit } x = (.ok (List.replicate x.length 0), { f with limit := limit }) := by
  have hz : truncInt (0 : K) = 0 := truncInt_small 0 (by simp)
  refine ⟨_, rfl, ?_⟩
  have hl : x.length ≠ 0 := by simpa using hx
  simp only [Pid.filter, hl, if_false, hz]
  refine runLoop_const _ _ 0 x fun v hv => ?_
  have h1 := truncInt_small v (hsmall v hv)
  simp [Pid.step, h1, dot_def, hz]

example : ∃ f f' : Pid ℚ ℚ, Pid.new id [0, 1, 0] = .ok f ∧ Pid.filter (fun v => |v|) f [1 / 2, 1 / 2] = (.ok [1 / 2, 1], f') := by
  refine ⟨⟨id, 0, 1, 0, 0, 0, 0, none⟩, ⟨id, 0, 1, 0, 1 / 2, 1, 0, none⟩, rfl, ?_⟩
  norm_num [Pid.filter, runLoop, Pid.step, belowLimit, dot_def]

/-- A PidFilter over the integers and the same filter with the integers among the real numbers. -/
def PidRel (f : Pid ℤ ℤ) (g : Pid K K) : Prop :=
  f.cast = id ∧ g.cast = truncInt ∧ g.b0 = f.b0 ∧ g.b1 = f.b1 ∧ g.b2 = f.b2 ∧ g.s0 = f.s0 ∧ g.s1 = f.s1 ∧ g.s2 = f.s2 ∧ f.limit = none ∧ g.limit = none

theorem PidRel.step (f : Pid ℤ ℤ) (g : Pid K K) (x : ℤ) (h : PidRel f g) :
    (Pid.step (fun v => |v|) g (x : K)).1 = (Pid.step (fun v => |v|) f x).1.map (fun v : ℤ => (v : K)) ∧
      PidRel (Pid.step (fun v => |v|) f x).2 (Pid.step (fun v => |v|) g (x : K)).2 := by
  obtain ⟨cf, f0, f1, f2, s0, s1, s2, lf⟩ := f
  obtain ⟨cg, g0, g1, g2, t0, t1, t2, lg⟩ := g
  obtain ⟨h1, h2, h3, h4, h5, h6, h7, h8, h9, h10⟩ := h
  simp only at h1 h2 h3 h4 h5 h6 h7 h8 h9 h10
  subst h1 h2 h3 h4 h5 h6 h7 h8 h9 h10
  have e : ∀ n : ℤ, truncInt (n : K) = n := truncInt_int
  have e1 : truncInt ((x : K) - s0) = ((x - s0 : ℤ) : K) := by rw [← Int.cast_sub, e]
  have e2 : truncInt ((s1 : K) + x) = ((s1 + x : ℤ) : K) := by rw [← Int.cast_add, e]
  simp only [Pid.step, belowLimit, isNan_noNan, Bool.not_false, if_true, e1, e2, e, id]
  refine ⟨?_, rfl, rfl, rfl, rfl, rfl, rfl, rfl, rfl, rfl, rfl⟩
  have : dot [(f0 : K), f1, f2] [(x : K), ((s1 + x : ℤ) : K), ((x - s0 : ℤ) : K)] = ((dot [f0, f1, f2] [x, s1 + x, x - s0] : ℤ) : K) := by
    simp [dot_def]
  rw [this, e]
  rfl

/-- C128.  With integer samples as well, a PidFilter loses nothing. -/
theorem C128_pid_integers (b0 b1 b2 : ℤ) (x : List ℤ) (hx : x ≠ []) :
    ∃ (f : Pid K K) (y : List ℤ) (f' : Pid K K), Pid.newInts [b0, b1, b2] = .ok f ∧
      Pid.filter (fun v => |v|) f (x.map fun v : ℤ => (v : K)) = (.ok (y.map fun v : ℤ => (v : K)), f') ∧ y.length = x.length ∧
      ∀ n, n < x.length → at0 y n = b0 * at0 x n + b1 * (∑ i ∈ range (n + 1), at0 x i) + b2 * (at0 x n - if n = 0 then 0 else at0 x (n - 1)) := by
  have hz : truncInt (0 : K) = 0 := truncInt_small 0 (by simp)
  obtain ⟨f, y, f', h1, h2, h3, h4⟩ := C20_pid_formula (K := ℤ) (fun v : ℤ => |v|) b0 b1 b2 [x] (by simp) (by simpa using hx)
  rw [C20_pid_streaming _ _ _ (by simp) (by simpa using hx)] at h2
  simp only [List.flatten_cons, List.flatten_nil, List.append_nil] at h2 h3 h4
  have hl : x.length ≠ 0 := by simpa using hx
  simp only [Pid.filter, hl, if_false] at h2
  have hsim : ∀ (f : Pid ℤ ℤ) (g : Pid K K), PidRel f g →
      (runLoop (Pid.step fun v => |v|) g (x.map fun v : ℤ => (v : K))).1 = (runLoop (Pid.step fun v => |v|) f x).1.map (List.map fun v : ℤ => (v : K)) := by
    intro f g h
    clear h1 h2 h3 h4 hx hl
    induction x generalizing f g with
    | nil => rfl
    | cons v t ih =>
      obtain ⟨e1, e2⟩ := PidRel.step f g v h
      have e3 := ih _ _ e2
      simp only [runLoop, List.map_cons]
      rcases a1 : Pid.step (fun v => |v|) f v with ⟨r1, f1⟩
      rcases a2 : Pid.step (fun v => |v|) g (v : K) with ⟨r2, g1⟩
      rw [a1, a2] at e1 e3
      simp only at e1 e3
      subst e1
      cases r1 with
      | error _ => rfl
      | ok y1 =>
        simp only [Except.map]
        rcases a3 : runLoop (Pid.step fun v => |v|) f1 t with ⟨r3, f3⟩
        rcases a4 : runLoop (Pid.step fun v => |v|) g1 (t.map fun v : ℤ => (v : K)) with ⟨r4, g3⟩
        rw [a3, a4] at e3
        simp only at e3
        subst e3
        cases r3 <;> rfl
  have hn : Pid.new (K := ℤ) id [b0, b1, b2] = .ok { cast := id, b0 := b0, b1 := b1, b2 := b2, s0 := 0, s1 := 0, s2 := 0, limit := none } := rfl
  rw [hn] at h1
  cases h1
  have := hsim { cast := id, b0 := b0, b1 := b1, b2 := b2, s0 := 0, s1 := 0, s2 := 0, limit := none } { cast := truncInt, b0 := b0, b1 := b1, b2 := b2, s0 := 0, s1 := 0, s2 := 0, limit := none }
    ⟨rfl, rfl, rfl, rfl, rfl, Int.cast_zero.symm, Int.cast_zero.symm, Int.cast_zero.symm, rfl, rfl⟩
  rw [h2] at this
  rcases eg : runLoop (Pid.step fun v => |v|) ({ cast := truncInt, b0 := b0, b1 := b1, b2 := b2, s0 := 0, s1 := 0, s2 := 0, limit := none } : Pid K K)
    (x.map fun v : ℤ => (v : K)) with ⟨r, g'⟩
  rw [eg] at this
  simp only [Except.map] at this
  subst this
  refine ⟨{ cast := truncInt, b0 := b0, b1 := b1, b2 := b2, s0 := 0, s1 := 0, s2 := 0, limit := none }, y, g', ?_, ?_, h3, h4⟩
  · simp [Pid.newInts, Pid.new, hz]
  · simp only [Pid.filter, List.length_map, hl, if_false]; exact eg

example : ([3, 1] : List ℤ) ≠ [] := by decide

end trunc

/-! ### Complex samples and real coefficients -/

/-- C128.  A FirFilter of real coefficients filters the real parts of complex samples. -/
theorem C128_fir_complex (b : List ℝ) (x : List ℂ) (hb : b ≠ []) (hx : x ≠ []) :
    ∃ (f : Fir ℂ) (y : List ℝ) (f' : Fir ℂ), Fir.new (fun v : ℂ => (v.re : ℂ)) (b.map fun v : ℝ => (v : ℂ)) none = .ok f ∧ f.filter x = (.ok (y.map fun v : ℝ => (v : ℂ)), f') ∧
      y.length = x.length ∧ ∀ n, n < x.length → y[n]? = some (conv b (x.map Complex.re) n) := by
  obtain ⟨f, g, h1, h2, h3⟩ := fir_hom Complex.ofRealHom Complex.re (fun r => rfl) b x hb hx
  obtain ⟨f0, y, f', e1, e2, e3, e4⟩ := C01_fir_convolution b (x.map Complex.re) hb (by simpa using hx)
  rw [h1] at e1; cases e1
  rw [e2] at h3
  rcases eg : g.filter x with ⟨r, g'⟩
  rw [eg] at h3
  simp only [Except.map] at h3
  subst h3
  exact ⟨g, y, g', h2, eg, by simpa using e3, fun n hn => e4 n (by simpa using hn)⟩

example : ([1, 2] : List ℝ) ≠ [] ∧ ([Complex.I] : List ℂ) ≠ [] := by simp

open scoped Classical in
/-- C128.  The same for IirFilter. -/
theorem C128_iir_complex (a b : List ℝ) (x : List ℂ) (hb : b ≠ []) (h0 : at0 a 0 = 0) (hx : x ≠ []) :
    ∃ (f : Iir ℂ) (y : List ℝ) (f' : Iir ℂ),
      Iir.new (fun v : ℂ => (v.re : ℂ)) (some (a.map fun v : ℝ => (v : ℂ))) (some (b.map fun v : ℝ => (v : ℂ))) none = .ok f ∧
      f.filter x = (.ok (y.map fun v : ℝ => (v : ℂ)), f') ∧ Recursion a b (x.map Complex.re) y := by
  obtain ⟨f, g, h1, h2, h3⟩ := iir_hom Complex.ofRealHom Complex.re (fun r => rfl) a b x hb h0 hx
  obtain ⟨f0, y, f', e1, e2, e3⟩ := C07_iir_difference_equation a b (x.map Complex.re) (Or.inr hb) h0 (by simpa using hx)
  rw [h1] at e1; cases e1
  rw [e2] at h3
  rcases eg : g.filter x with ⟨r, g'⟩
  rw [eg] at h3
  simp only [Except.map] at h3
  subst h3
  exact ⟨g, y, g', h2, eg, e3⟩

example : at0 ([0, 1] : List ℝ) 0 = 0 := rfl

/-! ### RankFilter -/

section rank

variable {R K : Type*}

/-- C128.  RankFilter: with an integer signal the order statistic of the window is truncated; with a complex signal it is the order statistic of
the real parts. -/
theorem C128_rank [LinearOrder K] [Zero R] (store out : R → R) (argsort : List K → List ℕ) (ha : IsArgsort argsort) (key : R → K) (index order : ℕ)
    (hio : index ≤ order) (s : List R) (hs : s.length = order + 1) (x : List R) (hx : x ≠ []) :
    ∃ f : Rank R, Rank.new index order = .ok f ∧
      ∃ y f', Rank.filterAs store out argsort key { f with s := s } x = (.ok y, f') ∧ y.length = x.length ∧
        ∀ n, n < x.length → ∃ v, y[n]? = some (out v) ∧ IsRank key (lookback order s (x.map store) n) index v := by
  obtain ⟨f, h1, y, f', h2, h3, h4⟩ := C16_rank_order_statistic argsort ha key index order hio s hs (x.map store) (by simpa using hx)
  refine ⟨f, h1, y.map out, f', ?_, by simpa using h3, ?_⟩
  · rw [Rank.filterAs, h2]
  · intro n hn
    obtain ⟨v, hv, hr⟩ := h4 n (by simpa using hn)
    exact ⟨v, by simp [hv], hr⟩

example : IsArgsort (argsortRef (K := ℤ)) := argsortRef_isArgsort

theorem rank_step_mem (P : R → Prop) (argsort : List K → List ℕ) (key : R → K) (f : Rank R) (x : R) (hs : ∀ v ∈ f.s, P v) (hx : P x) :
    (∀ y, (Rank.step argsort key f x).1 = .ok y → P y) ∧ ∀ v ∈ (Rank.step argsort key f x).2.s, P v := by
  unfold Rank.step
  rcases hf : f.s with _ | ⟨a, t⟩
  · simp [hf]
  · rw [hf] at hs
    have hst : ∀ v ∈ x :: t, P v := by
      intro v hv
      rcases List.mem_cons.mp hv with rfl | hv
      · exact hx
      · exact hs v (by simp [hv])
    have hsr : ∀ v ∈ shiftRight (x :: t), P v := by
      intro v hv
      rw [shiftRight] at hv
      rcases List.mem_cons.mp hv with rfl | hv
      · exact hx
      · exact hst v (List.mem_of_mem_dropLast hv)
    have hg : ∀ (l : List R) (i : ℤ) (y : R), (∀ v ∈ l, P v) → pyGet l i = .ok y → P y := by
      intro l i y hl h
      unfold pyGet at h
      dsimp only at h
      split_ifs at h
      all_goals
        split at h
        · rename_i v hv
          cases h
          exact hl _ (List.mem_of_getElem? hv)
        · cases h
    have hsort : ∀ v ∈ (argsort ((x :: t).map key)).filterMap (fun i => (x :: t)[i]?), P v := by
      intro v hv
      obtain ⟨i, -, hi⟩ := List.mem_filterMap.mp hv
      exact hst v (List.mem_of_getElem? hi)
    dsimp only
    rcases hp : pyGet ((argsort ((x :: t).map key)).filterMap fun i => (x :: t)[i]?) f.index with e | y
    · exact ⟨by simp, hst⟩
    · refine ⟨?_, ?_⟩
      · intro y' hy'
        cases hy'
        exact hg _ _ _ hsort hp
      · dsimp only
        split_ifs
        · exact hsr
        · exact hst

theorem rank_loop_mem (P : R → Prop) (argsort : List K → List ℕ) (key : R → K) (x : List R) : ∀ (f : Rank R), (∀ v ∈ f.s, P v) → (∀ v ∈ x, P v) →
    (∀ y, (runLoop (Rank.step argsort key) f x).1 = .ok y → ∀ v ∈ y, P v) ∧ ∀ v ∈ (runLoop (Rank.step argsort key) f x).2.s, P v := by
  induction x with
  | nil =>
    intro f hs _
    refine ⟨?_, hs⟩
    intro y hy
    simp only [runLoop, Except.ok.injEq] at hy
    subst hy
    simp
  | cons a t ih =>
    intro f hs hx
    obtain ⟨h1, h2⟩ := rank_step_mem P argsort key f a hs (hx a (by simp))
    simp only [runLoop]
    rcases e1 : Rank.step argsort key f a with ⟨r, f1⟩
    rw [e1] at h1 h2
    cases r with
    | error e => exact ⟨by simp, h2⟩
    | ok y1 =>
      obtain ⟨h3, h4⟩ := ih f1 h2 fun v hv => hx v (by simp [hv])
      dsimp only
      rcases e2 : runLoop (Rank.step argsort key) f1 t with ⟨r2, f2⟩
      rw [e2] at h3 h4
      cases r2 with
      | error e => exact ⟨by simp, h4⟩
      | ok ys =>
        refine ⟨?_, h4⟩
        intro y hy
        cases hy
        intro v hv
        rcases List.mem_cons.mp hv with rfl | hv
        · exact h1 _ rfl
        · exact h3 _ rfl v hv

/-- A history of calls with samples and reset values for which `P` holds. -/
def RankGiven (P : R → Prop) : RankOp R → Prop
  | .filter x => ∀ v ∈ x, P v
  | .reset (.scalar v) => P v
  | .reset .nonScalar => True
  | .setIndex _ => True

/-- C128.  An integer signal loses nothing as long as all samples and reset values were integers before. -/
theorem C128_rank_integers [Zero R] (P : R → Prop) (h0 : P 0) (out : R → R) (hout : ∀ v, P v → out v = v) (argsort : List K → List ℕ) (key : R → K)
    (index order : ℤ) (f : Rank R) (hf : Rank.new index order = .ok f) (ops : List (RankOp R)) (hops : ∀ o ∈ ops, RankGiven P o) (x : List R) (hx : ∀ v ∈ x, P v) :
    Rank.filterAs id out argsort key (f.after argsort key ops) x = (f.after argsort key ops).filter argsort key x := by
  have hs : ∀ v ∈ (f.after argsort key ops).s, P v := by
    have hf0 : ∀ v ∈ f.s, P v := by
      unfold Rank.new at hf
      split_ifs at hf
      cases hf
      intro v hv
      rw [List.eq_of_mem_replicate hv]
      exact h0
    clear hf hx
    induction ops generalizing f with
    | nil => exact hf0
    | cons o ops ih =>
      refine ih (f.apply argsort key o) (fun o' ho' => hops o' (by simp [ho'])) ?_
      have ho := hops o (by simp)
      cases o with
      | filter z =>
        simp only [Rank.apply, Rank.filter]
        split_ifs
        · exact hf0
        · exact (rank_loop_mem P argsort key z f hf0 ho).2
      | reset a =>
        cases a with
        | scalar w =>
          intro v hv
          simp only [Rank.apply, Rank.reset, List.mem_map] at hv
          obtain ⟨_, -, rfl⟩ := hv
          exact ho
        | nonScalar => exact hf0
      | setIndex i =>
        simp only [Rank.apply, Rank.setIndex]
        split_ifs <;> exact hf0
  generalize f.after argsort key ops = g at hs
  unfold Rank.filterAs
  rw [List.map_id]
  rcases e : g.filter argsort key x with ⟨r, g'⟩
  cases r with
  | error e => rfl
  | ok y =>
    dsimp only
    have : y.map out = y := by
      have hy : ∀ v ∈ y, P v := by
        unfold Rank.filter at e
        split_ifs at e
        · cases e
        · exact (rank_loop_mem P argsort key x g hs hx).1 y (by rw [e])
      conv_rhs => rw [← List.map_id y]
      exact List.map_congr_left fun v hv => hout v (hy v hv)
    rw [this]

example : ∀ v : ℚ, (∃ n : ℤ, v = n) → truncInt v = v := by
  rintro v ⟨n, rfl⟩
  exact truncInt_int n

/-- C128.  After `reset(0.5)` an integer signal is truncated: the smallest of 0.5, 0.5 and 3 is returned as 0. -/
theorem C128_rank_truncated : ∃ f : Rank ℚ, Rank.new 0 2 = .ok f ∧
    (Rank.filterAs id truncInt argsortRef (fun v => |v|) (f.reset (.scalar (1 / 2))).2 [3]).1 = .ok [0] ∧
    ((f.reset (.scalar (1 / 2))).2.filter argsortRef (fun v => |v|) [3]).1 = .ok [1 / 2] := by
  have t : truncInt (1 / 2 : ℚ) = 0 := by norm_num [truncInt]
  have e : (Rank.filter argsortRef (fun v : ℚ => |v|) ⟨[1 / 2, 1 / 2, 1 / 2], 0⟩ [3]).1 = .ok [1 / 2] := by decide +kernel
  refine ⟨⟨[0, 0, 0], 0⟩, rfl, ?_, e⟩
  have h2 : ∀ g : Rank ℚ, (Rank.filter argsortRef (fun v : ℚ => |v|) g [3]).1 = .ok [1 / 2] →
      (Rank.filterAs id truncInt argsortRef (fun v => |v|) g [3]).1 = .ok [0] := by
    intro g hg
    unfold Rank.filterAs
    rw [List.map_id]
    rcases h : Rank.filter argsortRef (fun v : ℚ => |v|) g [3] with ⟨r, f'⟩
    rw [h] at hg
    simp only at hg
    subst hg
    simp only [List.map_cons, List.map_nil, t]
  exact h2 _ e

end rank

end Verif.Props
