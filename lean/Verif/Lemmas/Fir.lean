import Verif.Lemmas.Loop
import Verif.Model.Exact
import Verif.Spec.Signal
import Mathlib.Algebra.BigOperators.Intervals
import Mathlib.Tactic.Ring
import Mathlib.Tactic.Abel

/-
FirFilter: closed form of state and output.
-/

namespace Verif

open Finset Spec

variable {R : Type*}

/-- `b` and `s` have the same positive length. -/
def Fir.WF (f : Fir R) : Prop := f.b.length = f.s.length ∧ 0 < f.b.length

theorem Fir.step_wf [Dot R] (f : Fir R) (hf : f.WF) (x : R) :
    f.step x = (.ok (f.cast (dot f.b (f.cast x :: f.s.dropLast))), { f with s := f.cast x :: f.s.dropLast }) := by
  obtain ⟨h1, h2⟩ := hf
  rcases hs : f.s with _ | ⟨a, t⟩
  · rw [hs] at h1; simp at h1; simp [h1] at h2
  · have hlen : f.b.length = t.length + 1 := by rw [h1, hs]; simp
    unfold Fir.step
    rw [hs]
    rcases t with _ | ⟨c, u⟩
    · simp [hlen]
    · simp [hlen, shiftRight]

theorem Fir.step_wf_wf [Dot R] (f : Fir R) (hf : f.WF) (x : R) : (f.step x).2.WF := by
  rw [Fir.step_wf f hf]
  obtain ⟨h1, h2⟩ := hf
  refine ⟨?_, h2⟩
  simp; omega

/-- State after consuming `xs`. -/
theorem Fir.runLoop_wf [Dot R] (f : Fir R) (hf : f.WF) (xs : List R) :
    ∃ ys, runLoop Fir.step f xs =
      (.ok ys, { f with s := ((xs.map f.cast).reverse ++ f.s).take f.b.length }) ∧ ys.length = xs.length ∧
      ∀ n, n < xs.length → ys[n]? =
        some (f.cast (dot f.b ((((xs.take (n+1)).map f.cast).reverse ++ f.s).take f.b.length))) := by
  induction xs generalizing f with
  | nil =>
    refine ⟨[], ?_, rfl, by simp⟩
    simp [runLoop, hf.1]
  | cons x xs ih =>
    have hw := Fir.step_wf_wf f hf x
    have hst := Fir.step_wf f hf x
    rw [hst] at hw
    obtain ⟨ys, h1, h2, h3⟩ := ih _ hw
    simp only at h1 h3
    have key : ∀ l : List R, (l ++ f.cast x :: f.s.dropLast).take f.b.length
        = (l ++ f.cast x :: f.s).take f.b.length := by
      intro l
      have hlen : f.s.length = f.b.length := hf.1.symm
      have hpos := hf.2
      rw [List.take_append, List.take_append]
      congr 1
      rcases hk : f.b.length - l.length with _ | k
      · simp
      · simp only [List.take_succ_cons, List.cons.injEq, true_and]
        rw [List.dropLast_eq_take, List.take_take]
        congr 1; omega
    refine ⟨f.cast (dot f.b (f.cast x :: f.s.dropLast)) :: ys, ?_, by simp [h2], ?_⟩
    · rw [runLoop_cons_ok _ _ _ _ _ _ hst]
      simp [thenRun, h1, key]
    · intro n hn
      rcases n with _ | n
      · have hpos := hf.2
        have := key []
        simp only [List.nil_append] at this
        simp only [List.getElem?_cons_zero, Nat.zero_add, List.take_succ_cons, List.take_zero, List.map_cons, List.map_nil,
          List.reverse_cons, List.reverse_nil, List.nil_append, List.singleton_append, ← this]
        rw [List.take_of_length_le]
        simp; have := hf.1; omega
      · simp only [List.getElem?_cons_succ]
        rw [h3 n (by simpa using hn)]
        simp [key]

theorem Fir.filter_wf [Dot R] (f : Fir R) (hf : f.WF) (xs : List R) (hx : xs ≠ []) :
    ∃ ys, f.filter xs =
      (.ok ys, { f with s := ((xs.map f.cast).reverse ++ f.s).take f.b.length }) ∧ ys.length = xs.length ∧
      ∀ n, n < xs.length → ys[n]? =
        some (f.cast (dot f.b ((((xs.take (n+1)).map f.cast).reverse ++ f.s).take f.b.length))) := by
  have : xs.length ≠ 0 := by simpa using hx
  simp only [Fir.filter, this, if_false]
  exact Fir.runLoop_wf f hf xs

theorem Fir.new_spec [Zero R] (cast : R → R) (b : List R) (s : Option (List R)) (hb : b ≠ []) :
    ∃ f, Fir.new cast b s = .ok f ∧ f.WF ∧ f.cast = cast ∧ f.b = padTo (max b.length (s.getD []).length) b ∧
      f.s = (padTo (max b.length (s.getD []).length) (s.getD [])).map cast := by
  have hb' : b.length ≠ 0 := by simpa using hb
  have hpos : 0 < b.length := Nat.pos_of_ne_zero hb'
  refine ⟨_, by simp [Fir.new, hb']; rfl, ?_, rfl, ?_, ?_⟩
  · unfold Fir.WF
    generalize s.getD [] = t
    by_cases h1 : b.length < t.length
    · simp only [h1, if_true]
      have : ¬ t.length < (padTo t.length b).length := by simp [padTo]; omega
      simp only [this, if_false]
      simp [padTo]; omega
    · simp only [h1, if_false]
      by_cases h2 : t.length < b.length
      · simp [h2, padTo]; omega
      · simp [h2]; omega
  · generalize s.getD [] = t
    simp only
    by_cases h1 : b.length < t.length
    · simp [h1, max_eq_right (le_of_lt h1)]
    · simp [h1, max_eq_left (not_lt.mp h1), padTo]
  · generalize s.getD [] = t
    simp only
    by_cases h1 : b.length < t.length
    · have : ¬ t.length < (padTo t.length b).length := by simp [padTo]; omega
      simp only [h1, if_true, this, if_false, max_eq_right (le_of_lt h1)]
      simp [padTo]
    · simp only [h1, if_false, max_eq_left (not_lt.mp h1)]
      by_cases h2 : t.length < b.length
      · simp [h2]
      · simp [h2, padTo]; omega

/-! ### Exact arithmetic -/

theorem at0_cons_zero [Zero R] (a : R) (l : List R) : at0 (a :: l) 0 = a := rfl
theorem at0_cons_succ [Zero R] (a : R) (l : List R) (n : ℕ) : at0 (a :: l) (n+1) = at0 l n := rfl
theorem at0_nil [Zero R] (n : ℕ) : at0 ([] : List R) n = 0 := rfl

theorem at0_of_le [Zero R] (l : List R) (n : ℕ) (h : l.length ≤ n) : at0 l n = 0 := by
  simp [at0, List.getD, List.getElem?_eq_none h]

theorem at0_of_lt [Zero R] (l : List R) (n : ℕ) (h : n < l.length) : at0 l n = l[n] := by
  simp [at0, List.getD, List.getElem?_eq_getElem h]

theorem at0_padTo [Zero R] (l : List R) (m n : ℕ) : at0 (padTo m l) n = at0 l n := by
  unfold padTo
  by_cases h : n < l.length
  · simp [at0, List.getD, List.getElem?_append_left h]
  · rw [at0_of_le l n (not_lt.mp h)]
    simp only [at0, List.getD, List.getElem?_append_right (not_lt.mp h), List.getElem?_replicate]
    split <;> rfl

theorem dot_eq_sum [Semiring R] (a b : List R) : dot a b = ∑ i ∈ range a.length, at0 a i * at0 b i := by
  rw [dot_def]
  induction a generalizing b with
  | nil => simp
  | cons x a ih =>
    cases b with
    | nil => simp [at0_nil]
    | cons y b =>
      simp [sum_range_succ', ih, at0_cons_zero, at0_cons_succ, add_comm]

theorem at0_window [Zero R] (xs s : List R) (n i L : ℕ) (hn : n < xs.length) (hi : i < L) :
    at0 (((xs.take (n+1)).reverse ++ s).take L) i = if n < i then at0 s (i - n - 1) else at0 xs (n - i) := by
  have hl : (xs.take (n+1)).length = n + 1 := by simp; omega
  simp only [at0, List.getD, List.getElem?_take, hi, if_true]
  by_cases h : n < i
  · rw [List.getElem?_append_right (by simp; omega)]
    simp only [h, if_true, List.length_reverse, hl]
    rfl
  · rw [List.getElem?_append_left (by simp; omega)]
    simp only [h, if_false]
    rw [List.getElem?_reverse (by rw [hl]; omega), hl]
    simp only [List.getElem?_take]
    rw [if_pos (by omega)]
    congr 2

theorem dot_window [Semiring R] (b xs s : List R) (n L : ℕ) (hL : b.length ≤ L) (hn : n < xs.length) :
    dot b (((xs.take (n+1)).reverse ++ s).take L) = conv b xs n + tail b s n := by
  rw [dot_eq_sum]
  have h1 : ∀ i ∈ range b.length, at0 b i * at0 (((xs.take (n+1)).reverse ++ s).take L) i
      = (if i ≤ n then at0 b i * at0 xs (n - i) else 0) + (if n < i then at0 b i * at0 s (i - n - 1) else 0) := by
    intro i hi
    rw [at0_window xs s n i L hn (lt_of_lt_of_le (mem_range.mp hi) hL)]
    by_cases h : n < i
    · simp [h, not_le.mpr h]
    · simp [h, not_lt.mp h]
  rw [sum_congr rfl h1, sum_add_distrib]
  congr 1
  unfold conv
  have h2 : ∑ i ∈ range (n+1), at0 b i * at0 xs (n - i)
      = ∑ i ∈ range (max (n+1) b.length), (if i ≤ n then at0 b i * at0 xs (n - i) else 0) := by
    rw [← sum_filter]
    congr 1
    ext i; simp; omega
  have h3 : ∑ i ∈ range b.length, (if i ≤ n then at0 b i * at0 xs (n - i) else 0)
      = ∑ i ∈ range (max (n+1) b.length), (if i ≤ n then at0 b i * at0 xs (n - i) else 0) := by
    apply sum_subset
    · intro i; simp; omega
    · intro i _ hi
      rw [at0_of_le b i (by simpa using hi)]
      simp
  rw [h2, h3]

end Verif
