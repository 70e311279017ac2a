import Verif.Lemmas.Loop
import Verif.Lemmas.Fir
import Verif.Model.Rank
import Verif.Spec.Order
import Mathlib.Algebra.Order.Group.Abs
import Mathlib.Data.List.Sort
import Mathlib.Tactic.Linarith

/-
RankFilter: order statistics and windows.
-/

namespace Verif

open Spec

variable {R K : Type*}

theorem filterMap_perm_range (s : List R) (p : List ℕ) (hp : p.Perm (List.range s.length)) :
    (p.filterMap (fun i => s[i]?)).Perm s := by
  have h1 : (p.filterMap (fun i => s[i]?)).Perm ((List.range s.length).filterMap (fun i => s[i]?)) := hp.filterMap _
  have h2 : (List.range s.length).filterMap (fun i => s[i]?) = s := by
    have : ∀ (s : List R), (List.range s.length).filterMap (fun i => s[i]?) = s := by
      intro s
      induction s using List.reverseRecOn with
      | nil => rfl
      | append_singleton l a ih =>
        rw [List.length_append, List.length_singleton, List.range_succ, List.filterMap_append]
        have e1 : (List.range l.length).filterMap (fun i => (l ++ [a])[i]?)
            = (List.range l.length).filterMap (fun i => l[i]?) := by
          apply List.filterMap_congr
          intro i hi
          rw [List.getElem?_append_left (List.mem_range.mp hi)]
        rw [e1, ih]
        simp
    exact this s
  rwa [h2] at h1

theorem filterMap_map_key (s : List R) (key : R → K) (p : List ℕ) :
    p.filterMap (fun i => (s.map key)[i]?) = (p.filterMap (fun i => s[i]?)).map key := by
  induction p with
  | nil => rfl
  | cons i p ih =>
    simp only [List.filterMap_cons, List.getElem?_map]
    rcases s[i]? with _ | v
    · simpa using ih
    · simpa using ih

theorem rank_of_sorted [LinearOrder K] (key : R → K) (q : List R) (hq : (q.map key).Pairwise (· ≤ ·)) (i : ℕ)
    (hi : i < q.length) : IsRank key q i q[i] := by
  refine ⟨List.getElem_mem hi, ?_, ?_⟩
  · rw [List.pairwise_map] at hq
    have e : ∀ P : R → Bool, q.countP P = (q.take i).countP P + (q.drop i).countP P := fun P => by
      rw [← List.countP_append, List.take_append_drop]
    rw [e]
    have h2 : (q.drop i).countP (fun w => decide (key w < key q[i])) = 0 := by
      rw [List.countP_eq_zero]
      intro w hw
      obtain ⟨j, hj, rfl⟩ := List.mem_iff_getElem.mp hw
      simp only [List.getElem_drop, decide_eq_true_eq, not_lt]
      rcases Nat.eq_zero_or_pos j with rfl | hjp
      · simp
      · exact List.pairwise_iff_getElem.mp hq i (i+j) hi (by simp at hj; omega) (by omega)
    rw [h2]
    calc _ ≤ (q.take i).length := List.countP_le_length
      _ ≤ i := by simp
  · rw [List.pairwise_map] at hq
    have e : ∀ P : R → Bool, q.countP P = (q.take (i+1)).countP P + (q.drop (i+1)).countP P := fun P => by
      rw [← List.countP_append, List.take_append_drop]
    rw [e]
    have h1 : (q.take (i+1)).countP (fun w => decide (key w ≤ key q[i])) = (q.take (i+1)).length := by
      rw [List.countP_eq_length]
      intro w hw
      obtain ⟨j, hj, rfl⟩ := List.mem_iff_getElem.mp hw
      simp only [List.getElem_take, decide_eq_true_eq]
      have hj' : j < i + 1 := by simp at hj; omega
      rcases Nat.lt_or_ge j i with h | h
      · exact List.pairwise_iff_getElem.mp hq j i (by omega) hi h
      · obtain rfl : j = i := by omega
        exact le_rfl
    rw [h1]
    simp; omega

theorem IsRank.perm [LinearOrder K] (key : R → K) (q s : List R) (h : q.Perm s) (i : ℕ) (y : R)
    (hy : IsRank key q i y) : IsRank key s i y := by
  obtain ⟨h1, h2, h3⟩ := hy
  exact ⟨h.mem_iff.mp h1, by rw [← h.countP_eq]; exact h2, by rw [← h.countP_eq]; exact h3⟩

/-- One step: window `x :: s.tail`, output of rank `index`, next state. -/
theorem Rank.step_spec [LinearOrder K] (argsort : List K → List ℕ) (ha : IsArgsort argsort) (key : R → K)
    (f : Rank R) (h0 : 0 ≤ f.index) (h1 : f.index < f.s.length) (x : R) :
    ∃ y, f.step argsort key x = (.ok y, { f with s := (x :: x :: f.s.tail).take f.s.length }) ∧
      IsRank key (x :: f.s.tail) f.index.toNat y := by
  rcases hs : f.s with _ | ⟨s0, t⟩
  · rw [hs] at h1; simp at h1; omega
  obtain ⟨hp, hsort⟩ := ha ((x :: t).map key)
  rw [List.length_map] at hp
  have hperm := filterMap_perm_range (x :: t) _ hp
  rw [filterMap_map_key] at hsort
  set q := (argsort ((x :: t).map key)).filterMap (fun i => (x :: t)[i]?) with hq
  have hlen : q.length = t.length + 1 := by rw [hperm.length_eq]; simp
  have hi : f.index.toNat < q.length := by rw [hs] at h1; simp at h1; omega
  refine ⟨q[f.index.toNat], ?_, ?_⟩
  · have hget : pyGet q f.index = .ok q[f.index.toNat] := by
      unfold pyGet
      have hneg : ¬ f.index < 0 := by omega
      simp [hneg, List.getElem?_eq_getElem hi]
    simp only [Rank.step, hs, ← hq, hget]
    rcases t with _ | ⟨c, u⟩
    · simp
    · simp [shiftRight, List.dropLast_eq_take]
  · exact IsRank.perm key q _ hperm _ _ (rank_of_sorted key q hsort _ hi)

/-- The window seen at sample `n`. -/
def Rank.window (s xs : List R) (n : ℕ) : List R := ((xs.take (n+1)).reverse ++ s.tail).take s.length

theorem Rank.runLoop_spec [LinearOrder K] (argsort : List K → List ℕ) (ha : IsArgsort argsort) (key : R → K)
    (xs : List R) : ∀ (f : Rank R), 0 ≤ f.index → f.index < f.s.length →
    ∃ ys f', runLoop (Rank.step argsort key) f xs = (.ok ys, f') ∧ f'.index = f.index ∧
      f'.s.length = f.s.length ∧ ys.length = xs.length ∧
      f'.s.tail = ((xs.reverse ++ f.s.tail).take (f.s.length - 1)) ∧
      (∀ v, xs.getLast? = some v → f'.s.head? = some v) ∧
      ∀ n, n < xs.length → ∃ y, ys[n]? = some y ∧ IsRank key (Rank.window f.s xs n) f.index.toNat y := by
  induction xs with
  | nil =>
    intro f h0 h1
    exact ⟨[], f, rfl, rfl, rfl, rfl, by simp, by simp, by simp⟩
  | cons x xs ih =>
    intro f h0 h1
    obtain ⟨y, hstep, hy⟩ := Rank.step_spec argsort ha key f h0 h1 x
    have hpos : 0 < f.s.length := by omega
    obtain ⟨m, hm⟩ : ∃ m, f.s.length = m + 1 := ⟨f.s.length - 1, by omega⟩
    have htl : f.s.tail.length = m := by simp [hm]
    set g : Rank R := { f with s := (x :: x :: f.s.tail).take f.s.length } with hg
    have hgl : g.s.length = f.s.length := by simp [hg]; omega
    have hgt : g.s.tail = (x :: f.s.tail).take m := by simp [hg, hm]
    obtain ⟨ys, f', e1, e2, e3, e4, e5, e6, e7⟩ := ih g h0 (by rw [hgl]; exact h1)
    have key2 : ∀ (l : List R) (k : ℕ), k ≤ m + l.length →
        (l ++ g.s.tail).take k = (l ++ x :: f.s.tail).take k := by
      intro l k hk
      rw [List.take_append, List.take_append, hgt, List.take_take]
      congr 2
      omega
    refine ⟨y :: ys, f', ?_, by rw [e2], by rw [e3, hgl], by simp [e4], ?_, ?_, ?_⟩
    · rw [runLoop_cons_ok _ _ _ _ _ _ hstep]
      simp [thenRun, e1]
    · rw [e5, hgl]
      simp only [List.reverse_cons, List.append_assoc, List.singleton_append]
      exact key2 _ _ (by omega)
    · intro v hv
      rcases xs with _ | ⟨z, zs⟩
      · simp [runLoop] at e1
        simp at hv
        rw [← e1.2, hg, hm]; simp [hv]
      · exact e6 v (by simpa using hv)
    · intro n hn
      rcases n with _ | n
      · refine ⟨y, rfl, ?_⟩
        have : Rank.window f.s (x :: xs) 0 = x :: f.s.tail := by
          simp [Rank.window, hm]
        rw [this]; exact hy
      · obtain ⟨y', h1', h2'⟩ := e7 n (by simpa using hn)
        refine ⟨y', by simpa using h1', ?_⟩
        have : Rank.window f.s (x :: xs) (n+1) = Rank.window g.s xs n := by
          simp only [Rank.window, hgl, List.take_succ_cons, List.reverse_cons, List.append_assoc, List.singleton_append]
          rw [key2]
          simp at hn ⊢; omega
        rw [this]; exact h2'

/-- An argsort exists (so the hypothesis `IsArgsort` is satisfiable): insertion sort of the positions by value. -/
def argsortRef [LinearOrder K] (l : List K) : List ℕ :=
  (l.zipIdx.insertionSort (fun p q => p.1 ≤ q.1)).map Prod.snd

theorem argsortRef_isArgsort [LinearOrder K] : IsArgsort (argsortRef (K := K)) := by
  intro l
  have hperm := List.perm_insertionSort (fun (p q : K × ℕ) => p.1 ≤ q.1) l.zipIdx
  refine ⟨?_, ?_⟩
  · have := hperm.map Prod.snd
    refine this.trans ?_
    rw [List.zipIdx_map_snd, List.range_eq_range']
  · have hmem : ∀ p ∈ l.zipIdx.insertionSort (fun p q => p.1 ≤ q.1), l[p.2]? = some p.1 := by
      intro p hp
      have := hperm.mem_iff.mp hp
      exact List.mem_zipIdx_iff_getElem?.mp this
    have e : (argsortRef l).filterMap (fun i => l[i]?)
        = (l.zipIdx.insertionSort (fun p q => p.1 ≤ q.1)).map Prod.fst := by
      unfold argsortRef
      generalize l.zipIdx.insertionSort (fun p q => p.1 ≤ q.1) = m at hmem
      induction m with
      | nil => rfl
      | cons p m ih =>
        simp only [List.map_cons, List.filterMap_cons, hmem p (by simp)]
        rw [ih (fun q hq => hmem q (by simp [hq]))]
    rw [e, List.pairwise_map]
    have : Std.Total (fun (p q : K × ℕ) => p.1 ≤ q.1) := ⟨fun a b => le_total _ _⟩
    have : IsTrans (K × ℕ) (fun (p q : K × ℕ) => p.1 ≤ q.1) := ⟨fun a b c => le_trans⟩
    exact List.pairwise_insertionSort (fun (p q : K × ℕ) => p.1 ≤ q.1) l.zipIdx

end Verif
