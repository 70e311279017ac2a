import Verif.Model.Diversity
import Verif.Spec.Separation
import Mathlib.Tactic.Linarith

namespace Verif

open Spec

/-- A fold that keeps the least of what it has seen. -/
theorem div.fold_least {ι D : Type*} [LinearOrder D] (F : ι → Set D) (g : D → ι → D)
    (hg : ∀ u a, g u a ≤ u ∧ (∀ y ∈ F a, g u a ≤ y) ∧ (g u a = u ∨ g u a ∈ F a)) (l : List ι) : ∀ u,
    l.foldl g u ≤ u ∧ (∀ a ∈ l, ∀ y ∈ F a, l.foldl g u ≤ y) ∧ (l.foldl g u = u ∨ ∃ a ∈ l, l.foldl g u ∈ F a) := by
  induction l with
  | nil => intro u; simp
  | cons a l ih =>
    intro u
    obtain ⟨h1, h2, h3⟩ := ih (g u a)
    obtain ⟨g1, g2, g3⟩ := hg u a
    rw [List.foldl_cons]
    refine ⟨h1.trans g1, ?_, ?_⟩
    · intro b hb y hy
      rcases List.mem_cons.mp hb with rfl | hb
      · exact h1.trans (g2 y hy)
      · exact h2 b hb y hy
    · rcases h3 with h3 | ⟨b, hb, h3⟩
      · rcases g3 with g3 | g3
        · left; rw [h3, g3]
        · right; exact ⟨a, List.mem_cons_self, by rw [h3]; exact g3⟩
      · right; exact ⟨b, List.mem_cons_of_mem _ hb, h3⟩

theorem div.least_spec (d : List ℝ → List ℝ → WithTop ℝ) (s : List (List ℝ)) : IsMinDistance d s (div.least d s s.length) := by
  set n := s.length with hn
  have inner : ∀ (uu : ℕ) (u : WithTop ℝ) (k : ℕ), (fun u k => if d (s.getD uu []) (s.getD (uu + 1 + k) []) < u then d (s.getD uu []) (s.getD (uu + 1 + k) []) else u) u k ≤ u ∧
      (∀ y ∈ ({d (s.getD uu []) (s.getD (uu + 1 + k) [])} : Set (WithTop ℝ)),
        (fun u k => if d (s.getD uu []) (s.getD (uu + 1 + k) []) < u then d (s.getD uu []) (s.getD (uu + 1 + k) []) else u) u k ≤ y) ∧
      ((fun u k => if d (s.getD uu []) (s.getD (uu + 1 + k) []) < u then d (s.getD uu []) (s.getD (uu + 1 + k) []) else u) u k = u ∨
        (fun u k => if d (s.getD uu []) (s.getD (uu + 1 + k) []) < u then d (s.getD uu []) (s.getD (uu + 1 + k) []) else u) u k ∈
          ({d (s.getD uu []) (s.getD (uu + 1 + k) [])} : Set (WithTop ℝ))) := by
    intro uu u k
    simp only [Set.mem_singleton_iff, forall_eq]
    split
    · rename_i h; exact ⟨h.le, le_refl _, Or.inr rfl⟩
    · rename_i h; exact ⟨le_refl _, not_lt.mp h, Or.inl rfl⟩
  have outer := div.fold_least (fun uu => {y : WithTop ℝ | ∃ k ∈ List.range (n - (uu + 1)), y = d (s.getD uu []) (s.getD (uu + 1 + k) [])})
    (fun u uu => (List.range (n - (uu + 1))).foldl (fun u k => if d (s.getD uu []) (s.getD (uu + 1 + k) []) < u then d (s.getD uu []) (s.getD (uu + 1 + k) []) else u) u)
    (fun u uu => by
      obtain ⟨h1, h2, h3⟩ := div.fold_least (fun k => ({d (s.getD uu []) (s.getD (uu + 1 + k) [])} : Set (WithTop ℝ))) _ (inner uu) (List.range (n - (uu + 1))) u
      refine ⟨h1, ?_, ?_⟩
      · rintro y ⟨k, hk, rfl⟩; exact h2 k hk _ rfl
      · rcases h3 with h3 | ⟨k, hk, h3⟩
        · exact Or.inl h3
        · exact Or.inr ⟨k, hk, h3⟩) (List.range (n - 1)) ⊤
  have e : ∀ (i : ℕ) (a : List ℝ), s[i]? = some a → s.getD i [] = a ∧ i < n := by
    intro i a h
    refine ⟨by rw [List.getD_eq_getElem?_getD, h]; rfl, ?_⟩
    by_contra h'
    rw [List.getElem?_eq_none (by omega)] at h
    simp at h
  refine ⟨?_, ?_⟩
  · intro i j a b hij ha hb
    obtain ⟨e1, l1⟩ := e i a ha
    obtain ⟨e2, l2⟩ := e j b hb
    refine outer.2.1 i (List.mem_range.mpr (by omega)) _ ⟨j - (i + 1), List.mem_range.mpr (by omega), ?_⟩
    rw [e1, show i + 1 + (j - (i + 1)) = j by omega, e2]
  · rcases outer.2.2 with h | ⟨uu, huu, k, hk, h⟩
    · exact Or.inl h
    · right
      have huu := List.mem_range.mp huu
      have hk := List.mem_range.mp hk
      refine ⟨uu, uu + 1 + k, s.getD uu [], s.getD (uu + 1 + k) [], by omega, ?_, ?_, h⟩
      · rw [List.getD_eq_getElem?_getD, List.getElem?_eq_getElem (by omega : uu < s.length)]; rfl
      · rw [List.getD_eq_getElem?_getD, List.getElem?_eq_getElem (by omega : uu + 1 + k < s.length)]; rfl

theorem div.best_spec (d : List ℝ → List ℝ → WithTop ℝ) (s : List (List ℝ)) (x : List ℝ) (start : WithTop ℝ) (cc : ℕ) (hcc : cc = s.length) :
    start ≤ (div.best d s cc x start).1 ∧ (∀ k < cc, ∀ v, IsMinDistance d (s.set k x) v → v ≤ (div.best d s cc x start).1) ∧
      (div.best d s cc x start = (start, none) ∨ ∃ k < cc, ∃ v, div.best d s cc x start = (v, some k) ∧ start < v ∧ IsMinDistance d (s.set k x) v ∧
        ∀ k' < k, ∀ v', IsMinDistance d (s.set k' x) v' → v' < v) := by
  have hl : ∀ k, IsMinDistance d (s.set k x) (div.least d (s.set k x) cc) := by
    intro k
    have := div.least_spec d (s.set k x)
    rwa [List.length_set, ← hcc] at this
  unfold div.best
  clear hcc
  generalize hn : cc = n at hl
  have key : ∀ m, let p := (List.range m).foldl (fun p kk =>
      if div.least d (s.set kk x) n > p.1 then (div.least d (s.set kk x) n, some kk) else p) (start, none);
      start ≤ p.1 ∧ (∀ k < m, div.least d (s.set k x) n ≤ p.1) ∧
      (p = (start, none) ∨ ∃ k < m, p = (div.least d (s.set k x) n, some k) ∧ start < div.least d (s.set k x) n ∧
        ∀ k' < k, div.least d (s.set k' x) n < div.least d (s.set k x) n) := by
    intro m
    induction m with
    | zero => simp
    | succ m ih =>
      simp only [List.range_succ, List.foldl_append, List.foldl_cons, List.foldl_nil] at ih ⊢
      set p := (List.range m).foldl (fun p kk =>
        if div.least d (s.set kk x) n > p.1 then (div.least d (s.set kk x) n, some kk) else p) ((start, none) : WithTop ℝ × Option ℕ) with hp
      obtain ⟨h1, h2, h3⟩ := ih
      by_cases h : div.least d (s.set m x) n > p.1
      · rw [if_pos h]
        refine ⟨h1.trans h.le, ?_, Or.inr ⟨m, by omega, rfl, lt_of_le_of_lt h1 h, fun k' hk' => lt_of_le_of_lt (h2 k' hk') h⟩⟩
        intro k hk
        rcases Nat.lt_succ_iff_lt_or_eq.mp hk with hk | rfl
        · exact (h2 k hk).trans h.le
        · exact le_refl _
      · rw [if_neg h]
        refine ⟨h1, ?_, ?_⟩
        · intro k hk
          rcases Nat.lt_succ_iff_lt_or_eq.mp hk with hk | rfl
          · exact h2 k hk
          · exact not_lt.mp h
        · rcases h3 with h3 | ⟨k, hk, h3⟩
          · exact Or.inl h3
          · exact Or.inr ⟨k, by omega, h3⟩
  obtain ⟨h1, h2, h3⟩ := key n
  refine ⟨h1, ?_, ?_⟩
  · intro k hk v hv
    rw [hv.unique (hl k)]
    exact h2 k hk
  · rcases h3 with h3 | ⟨k, hk, h3, h4, h5⟩
    · exact Or.inl h3
    · refine Or.inr ⟨k, hk, _, h3, h4, hl k, ?_⟩
      intro k' hk' v' hv'
      rw [hv'.unique (hl k')]
      exact h5 k' hk'

/-- One step of the loop. -/
noncomputable def div.step (m : Diversity) (cc : ℕ) (x : List ℝ) : Diversity × ℕ :=
  if cc < m.s.length then ({ m with s := m.s.set cc x }, cc + 1)
  else
    let p := div.best m.distance m.s cc x m.diversity
    if p.1 > m.diversity then ({ m with diversity := p.1, s := m.s.set (p.2.getD (m.s.length - 1)) x }, cc)
    else (m, cc)

theorem div.loop_cons (x : List ℝ) (xs : List (List ℝ)) (m : Diversity) (cc : ℕ) :
    div.loop (x :: xs) (m, cc) = ((div.step m cc x).1.diversity :: (div.loop xs (div.step m cc x)).1, (div.loop xs (div.step m cc x)).2) := by
  rw [div.loop]; rfl

theorem div.step_le (m : Diversity) (cc : ℕ) (x : List ℝ) : m.diversity ≤ (div.step m cc x).1.diversity := by
  unfold div.step
  simp only
  split
  · exact le_refl _
  · split
    · rename_i h; exact h.le
    · exact le_refl _

theorem div.loop_append (xs ys : List (List ℝ)) : ∀ st,
    div.loop (xs ++ ys) st = ((div.loop xs st).1 ++ (div.loop ys (div.loop xs st).2).1, (div.loop ys (div.loop xs st).2).2) := by
  induction xs with
  | nil => intro st; simp [div.loop]
  | cons x xs ih =>
    intro st
    obtain ⟨m, cc⟩ := st
    rw [List.cons_append, div.loop_cons, div.loop_cons, ih]
    rfl

theorem div.loop_length (xs : List (List ℝ)) : ∀ st, (div.loop xs st).1.length = xs.length := by
  induction xs with
  | nil => intro st; simp [div.loop]
  | cons x xs ih => intro st; obtain ⟨m, cc⟩ := st; rw [div.loop_cons]; simp [ih]

theorem div.loop_mono (xs : List (List ℝ)) : ∀ (m : Diversity) (cc : ℕ), (m.diversity :: (div.loop xs (m, cc)).1).Pairwise (· ≤ ·) ∧
    (m.diversity :: (div.loop xs (m, cc)).1).getLast? = some (div.loop xs (m, cc)).2.1.diversity := by
  induction xs with
  | nil => intro m cc; simp [div.loop]
  | cons x xs ih =>
    intro m cc
    rw [div.loop_cons]
    obtain ⟨h1, h2⟩ := ih (div.step m cc x).1 (div.step m cc x).2
    have e : ((div.step m cc x).1, (div.step m cc x).2) = div.step m cc x := rfl
    rw [e] at h1 h2
    have hle := div.step_le m cc x
    refine ⟨?_, ?_⟩
    · rw [List.pairwise_cons]
      refine ⟨?_, h1⟩
      intro b hb
      rcases List.mem_cons.mp hb with rfl | hb
      · exact hle
      · exact hle.trans ((List.pairwise_cons.mp h1).1 b hb)
    · rw [List.getLast?_cons_cons]; exact h2

/-- Sentinel rows count as vacant. -/
theorem div.vacant_fmax : div.vacant div.fmax := by
  unfold div.vacant
  rw [sub_self, abs_zero]
  positivity

theorem fmax_eq : div.fmax = largestFloat := by
  unfold div.fmax largestFloat
  rw [show (1023 : ℕ) = 52 + 971 from rfl, pow_add]
  generalize (2 : ℝ) ^ 971 = t
  norm_num
  ring

theorem largest_pos : (0 : ℝ) < largestFloat := by
  unfold largestFloat
  have : (0 : ℝ) < 2 ^ 971 := by positivity
  exact mul_pos (by norm_num) this

theorem div.vacant_iff (v : ℝ) : div.vacant v ↔ NearLargest v := by
  unfold div.vacant NearLargest
  rw [fmax_eq, abs_of_pos largest_pos]

end Verif
