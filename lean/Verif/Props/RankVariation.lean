import Verif.Props.RankOrder
import Mathlib.Algebra.Order.BigOperators.Group.Finset
import Mathlib.Data.Real.Basic
import Mathlib.Order.Interval.Set.UnorderedInterval
import Mathlib.Tactic.Linarith

/-
Property C156: RankFilter.filter (diamondback/filters/rank_filter.py:69-91) does not add variation.  `key` is the magnitude.
-/

namespace Verif.Props

open Spec Finset

variable {R K : Type*}

theorem lookback_next [Zero R] (order : ℕ) (s x : List R) (n : ℕ) :
    ∃ T o, lookback order s x (n + 1) = at0 x (n + 1) :: T ∧ lookback order s x n = T ++ [o] := by
  refine ⟨(List.range order).map fun i => if i ≤ n then at0 x (n - i) else at0 s (i - n), if order ≤ n then at0 x (n - order) else at0 s (order - n), ?_, ?_⟩
  rotate_left
  · unfold lookback
    rw [List.range_succ, List.map_append]
    rfl
  · unfold lookback
    rw [List.range_succ_eq_map, List.map_cons, List.map_map]
    simp only [Nat.zero_le, if_true, Nat.sub_zero]
    congr 1
    apply List.map_congr_left
    intro i _
    simp

theorem rank_outputs [LinearOrder K] [Zero R] (argsort : List K → List ℕ) (ha : IsArgsort argsort) (key : R → K) (index order : ℕ) (hio : index ≤ order)
    (s : List R) (hs : s.length = order + 1) (x : List R) (hx : x ≠ []) :
    ∃ y g, Rank.filter argsort key ⟨s, index⟩ x = (.ok y, g) ∧ y.length = x.length ∧ ∀ n < x.length, IsRank key (lookback order s x n) index (at0 y n) := by
  obtain ⟨f, hf, y, g, h1, h2, h3⟩ := C16_rank_order_statistic argsort ha key index order hio s hs x hx
  rw [(C18_rank_constructor _ _).1 ⟨by simp, by simpa using hio⟩] at hf
  cases hf
  refine ⟨y, g, h1, h2, fun n hn => ?_⟩
  obtain ⟨v, hv1, hv2⟩ := h3 n hn
  have : at0 y n = v := by simp [at0, List.getD, hv1]
  rw [this]; exact hv2

theorem rank_between [LinearOrder K] (key : R → K) (T : List R) (o c p q : R) (i : ℕ) (hp : IsRank key (T ++ [o]) i p) (hq : IsRank key (c :: T) i q) :
    (key p ≤ key q ∧ key q ≤ key c) ∨ (key c ≤ key q ∧ key q ≤ key p) := by
  obtain ⟨-, p1, p2⟩ := hp
  obtain ⟨-, q1, q2⟩ := hq
  rw [List.countP_append] at p1 p2
  rw [List.countP_cons] at q1 q2
  have ho : ∀ P : R → Bool, ([o] : List R).countP P ≤ 1 := fun P => by
    have := List.countP_le_length (p := P) (l := [o]); simpa using this
  rcases lt_trichotomy (key p) (key q) with h | h | h
  · left
    refine ⟨h.le, ?_⟩
    by_contra hc
    rw [not_le] at hc
    rw [if_pos (by simpa using hc)] at q1
    have hm : T.countP (fun w => decide (key w ≤ key p)) ≤ T.countP (fun w => decide (key w < key q)) :=
      List.countP_mono_left fun w _ hw => by simpa using lt_of_le_of_lt (by simpa using hw) h
    have := ho (fun w => decide (key w ≤ key p))
    omega
  · rcases le_total (key q) (key c) with h2 | h2
    · exact Or.inl ⟨h.le, h2⟩
    · exact Or.inr ⟨h2, h.ge⟩
  · right
    refine ⟨?_, h.le⟩
    by_contra hc
    rw [not_le] at hc
    rw [if_neg (by simpa using hc)] at q2
    have hm : T.countP (fun w => decide (key w ≤ key q)) ≤ T.countP (fun w => decide (key w < key p)) :=
      List.countP_mono_left fun w _ hw => by simpa using lt_of_le_of_lt (by simpa using hw) h
    omega

/-- Ranks of windows which exceed one another by at most `ε`. -/
theorem rank_shift (key : R → ℝ) (n : ℕ) (g h : ℕ → R) (ε : ℝ) (H : ∀ i < n, key (g i) ≤ key (h i) + ε) (i : ℕ) (y z : R)
    (hy : IsRank key ((List.range n).map g) i y) (hz : IsRank key ((List.range n).map h) i z) : key y ≤ key z + ε := by
  by_contra hlt
  rw [not_le] at hlt
  have h1 := hy.2.1
  have h2 := hz.2.2
  have := countP_le_of_pointwise n h g (fun w => decide (key w ≤ key z)) (fun w => decide (key w < key y)) (by
    intro k hk hp
    have hp : key (h k) ≤ key z := by simpa using hp
    have := H k hk
    simp only [decide_eq_true_eq]
    linarith)
  omega

/-- C156.  From one sample to the next the output moves towards the magnitude of the new sample, if at all, and not beyond it. -/
theorem C156_between [LinearOrder K] [Zero R] (argsort : List K → List ℕ) (ha : IsArgsort argsort) (key : R → K) (index order : ℕ) (hio : index ≤ order)
    (s : List R) (hs : s.length = order + 1) (x : List R) (hx : x ≠ []) :
    ∃ y g, Rank.filter argsort key ⟨s, index⟩ x = (.ok y, g) ∧ y.length = x.length ∧ ∀ n, n + 1 < x.length →
      (key (at0 y n) ≤ key (at0 y (n + 1)) ∧ key (at0 y (n + 1)) ≤ key (at0 x (n + 1))) ∨
      (key (at0 x (n + 1)) ≤ key (at0 y (n + 1)) ∧ key (at0 y (n + 1)) ≤ key (at0 y n)) := by
  obtain ⟨y, g, h1, h2, h3⟩ := rank_outputs argsort ha key index order hio s hs x hx
  refine ⟨y, g, h1, h2, fun n hn => ?_⟩
  obtain ⟨T, o, e1, e2⟩ := lookback_next order s x n
  have a := h3 n (by omega)
  have b := h3 (n + 1) hn
  rw [e2] at a
  rw [e1] at b
  exact rank_between key T o _ _ _ index a b

/-- The median of three. -/
example := C156_between argsortRef argsortRef_isArgsort (fun v : ℤ => |v|) 1 2 (by decide) [0, 3, -5] rfl [5, -1, 3, 4] (by simp)

/-- C156.  The total variation of the magnitudes of the output is at most that of the signal and the distance of the first output from the first sample; what the output has not
followed at the end is left over. -/
theorem C156_variation [Zero R] (argsort : List ℝ → List ℕ) (ha : IsArgsort argsort) (key : R → ℝ) (index order : ℕ) (hio : index ≤ order)
    (s : List R) (hs : s.length = order + 1) (x : List R) (hx : x ≠ []) :
    ∃ y g, Rank.filter argsort key ⟨s, index⟩ x = (.ok y, g) ∧ y.length = x.length ∧ ∀ N < x.length,
      ∑ n ∈ range N, |key (at0 y (n + 1)) - key (at0 y n)| + |key (at0 x N) - key (at0 y N)| ≤
        ∑ n ∈ range N, |key (at0 x (n + 1)) - key (at0 x n)| + |key (at0 x 0) - key (at0 y 0)| := by
  obtain ⟨y, g, h1, h2, h3⟩ := C156_between argsort ha key index order hio s hs x hx
  refine ⟨y, g, h1, h2, fun N => ?_⟩
  induction N with
  | zero => intro _; simp
  | succ N ih =>
    intro hN
    have := ih (by omega)
    rw [sum_range_succ, sum_range_succ]
    have e : |key (at0 y (N + 1)) - key (at0 y N)| + |key (at0 x (N + 1)) - key (at0 y (N + 1))| = |key (at0 x (N + 1)) - key (at0 y N)| := by
      rcases h3 N hN with ⟨u, v⟩ | ⟨u, v⟩
      · rw [abs_of_nonneg (by linarith), abs_of_nonneg (by linarith), abs_of_nonneg (by linarith)]; ring
      · rw [abs_of_nonpos (by linarith), abs_of_nonpos (by linarith), abs_of_nonpos (by linarith)]; ring
    have t := abs_sub_le (key (at0 x (N + 1))) (key (at0 x N)) (key (at0 y N))
    linarith

/-- The median of three. -/
example := C156_variation argsortRef argsortRef_isArgsort (fun v : ℝ => |v|) 1 2 (by decide) [0, 3, -5] rfl [5, -1, 3, 4] (by simp)

/-- C156.  After a reset to the first sample the output varies no more than the signal. -/
theorem C156_reset [Zero R] (argsort : List ℝ → List ℕ) (ha : IsArgsort argsort) (key : R → ℝ) (index order : ℕ) (hio : index ≤ order) (s : List R) (hs : s.length = order + 1)
    (c : R) (x : List R) :
    ∃ f y g, Rank.reset ⟨s, index⟩ (.scalar c) = (.ok (), f) ∧ Rank.filter argsort key f (c :: x) = (.ok y, g) ∧ y.length = x.length + 1 ∧ ∀ N ≤ x.length,
      ∑ n ∈ range N, |key (at0 y (n + 1)) - key (at0 y n)| ≤ ∑ n ∈ range N, |key (at0 (c :: x) (n + 1)) - key (at0 (c :: x) n)| := by
  obtain ⟨y, g, h1, h2, h3⟩ := C156_variation argsort ha key index order hio (s.map fun _ => c) (by simpa using hs) (c :: x) (by simp)
  obtain ⟨y', g', k1, -, k3⟩ := rank_outputs argsort ha key index order hio (s.map fun _ => c) (by simpa using hs) (c :: x) (by simp)
  rw [h1] at k1; cases k1
  have hy : at0 y 0 = c := by
    have hm := (k3 0 (by simp)).1
    unfold lookback at hm
    obtain ⟨i, hi, e⟩ := List.mem_map.mp hm
    have hi : i < s.length := by rw [hs]; exact List.mem_range.mp hi
    rw [← e]
    split
    · rename_i h
      have : i = 0 := by omega
      simp [this, at0]
    · simp [at0, hi]
  refine ⟨_, y, g, rfl, h1, by simpa using h2, fun N hN => ?_⟩
  have := h3 N (by simp; omega)
  rw [hy] at this
  have e : |key (at0 (c :: x) 0) - key c| = 0 := by simp [at0]
  rw [e] at this
  have := abs_nonneg (key (at0 (c :: x) N) - key (at0 y N))
  linarith

/-- The median of three. -/
example := C156_reset argsortRef argsortRef_isArgsort (fun v : ℝ => |v|) 1 2 (by decide) [0, 3, -5] rfl 7 [5, -1, 3, 4]

/-- C156.  Changes of the signal and the state by at most `ε` in magnitude change the output by at most `ε`. -/
theorem C156_nonexpansive [Zero R] (argsort argsort' : List ℝ → List ℕ) (ha : IsArgsort argsort) (ha' : IsArgsort argsort') (key : R → ℝ) (index order : ℕ) (hio : index ≤ order) (ε : ℝ)
    (s s' : List R) (hs : s.length = order + 1) (hs' : s'.length = order + 1) (hss : ∀ i ≤ order, |key (at0 s i) - key (at0 s' i)| ≤ ε)
    (x x' : List R) (hx : x ≠ []) (hxl : x.length = x'.length) (hxx : ∀ i < x.length, |key (at0 x i) - key (at0 x' i)| ≤ ε) :
    ∃ y y' g g', Rank.filter argsort key ⟨s, index⟩ x = (.ok y, g) ∧ Rank.filter argsort' key ⟨s', index⟩ x' = (.ok y', g') ∧
      y.length = x.length ∧ y'.length = x.length ∧ ∀ n < x.length, |key (at0 y n) - key (at0 y' n)| ≤ ε := by
  have hx' : x' ≠ [] := by intro q; rw [q] at hxl; exact hx (List.length_eq_zero_iff.mp hxl)
  obtain ⟨y, g, a1, a2, a3⟩ := rank_outputs argsort ha key index order hio s hs x hx
  obtain ⟨y', g', b1, b2, b3⟩ := rank_outputs argsort' ha' key index order hio s' hs' x' hx'
  refine ⟨y, y', g, g', a1, b1, a2, by omega, fun n hn => ?_⟩
  have hw : ∀ i < order + 1, |key (if i ≤ n then at0 x (n - i) else at0 s (i - n)) - key (if i ≤ n then at0 x' (n - i) else at0 s' (i - n))| ≤ ε := by
    intro i hi
    by_cases h : i ≤ n
    · rw [if_pos h, if_pos h]; exact hxx _ (by omega)
    · rw [if_neg h, if_neg h]; exact hss _ (by omega)
  have r1 := a3 n hn
  have r2 := b3 n (by omega)
  rw [abs_le]
  constructor
  · have := rank_shift key (order + 1) _ _ ε (fun i hi => by have := abs_le.mp (hw i hi); linarith) index _ _ r2 r1
    linarith
  · have := rank_shift key (order + 1) _ _ ε (fun i hi => by have := abs_le.mp (hw i hi); linarith) index _ _ r1 r2
    linarith

/-- Two signals which differ by one. -/
example := C156_nonexpansive argsortRef argsortRef argsortRef_isArgsort argsortRef_isArgsort (id : ℝ → ℝ) 1 2 (by decide) 1 [0, 0, 0] [0, 0, 0] rfl rfl (by simp) [5, 1, 3] [4, 1, 4] (by simp) rfl
  (fun i hi => match i, hi with
  | 0, _ => by norm_num [at0]
  | 1, _ => by norm_num [at0]
  | 2, _ => by norm_num [at0])

/-- C156.  From `order` on, the output steps by no more than the largest step of the magnitudes within its window. -/
theorem C156_steps [Zero R] (argsort : List ℝ → List ℕ) (ha : IsArgsort argsort) (key : R → ℝ) (index order : ℕ) (hio : index ≤ order)
    (s : List R) (hs : s.length = order + 1) (x : List R) (hx : x ≠ []) :
    ∃ y g, Rank.filter argsort key ⟨s, index⟩ x = (.ok y, g) ∧ y.length = x.length ∧ ∀ n, order ≤ n → n + 1 < x.length → ∀ ε,
      (∀ i ≤ order, |key (at0 x (n + 1 - i)) - key (at0 x (n - i))| ≤ ε) → |key (at0 y (n + 1)) - key (at0 y n)| ≤ ε := by
  obtain ⟨y, g, a1, a2, a3⟩ := rank_outputs argsort ha key index order hio s hs x hx
  refine ⟨y, g, a1, a2, fun n hon hn ε hε => ?_⟩
  have hw : ∀ i < order + 1, |key (if i ≤ n + 1 then at0 x (n + 1 - i) else at0 s (i - (n + 1))) - key (if i ≤ n then at0 x (n - i) else at0 s (i - n))| ≤ ε := by
    intro i hi
    rw [if_pos (by omega), if_pos (by omega)]
    exact hε i (by omega)
  have r1 := a3 (n + 1) hn
  have r2 := a3 n (by omega)
  rw [abs_le]
  constructor
  · have := rank_shift key (order + 1) _ _ ε (fun i hi => by have := abs_le.mp (hw i hi); linarith) index _ _ r2 r1
    linarith
  · have := rank_shift key (order + 1) _ _ ε (fun i hi => by have := abs_le.mp (hw i hi); linarith) index _ _ r1 r2
    linarith

/-- A median of three after a reset to one: the variation of [1, 7, 2, 9, 8] is 19, that of the output 7. -/
example : (Rank.filter argsortRef (fun v : ℤ => |v|) ⟨[1, 1, 1], 1⟩ [1, 7, 2, 9, 8]).1 = .ok [1, 1, 2, 7, 8] := by decide +kernel

end Verif.Props
