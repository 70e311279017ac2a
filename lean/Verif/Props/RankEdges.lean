import Verif.Props.RankOrder

/-
Property C105: RankFilter (diamondback/filters/rank_filter.py) delays monotone stretches.  `key` is the magnitude; among equal magnitudes `argsort` may choose any sample,
so the claims are about magnitudes.
-/

namespace Verif.Props

open Spec

variable {R K : Type*}

theorem countP_from (a N : ℕ) : (List.range N).countP (fun j => decide (a ≤ j)) = N - a := by
  induction N with
  | zero => simp
  | succ N ih =>
    rw [List.range_succ, List.countP_append, ih]
    by_cases h : a ≤ N
    · simp [h]; omega
    · simp [h]; omega

theorem countP_below (a N : ℕ) (h : a ≤ N) : (List.range N).countP (fun j => decide (j < a)) = a := by
  induction N with
  | zero => simp; omega
  | succ N ih =>
    rw [List.range_succ, List.countP_append]
    rcases Nat.lt_or_ge N a with q | q
    · have : a = N + 1 := by omega
      subst this
      have e : (List.range N).countP (fun j => decide (j < N + 1)) = N := by
        rw [List.countP_eq_length.mpr]
        · simp
        · intro j hj
          have := List.mem_range.mp hj
          simp; omega
      rw [e]; simp
    · rw [ih q]; simp; omega

/-- The element of rank `i` of a window that is nonincreasing in age. -/
theorem rank_antitone [LinearOrder K] (key : R → K) (N i : ℕ) (hi : i ≤ N) (w : ℕ → R) (hw : ∀ a b, a ≤ b → b ≤ N → key (w b) ≤ key (w a)) (y : R)
    (hy : IsRank key ((List.range (N + 1)).map w) i y) : key y = key (w (N - i)) := by
  obtain ⟨-, h1, h2⟩ := hy
  rw [List.countP_map] at h1 h2
  rcases lt_trichotomy (key y) (key (w (N - i))) with h | h | h
  · exfalso
    have : (List.range (N + 1)).countP ((fun v => decide (key v ≤ key y)) ∘ w) ≤ (List.range (N + 1)).countP (fun j => decide (N - i + 1 ≤ j)) := by
      apply List.countP_mono_left
      intro j _ hj
      have hj : key (w j) ≤ key y := by simpa using hj
      simp only [decide_eq_true_eq]
      by_contra hc
      exact absurd (lt_of_lt_of_le h (hw j (N - i) (by omega) (by omega))) (not_lt.mpr hj)
    rw [countP_from] at this
    omega
  · exact h
  · exfalso
    have : (List.range (N + 1)).countP (fun j => decide (N - i ≤ j)) ≤ (List.range (N + 1)).countP ((fun v => decide (key v < key y)) ∘ w) := by
      apply List.countP_mono_left
      intro j hj hj'
      have hj := List.mem_range.mp hj
      have hj' : N - i ≤ j := by simpa using hj'
      simpa using lt_of_le_of_lt (hw (N - i) j hj' (by omega)) h
    rw [countP_from] at this
    omega

/-- The element of rank `i` of a window that is nondecreasing in age. -/
theorem rank_monotone [LinearOrder K] (key : R → K) (N i : ℕ) (hi : i ≤ N) (w : ℕ → R) (hw : ∀ a b, a ≤ b → b ≤ N → key (w a) ≤ key (w b)) (y : R)
    (hy : IsRank key ((List.range (N + 1)).map w) i y) : key y = key (w i) := by
  obtain ⟨-, h1, h2⟩ := hy
  rw [List.countP_map] at h1 h2
  rcases lt_trichotomy (key y) (key (w i)) with h | h | h
  · exfalso
    have : (List.range (N + 1)).countP ((fun v => decide (key v ≤ key y)) ∘ w) ≤ (List.range (N + 1)).countP (fun j => decide (j < i)) := by
      apply List.countP_mono_left
      intro j hj hj'
      have hj := List.mem_range.mp hj
      have hj' : key (w j) ≤ key y := by simpa using hj'
      simp only [decide_eq_true_eq]
      by_contra hc
      exact absurd (lt_of_lt_of_le h (hw i j (by omega) (by omega))) (not_lt.mpr hj')
    rw [countP_below _ _ (by omega)] at this
    omega
  · exact h
  · exfalso
    have : (List.range (N + 1)).countP (fun j => decide (j < i + 1)) ≤ (List.range (N + 1)).countP ((fun v => decide (key v < key y)) ∘ w) := by
      apply List.countP_mono_left
      intro j _ hj'
      have hj' : j < i + 1 := by simpa using hj'
      simpa using lt_of_le_of_lt (hw j i (by omega) hi) h
    rw [countP_below _ _ (by omega)] at this
    omega

/-- C105: where the magnitudes of the last `order + 1` samples do not decrease the output is of the magnitude of the sample `order - index` before, where they do not
increase it is of that of the sample `index` before. -/
theorem C105_monotone [LinearOrder K] [Zero R] (argsort : List K → List ℕ) (ha : IsArgsort argsort) (key : R → K) (index order : ℕ) (hio : index ≤ order)
    (s : List R) (hs : s.length = order + 1) (x : List R) (hx : x ≠ []) :
    ∃ y g, Rank.filter argsort key ⟨s, index⟩ x = (.ok y, g) ∧ y.length = x.length ∧ ∀ n, order ≤ n → n < x.length →
      ((∀ a b, n - order ≤ a → a ≤ b → b ≤ n → key (at0 x a) ≤ key (at0 x b)) → key (at0 y n) = key (at0 x (n - (order - index)))) ∧
      ((∀ a b, n - order ≤ a → a ≤ b → b ≤ n → key (at0 x b) ≤ key (at0 x a)) → key (at0 y n) = key (at0 x (n - index))) := by
  obtain ⟨f, hf, y, g, h1, h2, h3⟩ := C16_rank_order_statistic argsort ha key index order hio s hs x hx
  rw [(C18_rank_constructor _ _).1 ⟨by simp, by simpa using hio⟩] at hf
  cases hf
  refine ⟨y, g, h1, h2, fun n hon hn => ?_⟩
  obtain ⟨v, hv1, hv2⟩ := h3 n hn
  have e : at0 y n = v := by simp [at0, List.getD, hv1]
  rw [e]
  have hl : lookback order s x n = (List.range (order + 1)).map fun i => at0 x (n - i) := by
    apply List.map_congr_left
    intro i hi
    have := List.mem_range.mp hi
    rw [if_pos (by omega)]
  rw [hl] at hv2
  exact ⟨fun h => rank_antitone key order index hio _ (fun a b hab hb => h _ _ (by omega) (by omega) (by omega)) v hv2,
    fun h => rank_monotone key order index hio _ (fun a b hab hb => h _ _ (by omega) (by omega) (by omega)) v hv2⟩

/-- The median of three. -/
example := C105_monotone argsortRef argsortRef_isArgsort (fun v : ℤ => |v|) 1 2 (by decide) [0, 3, -5] rfl [5, -1, 3, 4] (by simp)

/-- C105: a median filter, `order = 2 index`, delays by `index` every signal of which each stretch of `order + 1` samples is of monotone magnitude: edges are kept. -/
theorem C105_median [LinearOrder K] [Zero R] (argsort : List K → List ℕ) (ha : IsArgsort argsort) (key : R → K) (index : ℕ)
    (s : List R) (hs : s.length = 2 * index + 1) (x : List R) (hx : x ≠ [])
    (h : ∀ n, 2 * index ≤ n → n < x.length → (∀ a b, n - 2 * index ≤ a → a ≤ b → b ≤ n → key (at0 x a) ≤ key (at0 x b)) ∨ (∀ a b, n - 2 * index ≤ a → a ≤ b → b ≤ n → key (at0 x b) ≤ key (at0 x a))) :
    ∃ y g, Rank.filter argsort key ⟨s, index⟩ x = (.ok y, g) ∧ y.length = x.length ∧ ∀ n, 2 * index ≤ n → n < x.length → key (at0 y n) = key (at0 x (n - index)) := by
  obtain ⟨y, g, h1, h2, h3⟩ := C105_monotone argsort ha key index (2 * index) (by omega) s hs x hx
  refine ⟨y, g, h1, h2, fun n hn hn' => ?_⟩
  rcases h n hn hn' with q | q
  · have := (h3 n hn hn').1 q
    rwa [show 2 * index - index = index by omega] at this
  · exact (h3 n hn hn').2 q

/-- An edge of height 5 through a median of five, and a decreasing signal through rank 1 of four. -/
example : (Rank.filter argsortRef (fun v : ℤ => |v|) ⟨[0, 0, 0, 0, 0], 2⟩ [0, 0, 0, 0, 5, 5, 5, 5, 5]).1 = .ok [0, 0, 0, 0, 0, 0, 5, 5, 5] ∧
    (Rank.filter argsortRef (fun v : ℤ => |v|) ⟨[0, 0, 0, 0], 1⟩ [9, -8, 7, 6, 5, -4]).1 = .ok [0, 0, 7, 7, 6, 5] := by
  constructor <;> decide +kernel

end Verif.Props
