import Verif.Props.Rank

/-
Order properties of RankFilter (C75): monotone in signal, state and index; robust against outliers; commutes with increasing maps of the
magnitude.  `key` is the magnitude; among equal magnitudes any `argsort` may choose any sample, so the claims are about magnitudes.
-/

namespace Verif.Props

open Spec

variable {R K : Type*}

theorem countP_le_of_pointwise {α : Type*} (n : ℕ) (g h : ℕ → α) (p q : α → Bool) (H : ∀ i < n, p (g i) = true → q (h i) = true) :
    ((List.range n).map g).countP p ≤ ((List.range n).map h).countP q := by
  rw [List.countP_map, List.countP_map]
  apply List.countP_mono_left
  intro i hi
  exact H i (List.mem_range.mp hi)

/-- Ranks of pointwise ordered windows are ordered. -/
theorem rank_mono [LinearOrder K] (key : R → K) (n : ℕ) (g h : ℕ → R) (H : ∀ i < n, key (g i) ≤ key (h i)) (i j : ℕ) (hij : i ≤ j) (y z : R)
    (hy : IsRank key ((List.range n).map g) i y) (hz : IsRank key ((List.range n).map h) j z) : key y ≤ key z := by
  by_contra hlt
  rw [not_le] at hlt
  have h1 := hy.2.1
  have h2 := hz.2.2
  have := countP_le_of_pointwise n h g (fun w => decide (key w ≤ key z)) (fun w => decide (key w < key y)) (by
    intro k hk hp
    have hp : key (h k) ≤ key z := by simpa using hp
    simpa using lt_of_le_of_lt ((H k hk).trans hp) hlt)
  omega

/-- C75.  Monotone: for signals and states ordered by magnitude, and indices ordered, the outputs are ordered by magnitude.  With equal
arguments: the magnitude of the output does not depend on how `argsort` breaks ties. -/
theorem C75_monotone [LinearOrder K] [Zero R] (argsort argsort' : List K → List ℕ) (ha : IsArgsort argsort) (ha' : IsArgsort argsort')
    (key : R → K) (index index' order : ℕ) (hii : index ≤ index') (hio : index' ≤ order) (s s' : List R) (hs : s.length = order + 1)
    (hs' : s'.length = order + 1) (hss : ∀ i ≤ order, key (at0 s i) ≤ key (at0 s' i)) (x x' : List R) (hx : x ≠ []) (hxl : x.length = x'.length)
    (hxx : ∀ i < x.length, key (at0 x i) ≤ key (at0 x' i)) :
    ∃ y y' g g', Rank.filter argsort key ⟨s, index⟩ x = (.ok y, g) ∧ Rank.filter argsort' key ⟨s', index'⟩ x' = (.ok y', g') ∧
      y.length = x.length ∧ y'.length = x.length ∧ ∀ n < x.length, key (at0 y n) ≤ key (at0 y' n) := by
  have hx' : x' ≠ [] := by intro q; rw [q] at hxl; exact hx (List.length_eq_zero_iff.mp hxl)
  have key1 : ∀ (argsort : List K → List ℕ), IsArgsort argsort → ∀ index ≤ order, ∀ s x : List R, s.length = order + 1 → x ≠ [] →
      ∃ y g, Rank.filter argsort key ⟨s, index⟩ x = (.ok y, g) ∧ y.length = x.length ∧ ∀ n < x.length, IsRank key (lookback order s x n) index (at0 y n) := by
    intro argsort ha index hi s x hs hx
    obtain ⟨f, hf, y, g, h1, h2, h3⟩ := C16_rank_order_statistic argsort ha key index order hi s hs x hx
    rw [(C18_rank_constructor _ _).1 ⟨by simp, by simpa using hi⟩] at hf
    cases hf
    refine ⟨y, g, h1, h2, fun n hn => ?_⟩
    obtain ⟨v, hv1, hv2⟩ := h3 n hn
    have : at0 y n = v := by simp [at0, List.getD, hv1]
    rw [this]; exact hv2
  obtain ⟨y, g, a1, a2, a3⟩ := key1 argsort ha index (by omega) s x hs hx
  obtain ⟨y', g', b1, b2, b3⟩ := key1 argsort' ha' index' hio s' x' hs' hx'
  refine ⟨y, y', g, g', a1, b1, a2, by omega, fun n hn => ?_⟩
  refine rank_mono key (order + 1) _ _ ?_ index index' hii _ _ (a3 n hn) (b3 n (by omega))
  intro i hi
  by_cases h : i ≤ n
  · rw [if_pos h, if_pos h]; exact hxx _ (by omega)
  · rw [if_neg h, if_neg h]; exact hss _ (by omega)

/-- Two signals ordered by magnitude. -/
example : (Rank.filter argsortRef (fun v : ℤ => |v|) ⟨[0, 0, 0], 1⟩ [5, -1, 3]).1 = .ok [0, -1, 3] ∧
    (Rank.filter argsortRef (fun v : ℤ => |v|) ⟨[0, 0, 0], 1⟩ [-6, 2, 3]).1 = .ok [0, 2, 3] := by
  constructor <;> decide +kernel

/-- C75.  Outliers: if all but at most `m` samples of the window have magnitudes in `[lo, hi]`, and `m` is at most `index` and at most
`order - index`, then so has the output.  For a median this is just under half of the window. -/
theorem C75_outliers [LinearOrder K] [Zero R] (argsort : List K → List ℕ) (ha : IsArgsort argsort) (key : R → K) (index order m : ℕ)
    (hm : m ≤ index) (hmo : m + index ≤ order) (s : List R) (hs : s.length = order + 1) (x : List R) (hx : x ≠ []) (lo hi : K) :
    ∃ y g, Rank.filter argsort key ⟨s, index⟩ x = (.ok y, g) ∧ y.length = x.length ∧ ∀ n < x.length,
      (lookback order s x n).countP (fun v => ¬ (lo ≤ key v ∧ key v ≤ hi)) ≤ m → lo ≤ key (at0 y n) ∧ key (at0 y n) ≤ hi := by
  obtain ⟨f, hf, y, g, h1, h2, h3⟩ := C16_rank_order_statistic argsort ha key index order (by omega) s hs x hx
  rw [(C18_rank_constructor _ _).1 ⟨by simp, by omega⟩] at hf
  cases hf
  refine ⟨y, g, h1, h2, fun n hn hc => ?_⟩
  obtain ⟨v, hv1, hv2⟩ := h3 n hn
  have : at0 y n = v := by simp [at0, List.getD, hv1]
  rw [this]
  set w := lookback order s x n with hw
  have hwl : w.length = order + 1 := by simp [hw, lookback]
  obtain ⟨-, c1, c2⟩ := hv2
  constructor
  · by_contra hlt
    rw [not_le] at hlt
    have : w.countP (fun u => decide (key u ≤ key v)) ≤ w.countP (fun u => decide ¬ (lo ≤ key u ∧ key u ≤ hi)) := by
      apply List.countP_mono_left
      intro u _ hu
      have hu : key u ≤ key v := by simpa using hu
      simp only [decide_eq_true_eq]
      intro q
      exact absurd (q.1.trans hu) (not_le.mpr hlt)
    omega
  · by_contra hlt
    rw [not_le] at hlt
    have e := List.length_eq_countP_add_countP (fun u => decide ¬ (lo ≤ key u ∧ key u ≤ hi)) (l := w)
    have : w.countP (fun u => ! decide ¬ (lo ≤ key u ∧ key u ≤ hi)) ≤ w.countP (fun u => decide (key u < key v)) := by
      apply List.countP_mono_left
      intro u _ hu
      have hu : lo ≤ key u ∧ key u ≤ hi := by simpa using hu
      simpa using lt_of_le_of_lt hu.2 hlt
    have e' : w.countP (fun a => decide ¬ (decide ¬ (lo ≤ key a ∧ key a ≤ hi)) = true) = w.countP (fun u => ! decide ¬ (lo ≤ key u ∧ key u ≤ hi)) := by
      congr 1
      funext u
      by_cases q : (lo ≤ key u ∧ key u ≤ hi) <;> simp [q]
    rw [e'] at e
    omega

/-- A median of three removes one outlier. -/
example : (Rank.filter argsortRef (fun v : ℤ => |v|) ⟨[4, 4, 4], 1⟩ [4, 100, 5, 0, 4]).1 = .ok [4, 4, 5, 5, 4] := by
  decide +kernel

/-- C75.  The filter commutes with every map of the samples which acts on magnitudes by a strictly increasing function. -/
theorem C75_increasing_map [LinearOrder K] [Zero R] (argsort argsort' : List K → List ℕ) (ha : IsArgsort argsort) (ha' : IsArgsort argsort')
    (key : R → K) (ψ : R → R) (φ : K → K) (hφ : StrictMono φ) (hψ : ∀ v, key (ψ v) = φ (key v)) (index order : ℕ) (hio : index ≤ order)
    (s : List R) (hs : s.length = order + 1) (x : List R) (hx : x ≠ []) :
    ∃ y y' g g', Rank.filter argsort key ⟨s, index⟩ x = (.ok y, g) ∧ Rank.filter argsort' key ⟨s.map ψ, index⟩ (x.map ψ) = (.ok y', g') ∧
      y.length = x.length ∧ y'.length = x.length ∧ ∀ n < x.length, key (at0 y' n) = φ (key (at0 y n)) := by
  obtain ⟨f, hf, y, g, h1, h2, h3⟩ := C16_rank_order_statistic argsort ha key index order hio s hs x hx
  rw [(C18_rank_constructor _ _).1 ⟨by simp, by simpa using hio⟩] at hf
  cases hf
  obtain ⟨f', hf', y', g', k1, k2, k3⟩ := C16_rank_order_statistic argsort' ha' key index order hio (s.map ψ) (by simpa using hs) (x.map ψ) (by simpa using hx)
  rw [(C18_rank_constructor _ _).1 ⟨by simp, by simpa using hio⟩] at hf'
  cases hf'
  refine ⟨y, y', g, g', h1, k1, h2, by simpa using k2, fun n hn => ?_⟩
  obtain ⟨v, hv1, hv2⟩ := h3 n hn
  obtain ⟨v', hv1', hv2'⟩ := k3 n (by simpa using hn)
  have e1 : at0 y n = v := by simp [at0, List.getD, hv1]
  have e2 : at0 y' n = v' := by simp [at0, List.getD, hv1']
  rw [e1, e2]
  have hat : ∀ (l : List R) (i : ℕ), i < l.length → at0 (l.map ψ) i = ψ (at0 l i) := by
    intro l i hi
    simp [at0, List.getD, List.getElem?_eq_getElem hi]
  have hw : lookback order (s.map ψ) (x.map ψ) n = (lookback order s x n).map ψ := by
    unfold lookback
    rw [List.map_map]
    apply List.map_congr_left
    intro i hi
    have hi := List.mem_range.mp hi
    simp only [Function.comp]
    by_cases h : i ≤ n
    · rw [if_pos h, if_pos h, hat _ _ (by omega)]
    · rw [if_neg h, if_neg h, hat _ _ (by omega)]
  have hr : IsRank key (lookback order (s.map ψ) (x.map ψ) n) index (ψ v) := by
    rw [hw]
    refine ⟨List.mem_map_of_mem hv2.1, ?_, ?_⟩
    · rw [List.countP_map]
      have : ((fun w => decide (key w < key (ψ v))) ∘ ψ) = fun w => decide (key w < key v) := by
        funext w; simp [hψ, hφ.lt_iff_lt]
      rw [this]; exact hv2.2.1
    · rw [List.countP_map]
      have : ((fun w => decide (key w ≤ key (ψ v))) ∘ ψ) = fun w => decide (key w ≤ key v) := by
        funext w; simp [hψ, hφ.le_iff_le]
      rw [this]; exact hv2.2.2
  rw [← hψ]
  unfold lookback at hr hv2'
  exact le_antisymm (rank_mono key (order + 1) _ _ (fun _ _ => le_rfl) index index le_rfl _ _ hv2' hr)
    (rank_mono key (order + 1) _ _ (fun _ _ => le_rfl) index index le_rfl _ _ hr hv2')

/-- Doubling acts on magnitudes by doubling. -/
example : StrictMono (fun k : ℤ => 2 * k) ∧ ∀ v : ℤ, |2 * v| = 2 * |v| :=
  ⟨fun a b h => by simpa using h, fun v => by rw [abs_mul]; rfl⟩

end Verif.Props
