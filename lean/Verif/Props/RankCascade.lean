import Verif.Props.Rank
import Verif.Props.RankRounding

/-
Property C164 of RankFilter (diamondback/filters/rank_filter.py): rank filters one after another, and the median between opening and closing.
-/

namespace Verif.Props

open Spec

section Lattice

variable {R : Type*} [LinearOrder R]

theorem erode_erode (p q : ℕ) (x : ℤ → R) (n : ℤ) : erode q (erode p x) n = erode (p + q) x n := by
  apply le_antisymm
  · apply le_erode
    intro i hi
    rcases le_total i p with h | h
    · have h1 := erode_le q (erode p x) n 0 (by omega)
      have h2 := erode_le p x n i h
      simp only [Nat.cast_zero, sub_zero] at h1
      exact h1.trans h2
    · have h1 := erode_le q (erode p x) n (i - p) (by omega)
      have h2 := erode_le p x (n - ((i - p : ℕ) : ℤ)) p le_rfl
      rw [show n - ((i - p : ℕ) : ℤ) - (p : ℤ) = n - i by omega] at h2
      exact h1.trans h2
  · apply le_erode
    intro j hj
    apply le_erode
    intro i hi
    have := erode_le (p + q) x n (j + i) (by omega)
    rwa [show n - ((j + i : ℕ) : ℤ) = n - j - i by push_cast; ring] at this

theorem dilate_dilate (p q : ℕ) (x : ℤ → R) (n : ℤ) : dilate q (dilate p x) n = dilate (p + q) x n := by
  apply le_antisymm
  · apply dilate_le
    intro j hj
    apply dilate_le
    intro i hi
    have := le_dilate (p + q) x n (j + i) (by omega)
    rwa [show n - ((j + i : ℕ) : ℤ) = n - j - i by push_cast; ring] at this
  · apply dilate_le
    intro i hi
    rcases le_total i p with h | h
    · have h1 := le_dilate q (dilate p x) n 0 (by omega)
      have h2 := le_dilate p x n i h
      simp only [Nat.cast_zero, sub_zero] at h1
      exact h2.trans h1
    · have h1 := le_dilate q (dilate p x) n (i - p) (by omega)
      have h2 := le_dilate p x (n - ((i - p : ℕ) : ℤ)) p le_rfl
      rw [show n - ((i - p : ℕ) : ℤ) - (p : ℤ) = n - i by omega] at h2
      exact h2.trans h1

/-- Eroding what has been opened by a smaller window is eroding the signal, late by the smaller window. -/
theorem erode_open (p q : ℕ) (hpq : p ≤ q) (x : ℤ → R) (n : ℤ) : erode q (dilate p (erode p x)) n = erode q x (n - p) := by
  apply le_antisymm
  · apply le_erode
    intro i hi
    have h1 := erode_le q (dilate p (erode p x)) n i hi
    have h2 := open_le p x (n - i)
    rw [show n - (i : ℤ) - p = n - p - i by ring] at h2
    exact h1.trans h2
  · apply le_erode
    intro i hi
    -- a window of the smaller filter which contains the sample and lies within the larger window
    rcases le_total i (q - p) with h | h
    · refine le_trans ?_ (le_dilate p (erode p x) (n - i) p le_rfl)
      apply le_erode
      intro j hj
      have := erode_le q x (n - p) (i + j) (by omega)
      rwa [show n - (p : ℤ) - ((i + j : ℕ) : ℤ) = n - i - p - j by push_cast; ring] at this
    · refine le_trans ?_ (le_dilate p (erode p x) (n - i) (q - i) (by omega))
      apply le_erode
      intro j hj
      have := erode_le q x (n - p) (q - p + j) (by omega)
      rwa [show n - (p : ℤ) - ((q - p + j : ℕ) : ℤ) = n - i - ((q - i : ℕ) : ℤ) - j by push_cast [Nat.cast_sub hpq, Nat.cast_sub hi]; ring] at this

end Lattice

section Run

variable {R : Type*} [AddCommGroup R] [LinearOrder R] [IsOrderedAddMonoid R]

omit [LinearOrder R] [IsOrderedAddMonoid R] in
theorem ext_twoSided (p q : List R) (hl : p.length = q.length) (h : ∀ n : ℤ, n < p.length → twoSided p n = twoSided q n) : p = q := by
  apply List.ext_getElem hl
  intro n h1 h2
  have := h n (by exact_mod_cast h1)
  rw [twoSided_natCast, twoSided_natCast] at this
  rwa [at0_of_lt p n h1, at0_of_lt q n h2] at this

/-- C164.  Two minimum filters one after another are one minimum filter, of the sum of their orders; and so are two maximum filters. -/
theorem C164_cascade (argsort : List R → List ℕ) (ha : IsArgsort argsort) (p q : ℕ) (x : List R) (hx : x ≠ []) (hpos : ∀ v ∈ x, 0 ≤ v) :
    (∃ e y, rankRun argsort 0 p x = .ok e ∧ rankRun argsort 0 q e = .ok y ∧ rankRun argsort 0 (p + q) x = .ok y) ∧
    ∃ d y, rankRun argsort p p x = .ok d ∧ rankRun argsort q q d = .ok y ∧ rankRun argsort (p + q) (p + q) x = .ok y := by
  constructor
  · obtain ⟨e, h1, l1, p1, v1⟩ := rankRun_erode argsort ha p x hx hpos
    obtain ⟨y, h2, l2, _, v2⟩ := rankRun_erode argsort ha q e (ne_nil_of_length_eq x e l1 hx) p1
    obtain ⟨z, h3, l3, _, v3⟩ := rankRun_erode argsort ha (p + q) x hx hpos
    refine ⟨e, y, h1, h2, ?_⟩
    rw [h3]
    congr 1
    apply ext_twoSided z y (by omega)
    intro n hn
    rw [l3] at hn
    rw [v3 n hn, v2 n (by omega), erode_congr q _ _ _ v1 n hn, erode_erode]
  · obtain ⟨e, h1, l1, p1, v1⟩ := rankRun_dilate argsort ha p x hx hpos
    obtain ⟨y, h2, l2, _, v2⟩ := rankRun_dilate argsort ha q e (ne_nil_of_length_eq x e l1 hx) p1
    obtain ⟨z, h3, l3, _, v3⟩ := rankRun_dilate argsort ha (p + q) x hx hpos
    refine ⟨e, y, h1, h2, ?_⟩
    rw [h3]
    congr 1
    apply ext_twoSided z y (by omega)
    intro n hn
    rw [l3] at hn
    rw [v3 n hn, v2 n (by omega), dilate_congr q _ _ _ v1 n hn, dilate_dilate]

/-- Three samples and then two. -/
example := C164_cascade argsortRef argsortRef_isArgsort 2 1 [(1 : ℤ), 1, 9, 1, 1, 5, 5, 5] (by simp) (by decide)

/-- The results of `k` fresh rank filters one after another. -/
def rankRepeat (argsort : List R → List ℕ) (index order : ℕ) : ℕ → List R → Res (List R)
  | 0, x => .ok x
  | k + 1, x => match rankRepeat argsort index order k x with
    | .error e => .error e
    | .ok y => rankRun argsort index order y

/-- C164.  Any number of equal minimum filters one after another are one minimum filter. -/
theorem C164_repeat (argsort : List R → List ℕ) (ha : IsArgsort argsort) (p : ℕ) (x : List R) (hx : x ≠ []) (hpos : ∀ v ∈ x, 0 ≤ v) (k : ℕ) :
    rankRepeat argsort 0 p k x = rankRun argsort 0 (k * p) x ∧ rankRepeat argsort p p k x = rankRun argsort (k * p) (k * p) x := by
  have hid : ∀ y : List R, (∀ n : ℤ, n < x.length → twoSided y n = twoSided x n) → y.length = x.length → y = x :=
    fun y h hl => ext_twoSided y x hl (by rw [hl]; exact h)
  induction k with
  | zero =>
    constructor
    · obtain ⟨e, h1, l1, _, v1⟩ := rankRun_erode argsort ha 0 x hx hpos
      rw [Nat.zero_mul, h1, hid e (fun n hn => by rw [v1 n hn]; simp [erode]) l1]; rfl
    · obtain ⟨e, h1, l1, _, v1⟩ := rankRun_dilate argsort ha 0 x hx hpos
      rw [Nat.zero_mul, h1, hid e (fun n hn => by rw [v1 n hn]; simp [dilate]) l1]; rfl
  | succ k ih =>
    obtain ⟨⟨e, y, h1, h2, h3⟩, d, z, g1, g2, g3⟩ := C164_cascade argsort ha (k * p) p x hx hpos
    rw [Nat.succ_mul]
    constructor
    · rw [h3, rankRepeat, ih.1, h1]; exact h2
    · rw [g3, rankRepeat, ih.2, g1]; exact g2

/-- Four times. -/
example := C164_repeat argsortRef argsortRef_isArgsort 2 [(1 : ℤ), 1, 9, 1, 1, 5, 5, 5] (by simp) (by decide) 4

/-- C164.  Opening by a smaller window first changes nothing in the opening by a larger one, except that it comes later by the order of the smaller. -/
theorem C164_sieve (argsort : List R → List ℕ) (ha : IsArgsort argsort) (p q : ℕ) (hpq : p ≤ q) (x : List R) (hx : x ≠ []) (hpos : ∀ v ∈ x, 0 ≤ v) :
    ∃ e o e' o' e'' o'', rankRun argsort 0 p x = .ok e ∧ rankRun argsort p p e = .ok o ∧ rankRun argsort 0 q o = .ok e' ∧ rankRun argsort q q e' = .ok o' ∧
      rankRun argsort 0 q x = .ok e'' ∧ rankRun argsort q q e'' = .ok o'' ∧ ∀ n : ℤ, n < x.length → twoSided o' n = twoSided o'' (n - p) := by
  obtain ⟨e, h1, l1, p1, v1⟩ := rankRun_erode argsort ha p x hx hpos
  obtain ⟨o, h2, l2, p2, v2⟩ := rankRun_dilate argsort ha p e (ne_nil_of_length_eq x e l1 hx) p1
  have l2' : o.length = x.length := l2.trans l1
  obtain ⟨e', h3, l3, p3, v3⟩ := rankRun_erode argsort ha q o (ne_nil_of_length_eq x o l2' hx) p2
  have l3' : e'.length = x.length := l3.trans l2'
  obtain ⟨o', h4, l4, p4, v4⟩ := rankRun_dilate argsort ha q e' (ne_nil_of_length_eq x e' l3' hx) p3
  obtain ⟨e'', h5, l5, p5, v5⟩ := rankRun_erode argsort ha q x hx hpos
  obtain ⟨o'', h6, l6, _, v6⟩ := rankRun_dilate argsort ha q e'' (ne_nil_of_length_eq x e'' l5 hx) p5
  rw [l1] at v2; rw [l2'] at v3; rw [l3'] at v4; rw [l5] at v6
  have a2 : ∀ n : ℤ, n < x.length → twoSided o n = dilate p (erode p (twoSided x)) n := fun n hn => by
    rw [v2 n hn]; exact dilate_congr p _ _ _ v1 n hn
  have a3 : ∀ n : ℤ, n < x.length → twoSided e' n = erode q (twoSided x) (n - p) := fun n hn => by
    rw [v3 n hn, erode_congr q _ _ _ a2 n hn, erode_open p q hpq]
  refine ⟨e, o, e', o', e'', o'', h1, h2, h3, h4, h5, h6, fun n hn => ?_⟩
  rw [v4 n hn, v6 (n - p) (by omega)]
  unfold dilate
  congr 1
  ext i
  rw [a3 _ (by omega), v5 _ (by omega)]
  congr 1
  ring

/-- Two samples and then three. -/
example := C164_sieve argsortRef argsortRef_isArgsort 1 2 (by decide) [(1 : ℤ), 1, 9, 1, 1, 5, 5, 5] (by simp) (by decide)

/-- C164.  The median of `2 k + 1` samples is between the opening and the closing of order `k`, sample by sample. -/
theorem C164_median (argsort : List R → List ℕ) (ha : IsArgsort argsort) (k : ℕ) (x : List R) (hx : x ≠ []) (hpos : ∀ v ∈ x, 0 ≤ v) :
    ∃ e o d c m, rankRun argsort 0 k x = .ok e ∧ rankRun argsort k k e = .ok o ∧ rankRun argsort k k x = .ok d ∧ rankRun argsort 0 k d = .ok c ∧
      rankRun argsort k (2 * k) x = .ok m ∧ m.length = x.length ∧ o.length = x.length ∧ c.length = x.length ∧
      ∀ n < x.length, at0 o n ≤ at0 m n ∧ at0 m n ≤ at0 c n := by
  obtain ⟨e, h1, l1, p1, v1⟩ := rankRun_erode argsort ha k x hx hpos
  obtain ⟨o, h2, l2, _, v2⟩ := rankRun_dilate argsort ha k e (ne_nil_of_length_eq x e l1 hx) p1
  obtain ⟨d, h3, l3, p3, v3⟩ := rankRun_dilate argsort ha k x hx hpos
  obtain ⟨c, h4, l4, _, v4⟩ := rankRun_erode argsort ha k d (ne_nil_of_length_eq x d l3 hx) p3
  obtain ⟨f, hf, m, f', g1, g2, g3⟩ := C16_rank_order_statistic argsort ha (fun v : R => |v|) k (2 * k) (by omega)
    (List.replicate (2 * k + 1) 0) (by simp) x hx
  have hfs : f.s = List.replicate (2 * k + 1) 0 := by
    rw [(C18_rank_constructor _ _).1 ⟨by simp, by push_cast; omega⟩] at hf
    cases hf; simp only; congr 1
  have hrun : rankRun argsort k (2 * k) x = .ok m := by
    unfold rankRun
    rw [hf]
    rw [← hfs] at g1
    have g1' : f.filter argsort (fun v => |v|) x = (.ok m, f') := g1
    simp only [g1']
  refine ⟨e, o, d, c, m, h1, h2, h3, h4, hrun, g2, l2.trans l1, l4.trans l3, fun n hn => ?_⟩
  obtain ⟨v, hv1, hv2⟩ := g3 n hn
  have hmv : at0 m n = v := by simp [at0, List.getD, hv1]
  have hlb : lookback (2 * k) (List.replicate (2 * k + 1) 0) x n = (List.range (2 * k + 1)).map fun i => twoSided x ((n : ℤ) - (i : ℕ)) := by
    unfold lookback
    apply List.map_congr_left
    intro i _
    by_cases h : i ≤ n
    · rw [if_pos h, show (n : ℤ) - i = ((n - i : ℕ) : ℤ) by omega, twoSided_natCast]
    · rw [if_neg h]
      have : (n : ℤ) - i < 0 := by omega
      simp only [twoSided, this, if_true, at0, List.getD, List.getElem?_replicate]
      split <;> rfl
  rw [hlb] at hv2
  obtain ⟨hm, hlt, hle⟩ := hv2
  have hv0 : 0 ≤ v := by
    obtain ⟨i, _, rfl⟩ := List.mem_map.mp hm
    exact twoSided_nonneg x hpos _
  have habs : ∀ i : ℕ, |twoSided x ((n : ℤ) - i)| = twoSided x ((n : ℤ) - i) := fun i => abs_of_nonneg (twoSided_nonneg x hpos _)
  rw [List.countP_map] at hlt hle
  -- of the samples of the window at least k + 1 have what holds in a window of order k
  have hcount : ∀ (P : ℕ → Bool) (j : ℕ), j ≤ k → (∀ i ≤ k, P (j + i) = true) → k + 1 ≤ (List.range (2 * k + 1)).countP P := by
    intro P j hj hP
    rw [countP_range_card]
    calc k + 1 = (Finset.Ico j (j + k + 1)).card := by simp; omega
      _ ≤ _ := Finset.card_le_card fun i hi => by
        have := Finset.mem_Ico.mp hi
        rw [Finset.mem_filter, Finset.mem_range]
        refine ⟨by omega, ?_⟩
        have h := hP (i - j) (by omega)
        rwa [show j + (i - j) = i by omega] at h
  rw [hmv]
  constructor
  · rw [← twoSided_natCast, v2 n (by omega)]
    apply dilate_le
    intro j hj
    rw [v1 _ (by omega)]
    by_contra hlt'
    rw [not_le] at hlt'
    have h1 := hcount (fun i => decide (v < twoSided x ((n : ℤ) - i))) j hj fun i hi => by
      rw [decide_eq_true_eq]
      have := erode_le k (twoSided x) ((n : ℤ) - j) i hi
      rw [show (n : ℤ) - j - i = (n : ℤ) - ((j + i : ℕ) : ℤ) by push_cast; ring] at this
      exact lt_of_lt_of_le hlt' this
    have h2 := List.length_eq_countP_add_countP (fun i : ℕ => decide (v < twoSided x ((n : ℤ) - i))) (l := List.range (2 * k + 1))
    rw [List.length_range] at h2
    have h3 : (List.range (2 * k + 1)).countP ((fun w : R => decide (|w| ≤ |v|)) ∘ fun i : ℕ => twoSided x ((n : ℤ) - i)) =
        (List.range (2 * k + 1)).countP fun i : ℕ => ! decide (v < twoSided x ((n : ℤ) - i)) := by
      apply List.countP_congr
      intro i _
      simp [habs, abs_of_nonneg hv0]
    simp only [Bool.not_eq_true, decide_eq_false_iff_not] at h2
    rw [h3] at hle
    have h4 : (List.range (2 * k + 1)).countP (fun i : ℕ => ! decide (v < twoSided x ((n : ℤ) - i))) =
        (List.range (2 * k + 1)).countP fun i : ℕ => decide (¬ v < twoSided x ((n : ℤ) - i)) := by
      apply List.countP_congr
      intro i _
      simp
    omega
  · rw [← twoSided_natCast, v4 n (by omega)]
    apply le_erode
    intro j hj
    rw [v3 _ (by omega)]
    by_contra hlt'
    rw [not_le] at hlt'
    have h1 := hcount ((fun w : R => decide (|w| < |v|)) ∘ fun i : ℕ => twoSided x ((n : ℤ) - i)) j hj fun i hi => by
      have := le_dilate k (twoSided x) ((n : ℤ) - j) i hi
      rw [show (n : ℤ) - j - i = (n : ℤ) - ((j + i : ℕ) : ℤ) by push_cast; ring] at this
      simp only [Function.comp, decide_eq_true_eq]
      rw [habs, abs_of_nonneg hv0]
      exact lt_of_le_of_lt this hlt'
    exact absurd (h1.trans hlt) (by omega)

/-- The hypotheses hold for a signal with a spike. -/
example : [(1 : ℤ), 1, 9, 1, 1, 5, 5, 5] ≠ [] ∧ (∀ v ∈ [(1 : ℤ), 1, 9, 1, 1, 5, 5, 5], 0 ≤ v) ∧ 1 ≤ 2 := by decide

/-- The two bounds of the median differ for some signals. -/
example : dilate 1 (erode 1 (twoSided [(1 : ℤ), 3, 2])) 2 = 2 ∧ erode 1 (dilate 1 (twoSided [(1 : ℤ), 3, 2])) 2 = 3 := by decide

end Run

end Verif.Props
