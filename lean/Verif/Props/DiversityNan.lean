import Verif.Model.DiversityNan
import Verif.Lemmas.Diversity

/-!
Property C125: observations with nan in a diversity model (diamondback/models/diversity_model.py).
-/

namespace Verif.Props

open Spec Spec.Num

/-- Rows of numbers. -/
def rowVals (r : List ℝ) : List (Num ℝ) := r.map val

/-! ### Distances -/

private theorem foldl_add_vals (l : List ℝ) : ∀ a : ℝ, (l.map val).foldl (· + ·) (val a) = (val (a + l.sum) : Num ℝ) := by
  induction l with
  | nil => intro a; simp
  | cons v t ih =>
    intro a
    rw [List.map_cons, List.foldl_cons, List.sum_cons, ← add_assoc]
    exact ih (a + v)

private theorem foldl_mul_vals (l : List ℝ) : ∀ a : ℝ, (l.map val).foldl (· * ·) (val a) = (val (a * l.prod) : Num ℝ) := by
  induction l with
  | nil => intro a; simp
  | cons v t ih =>
    intro a
    rw [List.map_cons, List.foldl_cons, List.prod_cons, ← mul_assoc]
    exact ih (a * v)

private theorem gap_vals (x y : List ℝ) : ndiv.gap (rowVals x) (rowVals y) = (div.gap x y).map val := by
  unfold ndiv.gap rowVals div.gap
  rw [List.zipWith_map, List.map_zipWith]
  rfl

private theorem max_vals (l : List ℝ) (v : ℝ) : ndiv.max ((v :: l).map val) = val (l.foldl max v) := by
  show (l.map val).foldl _ (val v) = _
  induction l generalizing v with
  | nil => rfl
  | cons w t ih =>
    rw [List.map_cons, List.foldl_cons, List.foldl_cons, ← ih]
    congr 1
    show (if v < w then _ else _) = _
    split_ifs with h
    · rw [max_eq_right h.le]
    · rw [max_eq_left (not_lt.mp h)]

/-- C125.  On rows of numbers the distances are those of `DivStyle.distance`. -/
theorem C125_distance_numbers (style : DivStyle) (x y : List ℝ) : style.nanDistance (rowVals x) (rowVals y) = val (style.distance x y) := by
  cases style with
  | chebyshev =>
    unfold DivStyle.nanDistance DivStyle.distance
    dsimp only
    rw [gap_vals]
    rcases x with _ | ⟨a, x⟩
    · rfl
    · rcases y with _ | ⟨b, y⟩
      · rfl
      · have : div.gap (a :: x) (b :: y) = |a - b| :: div.gap x y := rfl
        rw [this, max_vals, List.foldl_cons, max_eq_right (abs_nonneg _)]
        rfl
  | euclidean =>
    unfold DivStyle.nanDistance DivStyle.distance
    dsimp only
    rw [gap_vals, List.map_map]
    have : (div.gap x y).map (Num.map (· ^ 2) ∘ val) = ((div.gap x y).map (· ^ 2)).map val := by rw [List.map_map]; rfl
    rw [this, foldl_add_vals, zero_add]
    rfl
  | geometric =>
    unfold DivStyle.nanDistance DivStyle.distance
    dsimp only
    rw [gap_vals, foldl_mul_vals, one_mul]
    simp only [rowVals, List.length_map]
    rfl
  | manhattan =>
    unfold DivStyle.nanDistance DivStyle.distance
    dsimp only
    rw [gap_vals, foldl_add_vals, zero_add]
    rfl

private theorem foldl_add_nan (l : List (Num ℝ)) : ∀ a : Num ℝ, l.foldl (· + ·) a = nan ↔ a = nan ∨ nan ∈ l := by
  induction l with
  | nil => intro a; simp
  | cons v t ih =>
    intro a
    rw [List.foldl_cons, ih, List.mem_cons]
    rcases a with a | _ <;> rcases v with v | _
    · have : (val a + val v : Num ℝ) = val (a + v) := rfl
      simp [this]
    · have : (val a + nan : Num ℝ) = nan := rfl
      simp [this]
    · have : (nan + val v : Num ℝ) = nan := rfl
      simp [this]
    · have : (nan + nan : Num ℝ) = nan := rfl
      simp [this]

private theorem foldl_mul_nan (l : List (Num ℝ)) : ∀ a : Num ℝ, l.foldl (· * ·) a = nan ↔ a = nan ∨ nan ∈ l := by
  induction l with
  | nil => intro a; simp
  | cons v t ih =>
    intro a
    rw [List.foldl_cons, ih, List.mem_cons]
    rcases a with a | _ <;> rcases v with v | _
    · have : (val a * val v : Num ℝ) = val (a * v) := rfl
      simp [this]
    · have : (val a * nan : Num ℝ) = nan := rfl
      simp [this]
    · have : (nan * val v : Num ℝ) = nan := rfl
      simp [this]
    · have : (nan * nan : Num ℝ) = nan := rfl
      simp [this]

private theorem map_nan {S T : Type*} (f : S → T) (v : Num S) : Num.map f v = nan ↔ v = nan := by cases v <;> simp [Num.map]

private theorem gap_nan (x y : List (Num ℝ)) (hl : x.length = y.length) : nan ∈ ndiv.gap x y ↔ nan ∈ x ∨ nan ∈ y := by
  induction x generalizing y with
  | nil => rcases y with _ | ⟨b, y⟩ <;> simp [ndiv.gap] at hl ⊢
  | cons a x ih =>
    rcases y with _ | ⟨b, y⟩
    · simp at hl
    · have : ndiv.gap (a :: x) (b :: y) = Num.map (|·|) (a - b) :: ndiv.gap x y := rfl
      rw [this, List.mem_cons, ih y (by simpa using hl), eq_comm, map_nan]
      have : a - b = nan ↔ a = nan ∨ b = nan := by
        rcases a with a | _ <;> rcases b with b | _
        · have : (val a - val b : Num ℝ) = val (a - b) := rfl
          simp [this]
        · have : (val a - nan : Num ℝ) = nan := rfl
          simp [this]
        · have : (nan - val b : Num ℝ) = nan := rfl
          simp [this]
        · have : (nan - nan : Num ℝ) = nan := rfl
          simp [this]
      rw [this]
      simp only [List.mem_cons, eq_comm (a := nan)]
      tauto

/-- C125.  A distance of the styles Euclidean, Geometric and Manhattan is nan exactly if one of the rows has a nan. -/
theorem C125_distance_nan (style : DivStyle) (hs : style ≠ .chebyshev) (x y : List (Num ℝ)) (hl : x.length = y.length) :
    style.nanDistance x y = nan ↔ nan ∈ x ∨ nan ∈ y := by
  rw [← gap_nan x y hl]
  cases style with
  | chebyshev => exact absurd rfl hs
  | euclidean =>
    unfold DivStyle.nanDistance
    rw [map_nan, foldl_add_nan]
    simp only [reduceCtorEq, false_or, List.mem_map, map_nan]
    exact ⟨fun ⟨a, h1, h2⟩ => h2 ▸ h1, fun h => ⟨nan, h, rfl⟩⟩
  | geometric =>
    unfold DivStyle.nanDistance
    rw [map_nan, foldl_mul_nan]
    simp
  | manhattan =>
    unfold DivStyle.nanDistance
    rw [map_nan, foldl_add_nan]
    simp

private theorem foldl_max (l : List (Num ℝ)) (v : ℝ) : l.foldl (fun m w => if m < w then w else m) (val v) = val ((vals l).foldl max v) := by
  induction l generalizing v with
  | nil => rfl
  | cons w t ih =>
    rw [List.foldl_cons]
    rcases w with w | _
    · have : (if (val v : Num ℝ) < val w then val w else val v) = (val (max v w) : Num ℝ) := by
        show (if v < w then _ else _) = _
        split_ifs with h
        · rw [max_eq_right h.le]
        · rw [max_eq_left (not_lt.mp h)]
      rw [this, ih]
      rfl
    · have : (if (val v : Num ℝ) < nan then nan else val v) = (val v : Num ℝ) := if_neg (fun h => h)
      rw [this, ih]
      rfl

private theorem foldl_max_nan (l : List (Num ℝ)) : l.foldl (fun m w => if m < w then w else m) nan = nan := by
  induction l with
  | nil => rfl
  | cons w t ih =>
    rw [List.foldl_cons]
    have : (if (nan : Num ℝ) < w then w else nan) = (nan : Num ℝ) := if_neg (fun h => h)
    rw [this, ih]

private theorem mem_gap (x y : List (Num ℝ)) (g : ℝ) : g ∈ vals (ndiv.gap x y) ↔ ∃ (i : ℕ) (p q : ℝ), x[i]? = some (val p) ∧ y[i]? = some (val q) ∧ g = |p - q| := by
  induction x generalizing y with
  | nil => simp [ndiv.gap, vals]
  | cons a x ih =>
    rcases y with _ | ⟨b, y⟩
    · simp [ndiv.gap, vals]
    · have hg : ndiv.gap (a :: x) (b :: y) = Num.map (|·|) (a - b) :: ndiv.gap x y := rfl
      have tail : (∃ (i : ℕ) (p q : ℝ), (a :: x)[i]? = some (val p) ∧ (b :: y)[i]? = some (val q) ∧ g = |p - q|) ↔
          (∃ p q, a = val p ∧ b = val q ∧ g = |p - q|) ∨ ∃ (i : ℕ) (p q : ℝ), x[i]? = some (val p) ∧ y[i]? = some (val q) ∧ g = |p - q| := by
        constructor
        · rintro ⟨i, p, q, h1, h2, h3⟩
          rcases i with _ | i
          · exact Or.inl ⟨p, q, by simpa using h1, by simpa using h2, h3⟩
          · exact Or.inr ⟨i, p, q, by simpa using h1, by simpa using h2, h3⟩
        · rintro (⟨p, q, h1, h2, h3⟩ | ⟨i, p, q, h1, h2, h3⟩)
          · exact ⟨0, p, q, by simp [h1], by simp [h2], h3⟩
          · exact ⟨i + 1, p, q, by simpa using h1, by simpa using h2, h3⟩
      rw [tail, ← ih, hg]
      rcases a with a | _ <;> rcases b with b | _
      · have : Num.map (|·|) (val a - val b) = (val |a - b| : Num ℝ) := rfl
        simp [this, vals]
      · have : Num.map (|·|) (val a - nan) = (nan : Num ℝ) := rfl
        simp [this, vals]
      · have : Num.map (|·|) (nan - val b) = (nan : Num ℝ) := rfl
        simp [this, vals]
      · have : Num.map (|·|) (nan - nan) = (nan : Num ℝ) := rfl
        simp [this, vals]

private theorem foldl_max_greatest (l : List ℝ) (v : ℝ) : IsGreatest {g | g = v ∨ g ∈ l} (l.foldl max v) := by
  induction l generalizing v with
  | nil => exact ⟨Or.inl rfl, fun g hg => by rcases hg with rfl | hg; exacts [le_rfl, by cases hg]⟩
  | cons w t ih =>
    obtain ⟨h1, h2⟩ := ih (max v w)
    rw [List.foldl_cons]
    refine ⟨?_, fun g hg => ?_⟩
    · rcases h1 with h1 | h1
      · rw [h1]
        rcases le_total v w with h | h
        · right; rw [max_eq_right h]; simp
        · left; exact max_eq_left h
      · right; simp [h1]
    · have hm := h2 (Or.inl rfl)
      rcases hg with rfl | hg
      · exact (le_max_left _ _).trans hm
      · rcases List.mem_cons.mp hg with rfl | hg
        · exact (le_max_right _ _).trans hm
        · exact h2 (Or.inr hg)

/-- C125.  The Chebyshev distance depends on the place: a nan in the first column makes it nan; otherwise it is the greatest difference of the columns in
which both rows have numbers, and the other columns are passed over. -/
theorem C125_distance_chebyshev (a b : Num ℝ) (x y : List (Num ℝ)) :
    (a = nan ∨ b = nan → DivStyle.chebyshev.nanDistance (a :: x) (b :: y) = nan) ∧
    (a ≠ nan → b ≠ nan → ∃ g : ℝ, DivStyle.chebyshev.nanDistance (a :: x) (b :: y) = val (g : WithTop ℝ) ∧
      IsGreatest {g | ∃ (i : ℕ) (p q : ℝ), (a :: x)[i]? = some (val p) ∧ (b :: y)[i]? = some (val q) ∧ g = |p - q|} g) := by
  have hg : ndiv.gap (a :: x) (b :: y) = Num.map (|·|) (a - b) :: ndiv.gap x y := rfl
  constructor
  · intro h
    have hn : Num.map (|·|) (a - b) = nan := by
      rcases h with rfl | rfl
      · rfl
      · cases a <;> rfl
    unfold DivStyle.nanDistance
    dsimp only
    rw [hg, hn, ndiv.max, foldl_max_nan]
    rfl
  · intro ha hb
    rcases a with v | _
    swap; · exact absurd rfl ha
    rcases b with w | _
    swap; · exact absurd rfl hb
    have hn : Num.map (|·|) (val v - val w) = (val |v - w| : Num ℝ) := rfl
    refine ⟨(vals (ndiv.gap x y)).foldl max |v - w|, ?_, ?_⟩
    · unfold DivStyle.nanDistance
      dsimp only
      rw [hg, hn, ndiv.max, foldl_max]
      rfl
    · have := foldl_max_greatest (vals (ndiv.gap x y)) |v - w|
      convert this using 1
      ext g
      simp only [Set.mem_setOf_eq]
      rw [← mem_gap, hg, hn]
      simp [vals]

/-! ### Observations of numbers -/

/-- The same model, among the numbers with nan. -/
structure AsNumbers (m : Diversity) (m' : NanDiversity) : Prop where
  s : m'.s = m.s.map rowVals
  cols : m'.cols = m.cols
  diversity : m'.diversity = m.diversity
  distance : ∀ x y, m'.distance (rowVals x) (rowVals y) = val (m.distance x y)

private theorem getD_rowVals (s : List (List ℝ)) (i : ℕ) : (s.map rowVals).getD i [] = rowVals (s.getD i []) := by
  rw [List.getD_eq_getElem?_getD, List.getD_eq_getElem?_getD, List.getElem?_map]
  cases s[i]? <;> rfl

private theorem least_numbers {m : Diversity} {m' : NanDiversity} (hd : ∀ x y, m'.distance (rowVals x) (rowVals y) = val (m.distance x y)) (s : List (List ℝ)) (cc : ℕ) :
    ndiv.least m'.distance (s.map rowVals) cc = div.least m.distance s cc := by
  unfold ndiv.least div.least
  simp only [getD_rowVals, hd, ndiv.lower]

private theorem best_numbers {m : Diversity} {m' : NanDiversity} (hd : ∀ x y, m'.distance (rowVals x) (rowVals y) = val (m.distance x y)) (s : List (List ℝ)) (cc : ℕ) (x : List ℝ) (v : WithTop ℝ) :
    ndiv.best m'.distance (s.map rowVals) cc (rowVals x) v = div.best m.distance s cc x v := by
  unfold ndiv.best div.best
  simp only [← List.map_set, least_numbers hd]

private theorem loop_numbers (xs : List (List ℝ)) : ∀ (m : Diversity) (m' : NanDiversity) (cc : ℕ), AsNumbers m m' →
    (ndiv.loop (xs.map rowVals) (m', cc)).1 = (div.loop xs (m, cc)).1 ∧ AsNumbers (div.loop xs (m, cc)).2.1 (ndiv.loop (xs.map rowVals) (m', cc)).2.1 := by
  induction xs with
  | nil => intro m m' cc h; exact ⟨rfl, h⟩
  | cons x xs ih =>
    intro m m' cc h
    have hst : AsNumbers (div.step m cc x).1 (ndiv.step (rowVals x) m' cc).1 ∧ (ndiv.step (rowVals x) m' cc).2 = (div.step m cc x).2 := by
      unfold div.step ndiv.step
      dsimp only
      rw [h.s, h.diversity, List.length_map, best_numbers h.distance]
      split_ifs
      · exact ⟨⟨by rw [List.map_set], h.cols, by first | rfl | exact h.diversity, h.distance⟩, rfl⟩
      · exact ⟨⟨by rw [List.map_set], h.cols, rfl, h.distance⟩, rfl⟩
      · exact ⟨h, rfl⟩
    rw [div.loop_cons, List.map_cons, ndiv.loop]
    dsimp only
    obtain ⟨i1, i2⟩ := ih (div.step m cc x).1 (ndiv.step (rowVals x) m' cc).1 (div.step m cc x).2 hst.1
    have e : ndiv.step (rowVals x) m' cc = ((ndiv.step (rowVals x) m' cc).1, (div.step m cc x).2) := Prod.ext rfl hst.2
    rw [← e] at i1 i2
    exact ⟨by rw [i1, hst.1.diversity], i2⟩

/-- C125.  For observations without nan the model is that of the other properties. -/
theorem C125_numbers (m : Diversity) (m' : NanDiversity) (h : AsNumbers m m') (x : List (List ℝ)) (cols : ℕ) :
    (m'.fit (x.map rowVals) cols).1 = (m.fit x cols).1 ∧ AsNumbers (m.fit x cols).2 (m'.fit (x.map rowVals) cols).2 := by
  have hs : AsNumbers (m.sized cols) (m'.sized cols) := by
    unfold Diversity.sized NanDiversity.sized
    rw [h.cols]
    split_ifs
    · exact ⟨by rw [h.s]; simp [rowVals], rfl, h.diversity, h.distance⟩
    · exact h
  have hc : ∀ s : List (List ℝ), ndiv.count (s.map rowVals) = div.count s := by
    intro s
    unfold ndiv.count div.count
    rw [List.takeWhile_map, List.length_map]
    congr 2
    funext r
    rcases r with _ | ⟨v, r⟩ <;> rfl
  unfold Diversity.fit NanDiversity.fit
  simp only [List.map_eq_nil_iff]
  split_ifs with h1 h2 h3
  · exact ⟨rfl, h⟩
  · exact ⟨rfl, hs⟩
  · exact absurd hs.cols (by intro h; rw [h] at h2; exact h3 h2)
  · rename_i h4
    exact absurd hs.cols (by intro h; rw [h] at h2; exact h2 h4)
  · rw [hs.s, hc]
    obtain ⟨a, b⟩ := loop_numbers x (m.sized cols) (m'.sized cols) (div.count (m.sized cols).s) hs
    exact ⟨by rw [a], b⟩

/-- The hypothesis holds of new models. -/
example : AsNumbers { distance := DivStyle.manhattan.distance, diversity := 0, cols := 0, s := [[], []] }
    { distance := DivStyle.manhattan.nanDistance, diversity := 0, cols := 0, s := [[], []] } :=
  ⟨rfl, rfl, rfl, C125_distance_numbers .manhattan⟩

/-! ### Observations with nan -/

/-- A distance which is nan taken as infinite. -/
def asFar (d : List (Num ℝ) → List (Num ℝ) → Num (WithTop ℝ)) (x y : List (Num ℝ)) : WithTop ℝ :=
  match d x y with
  | val v => v
  | nan => ⊤

private theorem lower_eq (d : List (Num ℝ) → List (Num ℝ) → Num (WithTop ℝ)) (a b : List (Num ℝ)) (u : WithTop ℝ) :
    ndiv.lower (d a b) u = if asFar d a b < u then asFar d a b else u := by
  unfold ndiv.lower asFar
  cases d a b with
  | val v => rfl
  | nan => simp

private theorem nleast_spec (d : List (Num ℝ) → List (Num ℝ) → Num (WithTop ℝ)) (s : List (List (Num ℝ))) : IsMinDistance (asFar d) s (ndiv.least d s s.length) := by
  set n := s.length with hn
  have inner : ∀ (uu : ℕ) (u : WithTop ℝ) (k : ℕ), ndiv.lower (d (s.getD uu []) (s.getD (uu + 1 + k) [])) u ≤ u ∧
      (∀ y ∈ ({asFar d (s.getD uu []) (s.getD (uu + 1 + k) [])} : Set (WithTop ℝ)), ndiv.lower (d (s.getD uu []) (s.getD (uu + 1 + k) [])) u ≤ y) ∧
      (ndiv.lower (d (s.getD uu []) (s.getD (uu + 1 + k) [])) u = u ∨
        ndiv.lower (d (s.getD uu []) (s.getD (uu + 1 + k) [])) u ∈ ({asFar d (s.getD uu []) (s.getD (uu + 1 + k) [])} : Set (WithTop ℝ))) := by
    intro uu u k
    simp only [Set.mem_singleton_iff, forall_eq, lower_eq]
    split
    · rename_i h; exact ⟨h.le, le_refl _, Or.inr rfl⟩
    · rename_i h; exact ⟨le_refl _, not_lt.mp h, Or.inl rfl⟩
  have outer := div.fold_least (fun uu => {y : WithTop ℝ | ∃ k ∈ List.range (n - (uu + 1)), y = asFar d (s.getD uu []) (s.getD (uu + 1 + k) [])})
    (fun u uu => (List.range (n - (uu + 1))).foldl (fun u k => ndiv.lower (d (s.getD uu []) (s.getD (uu + 1 + k) [])) u) u)
    (fun u uu => by
      obtain ⟨h1, h2, h3⟩ := div.fold_least (fun k => ({asFar d (s.getD uu []) (s.getD (uu + 1 + k) [])} : Set (WithTop ℝ))) _ (inner uu) (List.range (n - (uu + 1))) u
      refine ⟨h1, ?_, ?_⟩
      · rintro y ⟨k, hk, rfl⟩; exact h2 k hk _ rfl
      · rcases h3 with h3 | ⟨k, hk, h3⟩
        · exact Or.inl h3
        · exact Or.inr ⟨k, hk, h3⟩) (List.range (n - 1)) ⊤
  have e : ∀ (i : ℕ) (a : List (Num ℝ)), s[i]? = some a → s.getD i [] = a ∧ i < n := by
    intro i a h
    refine ⟨by rw [List.getD_eq_getElem?_getD, h]; rfl, ?_⟩
    by_contra h'
    rw [List.getElem?_eq_none (by omega)] at h
    simp at h
  refine ⟨?_, ?_⟩
  · intro i j a b hij ha hb
    obtain ⟨e1, l1⟩ := e i a ha
    obtain ⟨e2, l2⟩ := e j b hb
    refine outer.2.1 i (List.mem_range.mpr (by omega)) _ ⟨j - (i + 1), List.mem_range.mpr (by omega), ?_⟩
    rw [e1, show i + 1 + (j - (i + 1)) = j by omega, e2]
  · rcases outer.2.2 with h | ⟨uu, huu, k, hk, h⟩
    · exact Or.inl h
    · right
      have huu := List.mem_range.mp huu
      have hk := List.mem_range.mp hk
      refine ⟨uu, uu + 1 + k, s.getD uu [], s.getD (uu + 1 + k) [], by omega, ?_, ?_, h⟩
      · rw [List.getD_eq_getElem?_getD, List.getElem?_eq_getElem (by omega : uu < s.length)]; rfl
      · rw [List.getD_eq_getElem?_getD, List.getElem?_eq_getElem (by omega : uu + 1 + k < s.length)]; rfl

private theorem nbest_spec (d : List (Num ℝ) → List (Num ℝ) → Num (WithTop ℝ)) (s : List (List (Num ℝ))) (x : List (Num ℝ)) (start : WithTop ℝ) :
    start ≤ (ndiv.best d s s.length x start).1 ∧ (∀ k < s.length, ∀ v, IsMinDistance (asFar d) (s.set k x) v → v ≤ (ndiv.best d s s.length x start).1) ∧
      (ndiv.best d s s.length x start = (start, none) ∨ ∃ k < s.length, ∃ v, ndiv.best d s s.length x start = (v, some k) ∧ start < v ∧ IsMinDistance (asFar d) (s.set k x) v) := by
  have hl : ∀ k, IsMinDistance (asFar d) (s.set k x) (ndiv.least d (s.set k x) s.length) := by
    intro k
    have := nleast_spec d (s.set k x)
    rwa [List.length_set] at this
  unfold ndiv.best
  generalize hn : s.length = n at hl
  clear hn
  have key : ∀ m, let p := (List.range m).foldl (fun p kk =>
      if ndiv.least d (s.set kk x) n > p.1 then (ndiv.least d (s.set kk x) n, some kk) else p) (start, none);
      start ≤ p.1 ∧ (∀ k < m, ndiv.least d (s.set k x) n ≤ p.1) ∧
      (p = (start, none) ∨ ∃ k < m, p = (ndiv.least d (s.set k x) n, some k) ∧ start < ndiv.least d (s.set k x) n) := by
    intro m
    induction m with
    | zero => simp
    | succ m ih =>
      simp only [List.range_succ, List.foldl_append, List.foldl_cons, List.foldl_nil] at ih ⊢
      set p := (List.range m).foldl (fun p kk =>
        if ndiv.least d (s.set kk x) n > p.1 then (ndiv.least d (s.set kk x) n, some kk) else p) ((start, none) : WithTop ℝ × Option ℕ) with hp
      obtain ⟨h1, h2, h3⟩ := ih
      by_cases h : ndiv.least d (s.set m x) n > p.1
      · rw [if_pos h]
        refine ⟨h1.trans h.le, ?_, Or.inr ⟨m, by omega, rfl, lt_of_le_of_lt h1 h⟩⟩
        intro k hk
        rcases Nat.lt_succ_iff_lt_or_eq.mp hk with hk | rfl
        · exact (h2 k hk).trans h.le
        · exact le_refl _
      · rw [if_neg h]
        refine ⟨h1, ?_, ?_⟩
        · intro k hk
          rcases Nat.lt_succ_iff_lt_or_eq.mp hk with hk | rfl
          · exact h2 k hk
          · exact not_lt.mp h
        · rcases h3 with h3 | ⟨k, hk, h3⟩
          · exact Or.inl h3
          · exact Or.inr ⟨k, by omega, h3⟩
  obtain ⟨h1, h2, h3⟩ := key n
  refine ⟨h1, ?_, ?_⟩
  · intro k hk v hv
    rw [hv.unique (hl k)]
    exact h2 k hk
  · rcases h3 with h3 | ⟨k, hk, h3, h4⟩
    · exact Or.inl h3
    · exact Or.inr ⟨k, hk, _, h3, h4, hl k⟩

private theorem min_le_iff (d : List (Num ℝ) → List (Num ℝ) → WithTop ℝ) (s : List (List (Num ℝ))) (v : WithTop ℝ) (h : IsMinDistance d s v) (b : WithTop ℝ) :
    b ≤ v ↔ ∀ (i j : ℕ) (p q : List (Num ℝ)), i < j → s[i]? = some p → s[j]? = some q → b ≤ d p q := by
  constructor
  · intro hb i j p q hij hp hq
    exact hb.trans (h.1 i j p q hij hp hq)
  · intro hb
    rcases h.2 with rfl | ⟨i, j, p, q, hij, hp, hq, rfl⟩
    · exact le_top
    · exact hb i j p q hij hp hq

/-- C125.  A row at a distance of nan from the others counts for nothing: the least distance is that of the other rows. -/
theorem C125_passed_over (d : List (Num ℝ) → List (Num ℝ) → Num (WithTop ℝ)) (s : List (List (Num ℝ))) (x : List (Num ℝ)) (hx : ∀ r ∈ s, d x r = nan ∧ d r x = nan)
    (k : ℕ) (hk : k < s.length) (v : WithTop ℝ) : IsMinDistance (asFar d) (s.set k x) v ↔ IsMinDistance (asFar d) (s.eraseIdx k) v := by
  have far : ∀ r ∈ s, asFar d x r = ⊤ ∧ asFar d r x = ⊤ := by
    intro r hr
    obtain ⟨a, b⟩ := hx r hr
    exact ⟨by unfold asFar; rw [a], by unfold asFar; rw [b]⟩
  have hb : ∀ b : WithTop ℝ, (∀ (i j : ℕ) (p q : List (Num ℝ)), i < j → (s.set k x)[i]? = some p → (s.set k x)[j]? = some q → b ≤ asFar d p q) ↔
      ∀ (i j : ℕ) (p q : List (Num ℝ)), i < j → (s.eraseIdx k)[i]? = some p → (s.eraseIdx k)[j]? = some q → b ≤ asFar d p q := by
    intro b
    constructor
    · intro h i j p q hij hp hq
      rw [List.getElem?_eraseIdx] at hp hq
      refine h (if i < k then i else i + 1) (if j < k then j else j + 1) p q (by split_ifs <;> omega) ?_ ?_
      · rw [List.getElem?_set_ne (by split_ifs <;> omega)]
        split_ifs at hp ⊢ <;> exact hp
      · rw [List.getElem?_set_ne (by split_ifs <;> omega)]
        split_ifs at hq ⊢ <;> exact hq
    · intro h i j p q hij hp hq
      by_cases hi : i = k
      · subst hi
        rw [List.getElem?_set_self hk] at hp
        rw [List.getElem?_set_ne (by omega)] at hq
        obtain rfl := Option.some.inj hp
        rw [(far q (List.mem_of_getElem? hq)).1]
        exact le_top
      by_cases hj : j = k
      · subst hj
        rw [List.getElem?_set_self hk] at hq
        rw [List.getElem?_set_ne (by omega)] at hp
        obtain rfl := Option.some.inj hq
        rw [(far p (List.mem_of_getElem? hp)).2]
        exact le_top
      rw [List.getElem?_set_ne (by omega)] at hp hq
      refine h (if i < k then i else i - 1) (if j < k then j else j - 1) p q (by split_ifs <;> omega) ?_ ?_
      · rw [List.getElem?_eraseIdx]
        by_cases h1 : i < k
        · simp only [h1, if_true]; exact hp
        · simp only [h1, if_false]
          rw [if_neg (by omega), show i - 1 + 1 = i by omega]
          exact hp
      · rw [List.getElem?_eraseIdx]
        by_cases h1 : j < k
        · simp only [h1, if_true]; exact hq
        · simp only [h1, if_false]
          rw [if_neg (by omega), show j - 1 + 1 = j by omega]
          exact hq
  have h1 := nleast_spec d (s.set k x)
  have h2 := nleast_spec d (s.eraseIdx k)
  have e : ndiv.least d (s.set k x) (s.set k x).length = ndiv.least d (s.eraseIdx k) (s.eraseIdx k).length := by
    refine le_antisymm ?_ ?_
    · rw [min_le_iff _ _ _ h2, ← hb, ← min_le_iff _ _ _ h1]
    · rw [min_le_iff _ _ _ h1, hb, ← min_le_iff _ _ _ h2]
  constructor
  · intro h
    rw [h.unique h1, e]
    exact h2
  · intro h
    rw [h.unique h2, ← e]
    exact h1

/-- A row which is no mark of a vacant place: its first element is nan, or a number not within the tolerance of numpy.isclose of the largest. -/
def Occupied (r : List (Num ℝ)) : Prop := ∀ v, r.getD 0 (val 0) = val v → ¬ NearLargest v

/-- A model with a row for each of its places. -/
def Full (m : NanDiversity) : Prop := 0 < m.cols ∧ ∀ r ∈ m.s, Occupied r

theorem occupied_iff (r : List (Num ℝ)) : ¬ ndiv.vacant (r.getD 0 (val 0)) ↔ Occupied r := by
  unfold Occupied
  cases h : r.getD 0 (val 0) with
  | nan => simp [ndiv.vacant]
  | val v => simp [ndiv.vacant, div.vacant_iff]

open scoped Classical in
private theorem full_count (m : NanDiversity) (h : Full m) : ndiv.count m.s = m.s.length := by
  unfold ndiv.count
  congr 1
  have key : ∀ s : List (List (Num ℝ)), (∀ r ∈ s, Occupied r) → s.takeWhile (fun r => decide ¬ ndiv.vacant (r.getD 0 (val 0))) = s := by
    intro s
    induction s with
    | nil => intro _; rfl
    | cons a t ih =>
      intro hs
      rw [List.takeWhile_cons, if_pos (decide_eq_true ((occupied_iff a).mpr (hs a (by simp)))), ih fun r hr => hs r (by simp [hr])]
  exact key m.s h.2

private theorem fill_loop (xs : List (List (Num ℝ))) (m : NanDiversity) (pre rest : List (List (Num ℝ))) (hs : m.s = pre ++ rest) (hl : xs.length ≤ rest.length) :
    ndiv.loop xs (m, pre.length) = (List.replicate xs.length m.diversity, ({ m with s := pre ++ xs ++ rest.drop xs.length }, pre.length + xs.length)) := by
  induction xs generalizing m pre rest with
  | nil => simp [ndiv.loop, ← hs]
  | cons x xs ih =>
    cases rest with
    | nil => simp at hl
    | cons r rest =>
      have hst : ndiv.step x m pre.length = ({ m with s := (pre ++ [x]) ++ rest }, (pre ++ [x]).length) := by
        unfold ndiv.step
        rw [if_pos (by rw [hs]; simp), hs]
        simp
      rw [ndiv.loop, hst]
      have := ih { m with s := (pre ++ [x]) ++ rest } (pre ++ [x]) rest rfl (by simpa using hl)
      simp only
      rw [this]
      simp [List.replicate_succ]
      omega

open scoped Classical in
private theorem part_count (xs : List (List (Num ℝ))) (hx : ∀ r ∈ xs, Occupied r) (k cols : ℕ) (hc : 0 < cols) :
    ndiv.count (xs ++ List.replicate k (List.replicate cols (val largestFloat))) = xs.length := by
  unfold ndiv.count
  induction xs with
  | nil =>
    cases k with
    | zero => simp
    | succ k =>
      rw [List.nil_append, List.replicate_succ, List.takeWhile_cons, if_neg]
      · rw [decide_eq_true_iff, occupied_iff]
        intro h
        have := h largestFloat (by cases cols with
          | zero => omega
          | succ c => simp [List.replicate_succ])
        exact this ((div.vacant_iff _).mp (by rw [← fmax_eq]; exact div.vacant_fmax))
  | cons a t ih =>
    rw [List.cons_append, List.takeWhile_cons, if_pos (decide_eq_true ((occupied_iff a).mpr (hx a (by simp)))), List.length_cons,
      ih fun r hr => hx r (by simp [hr]), List.length_cons]

/-- C125.  Observations with nan, in whatever column, take places as others do: those of two calls on a model without any fill the places in order, as long
as there are places, and the diversity does not change. -/
theorem C125_kept (m : NanDiversity) (hm : m.cols = 0) (xs ys : List (List (Num ℝ))) (cols : ℕ) (hc : 0 < cols) (hx : xs ≠ []) (hy : ys ≠ [])
    (hl : xs.length + ys.length ≤ m.s.length) (hxo : ∀ r ∈ xs, Occupied r) :
    ∃ m1 m2, m.fit xs cols = (.ok (List.replicate xs.length m.diversity), m1) ∧ m1.fit ys cols = (.ok (List.replicate ys.length m.diversity), m2) ∧
      m2.diversity = m.diversity ∧ m2.s.length = m.s.length ∧ (xs ++ ys) <+: m2.s := by
  have h0 : ndiv.count (m.sized cols).s = 0 := by
    have := part_count [] (by simp) m.s.length cols hc
    rw [← fmax_eq] at this
    unfold NanDiversity.sized
    rw [if_pos hm]
    simpa using this
  have e1 : m.fit xs cols = (.ok (List.replicate xs.length m.diversity),
      { m with cols := cols, s := xs ++ List.replicate (m.s.length - xs.length) (List.replicate cols (val largestFloat)) }) := by
    unfold NanDiversity.fit
    rw [if_neg (by simp [hx]; omega)]
    dsimp only
    rw [if_neg (by simp [NanDiversity.sized, hm]), h0]
    have := fill_loop xs (m.sized cols) [] (m.sized cols).s rfl (by simp [NanDiversity.sized, hm]; omega)
    rw [List.length_nil] at this
    rw [this]
    simp [NanDiversity.sized, hm, fmax_eq]
  refine ⟨_, { m with cols := cols, s := xs ++ ys ++ (List.replicate (m.s.length - xs.length) (List.replicate cols (val largestFloat))).drop ys.length }, e1, ?_, rfl,
    by simp; omega, List.prefix_append _ _⟩
  unfold NanDiversity.fit
  rw [if_neg (by simp [hy]; omega)]
  have hz : NanDiversity.sized { m with cols := cols, s := xs ++ List.replicate (m.s.length - xs.length) (List.replicate cols (val largestFloat)) } cols =
      { m with cols := cols, s := xs ++ List.replicate (m.s.length - xs.length) (List.replicate cols (val largestFloat)) } := by
    unfold NanDiversity.sized
    rw [if_neg (by simp; omega)]
  dsimp only
  rw [hz, if_neg (by simp), part_count xs hxo _ cols hc]
  rw [fill_loop ys _ xs _ rfl (by simp; omega)]

/-- An observation whose first element is nan is not a vacant place. -/
example : Occupied [nan, val 3] ∧ [[nan, val 3]].length + [[val 1, val 2]].length ≤ (List.replicate 3 ([] : List (Num ℝ))).length := by
  refine ⟨fun v h => ?_, by simp⟩
  simp at h

/-- C125.  An observation at a distance of nan from all rows of a full model replaces a row exactly if the others are further apart than the diversity:
it is taken for the row without which the others are furthest apart. -/
theorem C125_observation (m : NanDiversity) (hm : Full m) (x : List (Num ℝ)) (hx : ∀ r ∈ m.s, m.distance x r = nan ∧ m.distance r x = nan) :
    ∃ m', m.fit [x] m.cols = (.ok [m'.diversity], m') ∧
      ((m' = m ∧ ∀ k < m.s.length, ∀ v, IsMinDistance (asFar m.distance) (m.s.eraseIdx k) v → v ≤ m.diversity) ∨
        ∃ k < m.s.length, m' = { m with diversity := m'.diversity, s := m.s.set k x } ∧ m.diversity < m'.diversity ∧
          IsMinDistance (asFar m.distance) (m.s.eraseIdx k) m'.diversity ∧
          ∀ k' < m.s.length, ∀ v, IsMinDistance (asFar m.distance) (m.s.eraseIdx k') v → v ≤ m'.diversity) := by
  have hfit : m.fit [x] m.cols = (.ok [(ndiv.step x m m.s.length).1.diversity], (ndiv.step x m m.s.length).1) := by
    have hz : m.sized m.cols = m := by
      unfold NanDiversity.sized
      rw [if_neg (by have := hm.1; omega)]
    unfold NanDiversity.fit
    rw [if_neg (by have := hm.1; simp; omega)]
    dsimp only
    rw [hz, if_neg (by simp), full_count m hm]
    rfl
  refine ⟨_, hfit, ?_⟩
  unfold ndiv.step
  rw [if_neg (lt_irrefl _)]
  dsimp only
  obtain ⟨b1, b2, b3⟩ := nbest_spec m.distance m.s x m.diversity
  rcases b3 with b3 | ⟨k, hk, v, b3, b4, b5⟩
  · left
    rw [b3]
    simp only [gt_iff_lt, lt_irrefl, if_false, true_and]
    intro k hk v hv
    have := b2 k hk v ((C125_passed_over _ _ _ hx k hk v).mpr hv)
    rwa [b3] at this
  · right
    rw [b3]
    simp only [gt_iff_lt, b4, if_true, Option.getD_some]
    refine ⟨k, hk, rfl, trivial, (C125_passed_over _ _ _ hx k hk v).mp b5, fun k' hk' v' hv' => ?_⟩
    have := b2 k' hk' v' ((C125_passed_over _ _ _ hx k' hk' v').mpr hv')
    rwa [b3] at this

/-- C125.  A full model of two rows takes on such an observation whatever its diversity, which becomes infinite. -/
theorem C125_two (m : NanDiversity) (hm : Full m) (h2 : m.s.length = 2) (hd : m.diversity ≠ ⊤) (x : List (Num ℝ))
    (hx : ∀ r ∈ m.s, m.distance x r = nan ∧ m.distance r x = nan) : ∃ m', m.fit [x] m.cols = (.ok [⊤], m') ∧ x ∈ m'.s ∧ m'.diversity = ⊤ := by
  obtain ⟨m', e, h⟩ := C125_observation m hm x hx
  have one : ∀ k, k < 2 → IsMinDistance (asFar m.distance) (m.s.eraseIdx k) ⊤ := by
    intro k hk
    refine ⟨fun i j a b hij ha hb => ?_, Or.inl rfl⟩
    have hl : (m.s.eraseIdx k).length = 1 := by rw [List.length_eraseIdx, if_pos (by omega), h2]
    have := (List.getElem?_eq_some_iff.mp hb).1
    omega
  rcases h with ⟨-, h⟩ | ⟨k, hk, h3, h4, h5, h6⟩
  · exact absurd (top_le_iff.mp (h 0 (by omega) ⊤ (one 0 (by omega)))) hd
  · have ht : m'.diversity = ⊤ := h5.unique (one k (by omega))
    refine ⟨m', by rw [e, ht], ?_, ht⟩
    rw [h3]
    exact List.mem_iff_getElem?.mpr ⟨k, List.getElem?_set_self hk⟩

/-- C125.  An infinite diversity is the last: whatever is observed afterwards, nothing is kept of it. -/
theorem C125_stuck (m : NanDiversity) (hm : Full m) (hd : m.diversity = ⊤) (xs : List (List (Num ℝ))) (hx : xs ≠ []) :
    m.fit xs m.cols = (.ok (List.replicate xs.length ⊤), m) := by
  have hz : m.sized m.cols = m := by
    unfold NanDiversity.sized
    rw [if_neg (by have := hm.1; omega)]
  have hst : ∀ x, ndiv.step x m m.s.length = (m, m.s.length) := by
    intro x
    unfold ndiv.step
    rw [if_neg (lt_irrefl _)]
    dsimp only
    rw [if_neg (by rw [hd]; exact not_top_lt)]
  have hloop : ∀ xs, ndiv.loop xs (m, m.s.length) = (List.replicate xs.length ⊤, (m, m.s.length)) := by
    intro xs
    induction xs with
    | nil => rfl
    | cons x xs ih =>
      rw [ndiv.loop, hst, ih, hd]
      rfl
  unfold NanDiversity.fit
  rw [if_neg (by have := hm.1; simp [hx]; omega)]
  dsimp only
  rw [hz, if_neg (by simp), full_count m hm, hloop]

/-- The hypotheses hold after `C125_two`. -/
example : ∃ m : NanDiversity, Full m ∧ m.diversity = ⊤ ∧ m.s.length = 2 :=
  ⟨{ distance := DivStyle.manhattan.nanDistance, diversity := ⊤, cols := 1, s := [[nan], [nan]] }, ⟨by norm_num, fun r hr => by
    simp at hr
    rw [hr]
    intro v h
    simp at h⟩, rfl, rfl⟩

/-- C125.  A model of the styles Euclidean, Geometric and Manhattan with two rows of numbers: one observation with one nan and the model is stuck. -/
theorem C125_poisoned (style : DivStyle) (hs : style ≠ .chebyshev) (m : NanDiversity) (hm : Full m) (h2 : m.s.length = 2) (hr : ∀ r ∈ m.s, r.length = m.cols)
    (hd : m.diversity ≠ ⊤) (he : m.distance = style.nanDistance) (x : List (Num ℝ)) (hx : x.length = m.cols) (hn : nan ∈ x) :
    ∃ m', m.fit [x] m.cols = (.ok [⊤], m') ∧ x ∈ m'.s := by
  obtain ⟨m', a, b, -⟩ := C125_two m hm h2 hd x fun r h => by
    rw [he]
    exact ⟨(C125_distance_nan style hs x r (by rw [hx, hr r h])).mpr (Or.inl hn), (C125_distance_nan style hs r x (by rw [hx, hr r h])).mpr (Or.inr hn)⟩
  exact ⟨m', a, b⟩

/-- The hypotheses of `C125_passed_over`, `C125_observation` and `C125_two` hold: two rows and an observation whose second number is nan. -/
example : let m : NanDiversity := { distance := DivStyle.manhattan.nanDistance, diversity := 0, cols := 2, s := [[val 0, val 1], [val 3, val 5]] }
    Full m ∧ m.s.length = 2 ∧ (∀ r ∈ m.s, r.length = m.cols) ∧ m.diversity ≠ ⊤ ∧ nan ∈ ([val 7, nan] : List (Num ℝ)) ∧
    ∀ r ∈ m.s, m.distance [val 7, nan] r = nan ∧ m.distance r [val 7, nan] = nan := by
  have small : ∀ v : ℝ, |v| ≤ 5 → ¬ div.vacant v := by
    intro v hv h
    have hf : (1000 : ℝ) ≤ div.fmax := by
      unfold div.fmax
      have h1 : (1 : ℝ) ≤ 2 - 1 / 2 ^ 52 := by norm_num
      have h2 : (2 : ℝ) ^ 10 ≤ 2 ^ 1023 := pow_le_pow_right₀ (by norm_num) (by norm_num)
      calc (1000 : ℝ) ≤ 1 * 2 ^ 10 := by norm_num
        _ ≤ _ := mul_le_mul h1 h2 (by positivity) (by linarith)
    unfold div.vacant at h
    rw [abs_of_pos (by linarith : (0 : ℝ) < div.fmax)] at h
    have := abs_le.mp h
    have := abs_le.mp hv
    norm_num at *
    linarith
  refine ⟨⟨by norm_num, ?_⟩, rfl, by simp, by simp, by simp, ?_⟩
  · intro r hr
    simp only [List.mem_cons, List.not_mem_nil, or_false] at hr
    rcases hr with rfl | rfl
    · exact (occupied_iff _).mp (small 0 (by norm_num))
    · exact (occupied_iff _).mp (small 3 (by rw [abs_of_pos] <;> norm_num))
  · intro r hr
    have hl : r.length = 2 := by
      simp only [List.mem_cons, List.not_mem_nil, or_false] at hr
      rcases hr with rfl | rfl <;> rfl
    exact ⟨(C125_distance_nan .manhattan (by simp) _ r (by simp [hl])).mpr (Or.inl (by simp)), (C125_distance_nan .manhattan (by simp) r _ (by simp [hl])).mpr (Or.inr (by simp))⟩

/-- The place matters to Chebyshev: the second column is passed over, the first is not. -/
example : DivStyle.chebyshev.nanDistance [val 1, nan] [val 3, val 9] ≠ nan ∧ DivStyle.chebyshev.nanDistance [nan, val 1] [val 9, val 3] = nan := by
  refine ⟨?_, (C125_distance_chebyshev _ _ _ _).1 (Or.inl rfl)⟩
  obtain ⟨g, h, -⟩ := (C125_distance_chebyshev (val 1) (val 3) [nan] [val 9]).2 (by simp) (by simp)
  rw [h]
  simp

end Verif.Props
