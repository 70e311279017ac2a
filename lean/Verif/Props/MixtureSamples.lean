import Verif.Props.Gaussian
import Mathlib.Data.Finset.Sort
import Mathlib.Algebra.Order.BigOperators.Group.Finset
import Mathlib.Data.List.Perm.Subperm

/-!
C116: how many samples the mixture model needs, and what a refused fit leaves.
-/

namespace Verif.Props

open Verif Verif.Spec

/-- What sklearn documents of GaussianMixture.fit: fewer samples than components are refused with ValueError; at least as many, and at least two, are
accepted when the regularisation is positive. -/
structure ComponentsSpec (em : Sklearn) : Prop where
  refuses : ∀ (n order : ℕ) (index : ℤ) (r : ℝ) (z : List (Vec n)), z.length < order → em n order index r z = .error .valueError
  accepts : ∀ (n order : ℕ) (index : ℤ) (r : ℝ) (z : List (Vec n)), order ≤ z.length → 2 ≤ z.length → 0 < r → ∃ m, em n order index r z = .ok m

private theorem samples_length {V : Type*} (c : ℤ) : ∀ (x : List V) (y : List ℤ), y.length = x.length → (samplesOf (x.zip y) c).length = y.count c
  | [], [], _ => rfl
  | v :: x, a :: y, h => by
    have ih := samples_length c x y (by simpa using h)
    by_cases e : a = c
    · subst e
      simp [samplesOf] at ih ⊢
      exact ih
    · simp [samplesOf, e] at ih ⊢
      exact ih
  | [], _ :: _, h => by simp at h
  | _ :: _, [], h => by simp at h

/-- C116.  With two components or more and a positive regularisation, fit succeeds exactly when every label occurs at least `order` times; otherwise it
raises ValueError. -/
theorem C116_needs (em : Sklearn) (hem : ComponentsSpec em) (g : GaussMix) (ho : 2 ≤ g.order) (hr : 0 < g.regularize) (n : ℕ) (hn : n ≠ 0) (x : List (Vec n))
    (hx : x ≠ []) (y : List ℤ) (hy : y.length = x.length) :
    ((∀ c ∈ y, g.order ≤ y.count c) → (g.fit em (some ⟨n, x⟩) ⟨true, y⟩).1 = .ok ()) ∧
      (¬ (∀ c ∈ y, g.order ≤ y.count c) → (g.fit em (some ⟨n, x⟩) ⟨true, y⟩).1 = .error .valueError) := by
  obtain ⟨L, models, h1, h2, h3, h4⟩ := C56_fit em g n hn x hx y hy
  constructor
  · intro h
    rcases h4 with h4 | ⟨c, e, h5, h6, -⟩
    · exact h4.1
    · exfalso
      have hc := h c ((h1.2 c).1 (List.mem_of_getElem? h5))
      rw [← samples_length c x y hy] at hc
      obtain ⟨m, hm⟩ := hem.accepts n g.order g.index g.regularize _ hc (le_trans ho hc) hr
      rw [hm] at h6
      cases h6
  · intro h
    push Not at h
    obtain ⟨c, hc, hlt⟩ := h
    rcases h4 with h4 | ⟨d, e, h5, h6, h7⟩
    · exfalso
      rw [h4.2, List.take_length] at h3
      have hcL := (h1.2 c).2 hc
      obtain ⟨i, hi, rfl⟩ := List.getElem_of_mem hcL
      have := List.forall₂_iff_get.mp h3
      have hm := this.2 i hi (this.1 ▸ hi)
      simp only [List.get_eq_getElem] at hm
      rw [hem.refuses _ _ _ _ _ (by rw [samples_length _ x y hy]; exact hlt)] at hm
      cases hm
    · rw [h7]
      by_cases hd : g.order ≤ y.count d
      · exfalso
        rw [← samples_length d x y hy] at hd
        obtain ⟨m, hm⟩ := hem.accepts n g.order g.index g.regularize _ hd (le_trans ho hd) hr
        rw [hm] at h6
        cases h6
      · rw [hem.refuses _ _ _ _ _ (by rw [samples_length _ x y hy]; omega)] at h6
        cases h6
        rfl

/-- C116.  A batch of fewer than `order` samples for each different label is refused. -/
theorem C116_batch (em : Sklearn) (hem : ComponentsSpec em) (g : GaussMix) (ho : 2 ≤ g.order) (hr : 0 < g.regularize) (n : ℕ) (hn : n ≠ 0) (x : List (Vec n))
    (hx : x ≠ []) (y : List ℤ) (hy : y.length = x.length) (h : x.length < g.order * y.toFinset.card) :
    (g.fit em (some ⟨n, x⟩) ⟨true, y⟩).1 = .error .valueError := by
  refine (C116_needs em hem g ho hr n hn x hx y hy).2 fun hall => ?_
  have h1 : ∑ c ∈ y.toFinset, y.count c = y.length := List.sum_toFinset_count_eq_length y
  have h2 : y.toFinset.card * g.order ≤ ∑ c ∈ y.toFinset, y.count c := by
    rw [← smul_eq_mul]
    exact Finset.card_nsmul_le_sum _ _ _ fun c hc => hall c (List.mem_toFinset.mp hc)
  rw [h1, hy, mul_comm] at h2
  omega

/-- C116.  The documented example, `GaussianMixtureModel(order = 10, index = 100)` fitted to 32 samples with labels from 0 to 9, raises ValueError whenever
more than three different labels occur. -/
theorem C116_example (em : Sklearn) (hem : ComponentsSpec em) (x : List (Vec 2)) (hx : x.length = 32) (y : List ℤ) (hy : y.length = 32) (h : 3 < y.toFinset.card) :
    ∃ g, GaussMix.new 10 100 (1 / 10) = .ok g ∧ (g.fit em (some ⟨2, x⟩) ⟨true, y⟩).1 = .error .valueError := by
  obtain ⟨g, h1, h2, h3, h4, -⟩ := (C56_rejects 10 100 (1 / 10)).2.1 (by norm_num) (by norm_num) (by norm_num)
  have ho : g.order = 10 := by exact_mod_cast h2
  refine ⟨g, h1, C116_batch em hem g (by omega) (by rw [h4]; norm_num) 2 (by norm_num) x (by rintro rfl; simp at hx) y (by omega) ?_⟩
  rw [ho, hx]
  omega

private theorem countLess (c : ℤ) : ∀ (L : List ℤ) (k : ℕ), L.Pairwise (· < ·) → L[k]? = some c → (L.filter (· < c)).length = k
  | [], k, _, h => by simp at h
  | a :: L, 0, hp, h => by
    simp at h
    subst h
    rw [List.pairwise_cons] at hp
    simp
    exact fun b hb => (hp.1 b hb).le
  | a :: L, k + 1, hp, h => by
    rw [List.pairwise_cons] at hp
    simp at h
    have := hp.1 c (List.mem_of_getElem? h)
    simp [this, countLess c L k hp.2 h]

/-- C116.  A refused fit is not undone.  Let `c` be the least label which occurs too seldom.  What an earlier fit has learnt is lost; the model consists of
the classes with smaller labels; with at least one of them predict succeeds and ranks those only, so the class `c` and the classes above are never
predicted; with none predict raises ValueError. -/
theorem C116_refused (em : Sklearn) (hem : ComponentsSpec em) (g : GaussMix) (ho : 2 ≤ g.order) (hr : 0 < g.regularize) (n : ℕ) (hn : n ≠ 0) (x : List (Vec n))
    (hx : x ≠ []) (y : List ℤ) (hy : y.length = x.length) (c : ℤ) (hc : c ∈ y) (hcc : y.count c < g.order) (hmin : ∀ d ∈ y, d < c → g.order ≤ y.count d)
    (argsort : List ℝ → List ℕ) (hs : ∀ v, IsRanking v (argsort v)) (q : List (Vec n)) (hq : q ≠ []) :
    (g.fit em (some ⟨n, x⟩) ⟨true, y⟩).1 = .error .valueError ∧
      ((∃ d ∈ y, d < c) → ∃ rows, (g.fit em (some ⟨n, x⟩) ⟨true, y⟩).2.predict argsort (some ⟨n, q⟩) = .ok rows ∧ rows.length = q.length ∧
        ∀ p ∈ rows, p.Perm (List.range (y.toFinset.filter (· < c)).card)) ∧
      ((∀ d ∈ y, c ≤ d) → (g.fit em (some ⟨n, x⟩) ⟨true, y⟩).2.predict argsort (some ⟨n, q⟩) = .error .valueError) := by
  have hfail : (g.fit em (some ⟨n, x⟩) ⟨true, y⟩).1 = .error .valueError :=
    (C116_needs em hem g ho hr n hn x hx y hy).2 fun h => absurd (h c hc) (by omega)
  obtain ⟨L, models, h1, h2, h3, h4⟩ := C56_fit em g n hn x hx y hy
  have hlen : models.length = (y.toFinset.filter (· < c)).card := by
    rcases h4 with h4 | ⟨d, e, h5, h6, -⟩
    · rw [h4.1] at hfail; cases hfail
    · have hd : d = c := by
        have hdy := (h1.2 d).1 (List.mem_of_getElem? h5)
        rcases lt_trichotomy d c with hlt | rfl | hgt
        · exfalso
          have hd := hmin d hdy hlt
          rw [← samples_length d x y hy] at hd
          obtain ⟨m, hm⟩ := hem.accepts n g.order g.index g.regularize _ hd (le_trans ho hd) hr
          rw [hm] at h6
          cases h6
        · rfl
        · exfalso
          obtain ⟨i, hi, hic⟩ := List.getElem_of_mem ((h1.2 c).2 hc)
          have hk : models.length < L.length := (List.getElem?_eq_some_iff.mp h5).1
          have hdk : L[models.length] = d := (List.getElem?_eq_some_iff.mp h5).2
          have hik : i < models.length := by
            by_contra hcon
            rcases Nat.lt_or_ge models.length i with g1 | g1
            · have := List.pairwise_iff_getElem.mp h1.1 models.length i hk hi g1
              omega
            · have : i = models.length := by omega
              subst this
              omega
          have h3' := List.forall₂_iff_get.mp h3
          have hm := h3'.2 i (by rw [List.length_take]; omega) hik
          simp only [List.get_eq_getElem, List.getElem_take] at hm
          rw [hic, hem.refuses _ _ _ _ _ (by rw [samples_length _ x y hy]; exact hcc)] at hm
          cases hm
      subst hd
      rw [← countLess d L models.length h1.1 h5]
      have hnd : L.Nodup := h1.1.imp fun h => ne_of_lt h
      rw [← List.toFinset_card_of_nodup (hnd.filter _)]
      congr 1
      ext a
      simp [h1.2 a]
  refine ⟨hfail, fun ⟨d, hd, hdc⟩ => ?_, fun hle => ?_⟩
  · have hne : models ≠ [] := by
      rintro rfl
      have : d ∈ y.toFinset.filter (· < c) := by simp [hd, hdc]
      rw [Finset.card_eq_zero.mp hlen.symm] at this
      simp at this
    obtain ⟨rows, e1, e2⟩ := C56_rows argsort hs g.index g.order g.regularize n hn models hne q hq
    rw [h2]
    refine ⟨rows, e1, e2.length_eq.symm, fun p hp => ?_⟩
    obtain ⟨i, hi, rfl⟩ := List.getElem_of_mem hp
    have := (List.forall₂_iff_get.mp e2).2 i (by rw [e2.length_eq]; exact hi) hi
    rw [← hlen]
    exact this.1
  · have : models = [] := by
      apply List.length_eq_zero_iff.mp
      rw [hlen, Finset.card_eq_zero, Finset.filter_eq_empty_iff]
      intro a ha
      have := hle a (List.mem_toFinset.mp ha)
      omega
    rw [h2, this]
    simp [GaussMix.predict]

/-- An estimator of this kind exists: one which refuses what is documented and otherwise returns components at the origin. -/
private def plainEm : Sklearn := fun _ order _ _ z => if z.length < order then .error .valueError else .ok fun _ => ⟨1, 0, 1⟩

private theorem plainEm_spec : ComponentsSpec plainEm :=
  ⟨fun n o i r z h => by simp [plainEm, h], fun n o i r z h _ _ => ⟨fun _ => ⟨1, 0, 1⟩, by simp [plainEm, Nat.not_lt.mpr h]⟩⟩

/-- Labels 0, 0, 1 and two components: fit raises, and predict then knows the class 0 only. -/
example : ((GaussMix.mk 100 2 (1 / 10) ⟨0, []⟩).fit plainEm (some ⟨1, [![0], ![1], ![9]]⟩) ⟨true, [0, 0, 1]⟩).1 = .error .valueError ∧
    ∃ rows, ((GaussMix.mk 100 2 (1 / 10) ⟨0, []⟩).fit plainEm (some ⟨1, [![0], ![1], ![9]]⟩) ⟨true, [0, 0, 1]⟩).2.predict sortPositions (some ⟨1, [![9]]⟩) = .ok rows ∧
      ∀ p ∈ rows, p = [0] := by
  obtain ⟨h1, h2, -⟩ := C116_refused plainEm plainEm_spec (GaussMix.mk 100 2 (1 / 10) ⟨0, []⟩) (le_refl 2) (by norm_num) 1 (by norm_num) [![0], ![1], ![9]] (by simp)
    [0, 0, 1] rfl 1 (by simp) (by decide) (by decide) sortPositions sortPositions_ranking [![9]] (by simp)
  obtain ⟨rows, e1, -, e3⟩ := h2 ⟨0, by simp, by norm_num⟩
  refine ⟨h1, rows, e1, fun p hp => ?_⟩
  have := e3 p hp
  rw [show (([0, 0, 1] : List ℤ).toFinset.filter (· < 1)).card = 1 by decide] at this
  exact List.perm_singleton.mp this

/-- 32 samples with the labels 0, 1, 2, 3 in turn. -/
example : ∃ g, GaussMix.new 10 100 (1 / 10) = .ok g ∧
    (g.fit plainEm (some ⟨2, List.replicate 32 ![1, 2]⟩) ⟨true, (List.range 32).map fun k => ((k % 4 : ℕ) : ℤ)⟩).1 = .error .valueError :=
  C116_example plainEm plainEm_spec _ (by simp) _ (by simp) (by decide)

/-- `C116_needs`: two components for classes of two samples. -/
example : ((GaussMix.mk 100 2 (1 / 10) ⟨0, []⟩).fit plainEm (some ⟨1, [![0], ![1], ![9], ![8]]⟩) ⟨true, [0, 0, 1, 1]⟩).1 = .ok () :=
  (C116_needs plainEm plainEm_spec ⟨100, 2, 1 / 10, ⟨0, []⟩⟩ le_rfl (by norm_num) 1 (by norm_num) _ (by simp) _ rfl).1 (by decide)

/-- `C116_batch`: three samples in two classes. -/
example := C116_batch plainEm plainEm_spec ⟨100, 2, 1 / 10, ⟨0, []⟩⟩ le_rfl (by norm_num) 1 (by norm_num) [![0], ![1], ![9]] (by simp) [0, 0, 1] rfl (by decide)

end Verif.Props
