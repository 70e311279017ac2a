import Verif.Lemmas.Gaussian
import Mathlib.Data.List.Sort
import Mathlib.Tactic.FinCases
import Mathlib.Tactic.NormNum
import Mathlib.LinearAlgebra.Matrix.Determinant.Basic
import Mathlib.LinearAlgebra.Matrix.Notation

/-
Properties C53 to C56, C68 and C69: the Gaussian model and the Gaussian mixture model.
-/

namespace Verif.Props

open Verif Verif.Spec Matrix

/-- What a class model of GaussianModel has learnt: the mean, and the inverse of the regularised second moment. -/
def Learnt {n : ℕ} (r : ℝ) (z : List (Vec n)) (m : GClass n) : Prop :=
  m.mean = sampleMean z ∧ ((1 / (n : ℝ)) • scatter z + r • (1 : Matrix (Fin n) (Fin n) ℝ)) * m.covariancei = 1 ∧ m.covariancei.PosDef

/-- The regularised second moment of the samples of a class. -/
noncomputable abbrev moment {n : ℕ} (r : ℝ) (z : List (Vec n)) : Matrix (Fin n) (Fin n) ℝ := (1 / (n : ℝ)) • scatter z + r • (1 : Matrix (Fin n) (Fin n) ℝ)

/-- C53: with a positive `regularize` every fit of valid data succeeds: there is one model for each distinct label, in increasing order of the labels;
each is made of the mean of the samples with that label and of the inverse of their regularised second moment, which is positive definite. -/
theorem C53_fit (g : Gauss) (hr : 0 < g.regularize) (n : ℕ) (hn : n ≠ 0) (x : List (Vec n)) (hx : x ≠ []) (y : List ℤ) (hy : y.length = x.length) :
    ∃ L models, IsLabels y L ∧ g.fit (some ⟨n, x⟩) ⟨true, y⟩ = (.ok (), { regularize := g.regularize, fitted := ⟨n, models⟩ }) ∧
      List.Forall₂ (fun c m => Learnt g.regularize (samplesOf (x.zip y) c) m) L models := by
  obtain ⟨l, h1, h2⟩ := gm.loop_ok (fun ii => gm.train g.regularize (gm.group x y ii))
    (fun c m => Learnt g.regularize (samplesOf (x.zip y) c) m) (fun c => by
      have hp := gm.covariance_posDef g.regularize hr (gm.group x y c)
      have hd : IsUnit (gm.covariance g.regularize (gm.group x y c)).det := (Matrix.isUnit_iff_isUnit_det _).mp hp.isUnit
      refine ⟨⟨(gm.covariance g.regularize (gm.group x y c))⁻¹, gm.mean (gm.group x y c)⟩, ?_, ?_, ?_, ?_⟩
      · simp only [gm.train]
        rw [if_neg hd.ne_zero]
      · rw [gm.group_eq]; rfl
      · rw [← gm.group_eq, ← gm.covariance_eq]
        exact Matrix.mul_nonsing_inv _ hd
      · exact hp.inv) (gm.classes y) []
  refine ⟨gm.classes y, l, gm.classes_spec y, ?_, h2⟩
  simp only [Gauss.fit, hn, hx, hy, h1]
  simp

example : ∃ L models, IsLabels [7, 5, 7] L ∧ (Gauss.mk (1 / 10) ⟨0, []⟩).fit (some ⟨1, [![0], ![1], ![2]]⟩) ⟨true, [7, 5, 7]⟩ = (.ok (), { regularize := 1 / 10, fitted := ⟨1, models⟩ }) ∧
    List.Forall₂ (fun c m => Learnt (1 / 10) (samplesOf ([![0], ![1], ![2]].zip [7, 5, 7]) c) m) L models :=
  C53_fit (Gauss.mk (1 / 10) ⟨0, []⟩) (by norm_num) 1 (by norm_num) [![0], ![1], ![2]] (by simp) [7, 5, 7] rfl

/-- C53, distances: the number compared by predict is the squared distance with respect to the second moment, it is nonnegative and vanishes only at the mean. -/
theorem C53_distance {n : ℕ} (r : ℝ) (hr : 0 < r) (z : List (Vec n)) (m : GClass n) (h : Learnt r z m) (x : Vec n) :
    IsSquaredDistance (moment r z) (sampleMean z) x (gm.quad m.covariancei m.mean x) ∧ 0 ≤ gm.quad m.covariancei m.mean x ∧
      (gm.quad m.covariancei m.mean x = 0 ↔ x = sampleMean z) := by
  obtain ⟨h1, h2, h3⟩ := h
  have hp : (moment r z).PosDef := by
    have := gm.covariance_posDef r hr z
    rwa [gm.covariance_eq] at this
  have e : m.covariancei = (moment r z)⁻¹ := (Matrix.inv_eq_right_inv h2).symm
  have hq := gm.quad_eq (moment r z) hp (sampleMean z) x
  rw [e, h1]
  refine ⟨hq, le_max_right _ _, ?_⟩
  constructor
  · intro h0
    by_contra hne
    obtain ⟨w, hw1, hw2⟩ := hq
    have hw : w ≠ 0 := by
      intro hw
      rw [hw, Matrix.mulVec_zero] at hw1
      exact hne (sub_eq_zero.mp hw1.symm)
    have hpos := hp.dotProduct_mulVec_pos hw
    rw [star_trivial, hw1, ← hw2, h0] at hpos
    exact lt_irrefl _ hpos
  · intro hx
    subst hx
    simp [gm.quad]

/-- The hypothesis of C53_distance is met by a model of dimension one: samples 0 and 2, second moment 2 + 2. -/
example : Learnt 2 [(![0] : Vec 1), ![2]] ⟨!![1 / 4], ![1]⟩ := by
  refine ⟨?_, ?_, ?_⟩
  · funext j; fin_cases j; norm_num [sampleMean]
  · ext i j
    fin_cases i; fin_cases j
    norm_num [scatter, sampleMean, Matrix.mul_apply]
  · have : (!![1 / 4] : Matrix (Fin 1) (Fin 1) ℝ) = (1 / 4 : ℝ) • (1 : Matrix (Fin 1) (Fin 1) ℝ) := by
      ext i j; fin_cases i; fin_cases j; simp
    rw [this]
    exact Matrix.PosDef.smul Matrix.PosDef.one (by norm_num)

/-- C53, regularisation is needed: with `regularize` 0 a class of one sample raises, whatever the model and the sample, and the models of the classes before it
are kept, so that predict then works with fewer classes than there are labels. -/
theorem C53_singular (fitted : (n : ℕ) × List (GClass n)) : ∃ m, (Gauss.mk 0 fitted).fit (some ⟨1, [![0], ![2], ![5]]⟩) ⟨true, [1, 1, 2]⟩ = (.error .other, { regularize := 0, fitted := ⟨1, [m]⟩ }) := by
  have hc : gm.classes [1, 1, 2] = [1, 2] := gm.classes_eq [1, 1, 2] [1, 2] (by simp [IsLabels])
  have g1 : gm.group [(![0] : Vec 1), ![2], ![5]] [1, 1, 2] 1 = [![0], ![2]] := by simp [gm.group]
  have g2 : gm.group [(![0] : Vec 1), ![2], ![5]] [1, 1, 2] 2 = [![5]] := by simp [gm.group]
  have d1 : (gm.covariance 0 [(![0] : Vec 1), ![2]]).det ≠ 0 := by
    rw [gm.covariance_eq, Matrix.det_fin_one]
    norm_num [scatter, sampleMean]
  have d2 : (gm.covariance 0 [(![5] : Vec 1)]).det = 0 := by
    rw [gm.covariance_eq, Matrix.det_fin_one]
    norm_num [scatter, sampleMean]
  refine ⟨⟨(gm.covariance 0 [(![0] : Vec 1), ![2]])⁻¹, gm.mean [(![0] : Vec 1), ![2]]⟩, ?_⟩
  simp only [Gauss.fit, hc, gm.loop, g1, g2, gm.train, if_neg d1, if_pos d2]
  simp

/-- C53, validation: data which are not a nonempty two dimensional array, labels of a different number or of a dtype which is not an integer are rejected, and the model is as before;
so is a negative `regularize`. -/
theorem C53_rejects (g : Gauss) : (∀ y, g.fit none y = (.error .valueError, g)) ∧
    (∀ n x y, n = 0 ∨ x = [] → g.fit (some ⟨n, x⟩) y = (.error .valueError, g)) ∧
    (∀ n x y, y.labels.length ≠ x.length → g.fit (some ⟨n, x⟩) y = (.error .valueError, g)) ∧
    (∀ n x y, n ≠ 0 → x ≠ [] → y.labels.length = x.length → y.integer = false → g.fit (some ⟨n, x⟩) y = (.error .typeError, g)) ∧
    (∀ r, r < 0 ↔ Gauss.new r = .error .valueError) ∧ (∀ r, r < 0 → g.setRegularize r = (.error .valueError, g)) ∧
    ∀ r, 0 ≤ r → g.setRegularize r = (.ok (), { g with regularize := r }) := by
  refine ⟨fun y => rfl, ?_, ?_, ?_, ?_, ?_, ?_⟩
  · intro n x y h
    simp only [Gauss.fit, if_pos h]
  · intro n x y h
    simp only [Gauss.fit, if_pos h, ite_self]
  · intro n x y hn hx h h'
    simp [Gauss.fit, hn, hx, h, h']
  · intro r
    unfold Gauss.new
    split <;> simp_all
  · intro r h
    simp [Gauss.setRegularize, h]
  · intro r h
    simp [Gauss.setRegularize, not_lt.mpr h]

example : (Gauss.mk 1 ⟨0, []⟩).fit (some ⟨1, [![0], ![2]]⟩) ⟨false, [1, 2]⟩ = (.error .typeError, Gauss.mk 1 ⟨0, []⟩) :=
  (C53_rejects _).2.2.2.1 _ _ _ (by simp) (by simp) rfl rfl

/-- The ranking of real numbers exists: insertion of the positions by value. -/
noncomputable def sortPositions (v : List ℝ) : List ℕ := (List.range v.length).insertionSort fun a b => v.getD a 0 ≤ v.getD b 0

theorem sortPositions_ranking (v : List ℝ) : IsRanking v (sortPositions v) := by
  have : Std.Total fun a b : ℕ => v.getD a 0 ≤ v.getD b 0 := ⟨fun a b => le_total _ _⟩
  have : IsTrans ℕ fun a b : ℕ => v.getD a 0 ≤ v.getD b 0 := ⟨fun a b c h h' => le_trans h h'⟩
  exact ⟨List.perm_insertionSort _ _, List.pairwise_insertionSort _ _⟩

/-- C54: after a fit of valid data, each row of predict is a permutation of the positions of the distinct labels in increasing order, by nondecreasing
squared distance of the observation from the class. -/
theorem C54_rows (argsort : List ℝ → List ℕ) (hs : ∀ v, IsRanking v (argsort v)) (g : Gauss) (hr : 0 < g.regularize) (n : ℕ) (hn : n ≠ 0) (x : List (Vec n)) (hx : x ≠ []) (y : List ℤ) (hy : y.length = x.length)
    (q : List (Vec n)) (hq : q ≠ []) : ∃ L rows, IsLabels y L ∧ (g.fit (some ⟨n, x⟩) ⟨true, y⟩).2.predict argsort (some ⟨n, q⟩) = .ok rows ∧
      List.Forall₂ (fun o p => ∃ d : List ℝ, List.Forall₂ (fun c v => IsSquaredDistance (moment g.regularize (samplesOf (x.zip y) c)) (sampleMean (samplesOf (x.zip y) c)) o v) L d ∧ IsRanking d p) q rows := by
  obtain ⟨L, models, h1, h2, h3⟩ := C53_fit g hr n hn x hx y hy
  have hm : models ≠ [] := by
    intro h
    subst h
    cases h3
    cases y with
    | nil => exact hx (List.length_eq_zero_iff.mp (by simpa using hy.symm))
    | cons a t => simpa using (h1.2 a).mpr (by simp)
  refine ⟨L, q.map fun r => argsort (models.map fun c => gm.quad c.covariancei c.mean r), h1, ?_, ?_⟩
  · rw [h2]
    simp [Gauss.predict, hm, hn, hq]
  · rw [List.forall₂_map_right_iff, List.forall₂_same]
    intro o _
    have hk := hs (models.map fun c => gm.quad c.covariancei c.mean o)
    refine ⟨models.map (fun c => gm.quad c.covariancei c.mean o), ?_, ?_⟩
    rotate_left
    · exact hk
    rw [List.forall₂_map_right_iff]
    refine List.Forall₂.imp ?_ h3
    intro c m h
    have := (C53_distance g.regularize hr (samplesOf (x.zip y) c) m h o).1
    exact this

/-- The hypotheses of C54_rows are met. -/
example : ∃ L rows, IsLabels [7, 5, 7] L ∧ ((Gauss.mk (1 / 10) ⟨0, []⟩).fit (some ⟨1, [![0], ![1], ![2]]⟩) ⟨true, [7, 5, 7]⟩).2.predict sortPositions (some ⟨1, [![3]]⟩) = .ok rows ∧ rows.length = 1 := by
  obtain ⟨L, rows, h1, h2, h3⟩ := C54_rows sortPositions sortPositions_ranking (Gauss.mk (1 / 10) ⟨0, []⟩) (by norm_num) 1 (by norm_num) [![0], ![1], ![2]] (by simp) [7, 5, 7] rfl [![3]] (by simp)
  exact ⟨L, rows, h1, h2, h3.length_eq.symm⟩

/-- C54, the first entry of a ranking is the position of a least value. -/
theorem C54_first (d : List ℝ) (p : List ℕ) (h : IsRanking d p) (hd : d ≠ []) : ∃ a t, p = a :: t ∧ a < d.length ∧ ∀ b < d.length, d.getD a 0 ≤ d.getD b 0 := by
  obtain ⟨h1, h2⟩ := h
  cases p with
  | nil =>
    have := h1.length_eq
    simp at this
    exact absurd (List.length_eq_zero_iff.mp this.symm) hd
  | cons a t =>
    refine ⟨a, t, rfl, List.mem_range.mp (h1.subset (by simp)), fun b hb => ?_⟩
    have hb' : b ∈ a :: t := h1.symm.subset (List.mem_range.mpr hb)
    rcases List.mem_cons.mp hb' with rfl | hb'
    · exact le_rfl
    · exact (List.pairwise_cons.mp h2).1 b hb'

example : ∃ a t, sortPositions [3, 1, 2] = a :: t ∧ a < [(3 : ℝ), 1, 2].length ∧ ∀ b < [(3 : ℝ), 1, 2].length, [(3 : ℝ), 1, 2].getD a 0 ≤ [(3 : ℝ), 1, 2].getD b 0 :=
  C54_first _ _ (sortPositions_ranking _) (by simp)

/-- C54, before a fit predict raises ValueError, and so it does for data which are not a nonempty two dimensional array or whose rows are of another length than those of the fit. -/
theorem C54_rejects (argsort : List ℝ → List ℕ) :
    (∀ r g x, Gauss.new r = .ok g → g.predict argsort x = .error .valueError) ∧ (∀ g : Gauss, g.predict argsort none = .error .valueError) ∧
    (∀ (g : Gauss) n x, n = 0 ∨ x = [] → g.predict argsort (some ⟨n, x⟩) = .error .valueError) ∧
    (∀ (g : Gauss) n x, n ≠ g.fitted.1 → g.predict argsort (some ⟨n, x⟩) = .error .valueError) := by
  refine ⟨?_, ?_, ?_, ?_⟩
  · intro r g x h
    unfold Gauss.new at h
    split at h
    · exact absurd h (by simp)
    · obtain rfl := Except.ok.inj h
      simp [Gauss.predict]
  · intro g
    simp [Gauss.predict]
  · intro g n x h
    simp only [Gauss.predict, if_pos h, ite_self]
  · intro g n x h
    simp only [Gauss.predict, dif_neg h, ite_self]

example (argsort : List ℝ → List ℕ) : (Gauss.mk 1 ⟨2, []⟩).predict argsort (some ⟨1, [![0], ![2]]⟩) = .error .valueError :=
  (C54_rejects argsort).2.2.2 _ _ _ (by simp)

/-- C55: a permutation of the samples together with their labels gives the same model, or the same exception, for every `regularize`. -/
theorem C55_permutation (g : Gauss) (n : ℕ) (x x' : List (Vec n)) (y y' : List ℤ) (hy : y.length = x.length) (hy' : y'.length = x'.length)
    (h : (x.zip y).Perm (x'.zip y')) : g.fit (some ⟨n, x⟩) ⟨true, y⟩ = g.fit (some ⟨n, x'⟩) ⟨true, y'⟩ := by
  have hx : x.Perm x' := by
    have := h.map Prod.fst
    rwa [List.map_fst_zip hy.ge, List.map_fst_zip hy'.ge] at this
  have hyp : y.Perm y' := by
    have := h.map Prod.snd
    rwa [List.map_snd_zip hy.le, List.map_snd_zip hy'.le] at this
  have he : x = [] ↔ x' = [] := by
    constructor
    · rintro rfl; exact hx.nil_eq.symm
    · rintro rfl; exact hx.eq_nil
  have hc : gm.classes y = gm.classes y' := by
    unfold gm.classes
    rw [List.toFinset_eq_of_perm _ _ hyp]
  have ht : (fun ii => gm.train g.regularize (gm.group x y ii)) = fun ii => gm.train g.regularize (gm.group x' y' ii) := by
    funext ii
    rw [gm.group_eq, gm.group_eq]
    exact gm.train_perm _ (gm.samplesOf_perm h ii)
  simp only [Gauss.fit, he, hy, hy', hc, ht, ne_eq, not_true_eq_false]

example : (Gauss.mk (1 / 10) ⟨0, []⟩).fit (some ⟨1, [![0], ![1], ![2]]⟩) ⟨true, [7, 5, 7]⟩ = (Gauss.mk (1 / 10) ⟨0, []⟩).fit (some ⟨1, [![2], ![0], ![1]]⟩) ⟨true, [7, 7, 5]⟩ :=
  C55_permutation _ 1 _ _ [7, 5, 7] [7, 7, 5] rfl rfl (by
    simp only [List.zip_cons_cons, List.zip_nil_left]
    exact (List.perm_append_comm (l₁ := [(![0], 7), (![1], 5)]) (l₂ := [(![2], 7)])))

/-- C55: a translation of the samples and of the observations leaves the predictions as they are. -/
theorem C55_translation (argsort : List ℝ → List ℕ) (g : Gauss) (n : ℕ) (x : List (Vec n)) (y : List ℤ) (hy : y.length = x.length) (hx : x ≠ []) (hn : n ≠ 0) (q : List (Vec n)) (c : Vec n) :
    (g.fit (some ⟨n, x.map (· + c)⟩) ⟨true, y⟩).1 = (g.fit (some ⟨n, x⟩) ⟨true, y⟩).1 ∧
    (g.fit (some ⟨n, x.map (· + c)⟩) ⟨true, y⟩).2.predict argsort (some ⟨n, q.map (· + c)⟩) = (g.fit (some ⟨n, x⟩) ⟨true, y⟩).2.predict argsort (some ⟨n, q⟩) := by
  have hg : ∀ ii, gm.group (x.map (· + c)) y ii = (gm.group x y ii).map (· + c) := by
    intro ii
    simp only [gm.group, List.zip_map_left, List.filter_map, List.map_map]
    rfl
  have hcl : ∀ ii ∈ gm.classes y, gm.group x y ii ≠ [] := by
    intro ii hi h
    have hi' : ii ∈ y := ((gm.classes_spec y).2 ii).mp hi
    obtain ⟨k, hk, rfl⟩ := List.getElem_of_mem hi'
    have : x[k]'(by omega) ∈ gm.group x y y[k] := by
      simp only [gm.group, List.mem_map, List.mem_filter, decide_eq_true_eq]
      refine ⟨(x[k]'(by omega), y[k]), ⟨?_, rfl⟩, rfl⟩
      have hz : k < (x.zip y).length := by simp; omega
      have := List.getElem_mem hz
      simpa using this
    rw [h] at this
    exact absurd this (by simp)
  have key : ∀ L, (∀ ii ∈ L, gm.group x y ii ≠ []) → ∀ acc : List (GClass n),
      gm.loop (fun ii => gm.train g.regularize (gm.group (x.map (· + c)) y ii)) L (acc.map fun m => ⟨m.covariancei, m.mean + c⟩) =
        ((gm.loop (fun ii => gm.train g.regularize (gm.group x y ii)) L acc).1, (gm.loop (fun ii => gm.train g.regularize (gm.group x y ii)) L acc).2.map fun m => ⟨m.covariancei, m.mean + c⟩) := by
    intro L
    induction L with
    | nil => intro _ acc; rfl
    | cons a t ih =>
      intro ha acc
      have hz := ha a (by simp)
      have hcov : gm.covariance g.regularize ((gm.group x y a).map (· + c)) = gm.covariance g.regularize (gm.group x y a) := by
        rw [gm.covariance_eq, gm.covariance_eq, gm.scatter_shift]
      have hmean : gm.mean ((gm.group x y a).map (· + c)) = gm.mean (gm.group x y a) + c := gm.mean_shift _ hz c
      by_cases hd : (gm.covariance g.regularize (gm.group x y a)).det = 0
      · simp only [gm.loop, gm.train, hg, hcov, if_pos hd]
      · simp only [gm.loop, gm.train, hg, hcov, if_neg hd, hmean]
        have := ih (fun ii hi => ha ii (by simp [hi])) (acc ++ [⟨(gm.covariance g.regularize (gm.group x y a))⁻¹, gm.mean (gm.group x y a)⟩])
        simp only [List.map_append, List.map_cons, List.map_nil, gm.train, hg] at this
        exact this
  have k0 := key (gm.classes y) hcl []
  rw [List.map_nil] at k0
  have hx' : x.map (· + c) ≠ [] := by simpa using hx
  rw [Gauss.fit_valid g n hn _ hx' y (by simpa using hy), Gauss.fit_valid g n hn x hx y hy, k0]
  refine ⟨rfl, ?_⟩
  simp only [Gauss.predict_valid _ _ _ hn, List.map_eq_nil_iff]
  congr 1
  congr 1
  rw [List.map_map]
  apply List.map_congr_left
  intro o _
  simp only [Function.comp, List.map_map]
  congr 1
  apply List.map_congr_left
  intro m _
  simp only [Function.comp, gm.quad, add_sub_add_right_eq_sub]

example (q : List (Vec 1)) : ((Gauss.mk (1 / 10) ⟨0, []⟩).fit (some ⟨1, [![0], ![1], ![2]].map (· + ![4])⟩) ⟨true, [7, 5, 7]⟩).2.predict sortPositions (some ⟨1, q.map (· + ![4])⟩) =
    ((Gauss.mk (1 / 10) ⟨0, []⟩).fit (some ⟨1, [![0], ![1], ![2]]⟩) ⟨true, [7, 5, 7]⟩).2.predict sortPositions (some ⟨1, q⟩) :=
  (C55_translation sortPositions _ 1 [![0], ![1], ![2]] [7, 5, 7] rfl (by simp) (by norm_num) q ![4]).2

/-- C53, any fit of valid data, of whatever `regularize`: the classes are visited in increasing order of the labels, those visited are learnt from their own samples, and an exception
is that of the first class whose second moment is singular; the classes before it stay in the model. -/
theorem C53_fit_any (g : Gauss) (n : ℕ) (hn : n ≠ 0) (x : List (Vec n)) (hx : x ≠ []) (y : List ℤ) (hy : y.length = x.length) :
    ∃ L models, IsLabels y L ∧ (g.fit (some ⟨n, x⟩) ⟨true, y⟩).2 = { regularize := g.regularize, fitted := ⟨n, models⟩ } ∧
      List.Forall₂ (fun c m => m.mean = sampleMean (samplesOf (x.zip y) c) ∧ moment g.regularize (samplesOf (x.zip y) c) * m.covariancei = 1) (L.take models.length) models ∧
      (((g.fit (some ⟨n, x⟩) ⟨true, y⟩).1 = .ok () ∧ models.length = L.length) ∨
        ∃ c, L[models.length]? = some c ∧ (moment g.regularize (samplesOf (x.zip y) c)).det = 0 ∧ (g.fit (some ⟨n, x⟩) ⟨true, y⟩).1 = .error .other) := by
  obtain ⟨l, h1, h2, h3⟩ := gm.loop_spec (fun ii => gm.train g.regularize (gm.group x y ii)) (gm.classes y) []
  have e : g.fit (some ⟨n, x⟩) ⟨true, y⟩ = ((gm.loop (fun ii => gm.train g.regularize (gm.group x y ii)) (gm.classes y) []).1, { regularize := g.regularize, fitted := ⟨n, l⟩ }) := by
    simp only [Gauss.fit, hn, hx, hy, h1]
    simp
  rw [e]
  refine ⟨gm.classes y, l, gm.classes_spec y, rfl, h2.imp ?_, ?_⟩
  · intro c m h
    rw [gm.group_eq] at h
    simp only [gm.train] at h
    split at h
    · exact absurd h (by simp)
    · rename_i hd
      obtain rfl := Except.ok.inj h
      refine ⟨rfl, ?_⟩
      rw [moment, ← gm.covariance_eq]
      exact Matrix.mul_nonsing_inv _ (isUnit_iff_ne_zero.mpr hd)
  · rcases h3 with h | ⟨c, e', hc, he, hr⟩
    · exact .inl h
    · refine .inr ⟨c, hc, ?_⟩
      rw [gm.group_eq] at he
      simp only [gm.train] at he
      split at he
      · rename_i hd
        obtain rfl := Except.error.inj he
        refine ⟨?_, hr⟩
        rwa [moment, ← gm.covariance_eq]
      · exact absurd he (by simp)

/-- The hypotheses of C53_fit_any are met, with an exception: C53_singular. -/
example : ∃ L models, IsLabels [1, 1, 2] L ∧ ((Gauss.mk 0 ⟨0, []⟩).fit (some ⟨1, [![0], ![2], ![5]]⟩) ⟨true, [1, 1, 2]⟩).2 = { regularize := 0, fitted := ⟨1, models⟩ } := by
  obtain ⟨L, models, h1, h2, _⟩ := C53_fit_any (Gauss.mk 0 ⟨0, []⟩) 1 (by norm_num) [![0], ![2], ![5]] (by simp) [1, 1, 2] rfl
  exact ⟨L, models, h1, h2⟩

/-! ### C56: mixtures -/

/-- The score of a mixture: the weighted sum of exponentials of quadratic forms, clipped at zero. -/
noncomputable def mixScore {n order : ℕ} (c : Fin order → MixComp n) (x : Vec n) : ℝ :=
  ∑ k, (c k).weight * Real.exp (-(max ((x - (c k).mean) ⬝ᵥ ((c k).precision *ᵥ (x - (c k).mean))) 0) / 2)

/-- C56: each row of predict is a permutation of the positions of the fitted mixtures by nonincreasing score, whatever they are. -/
theorem C56_rows (argsort : List ℝ → List ℕ) (hs : ∀ v, IsRanking v (argsort v)) (index : ℤ) (order : ℕ) (regularize : ℝ) (n : ℕ) (hn : n ≠ 0) (models : List (Fin order → MixComp n)) (hm : models ≠ [])
    (q : List (Vec n)) (hq : q ≠ []) : ∃ rows, (GaussMix.mk index order regularize ⟨n, models⟩).predict argsort (some ⟨n, q⟩) = .ok rows ∧
      List.Forall₂ (fun o p => p.Perm (List.range models.length) ∧ p.Pairwise fun a b => ∀ m m', models[a]? = some m → models[b]? = some m' → mixScore m' o ≤ mixScore m o) q rows := by
  refine ⟨q.map fun r => (argsort (models.map fun c => gm.score c r)).reverse, ?_, ?_⟩
  · simp [GaussMix.predict, hm, hn, hq]
  · rw [List.forall₂_map_right_iff, List.forall₂_same]
    intro o _
    obtain ⟨h1, h2⟩ := hs (models.map fun c => gm.score c o)
    refine ⟨(List.reverse_perm _).trans (by simpa using h1), ?_⟩
    rw [List.pairwise_reverse]
    refine h2.imp fun {a b} h m m' hm hm' => ?_
    have e : ∀ c : Fin order → MixComp n, mixScore c o = gm.score c o := by
      intro c
      simp only [mixScore, gm.score, gm.quad, Matrix.dotProduct_mulVec]
      refine Finset.sum_congr rfl fun k _ => ?_
      congr 2
      ring
    rw [e, e]
    simpa [List.getD_eq_getElem?_getD, hm, hm'] using h

example : ∃ rows, (GaussMix.mk 100 1 (1 / 10) ⟨1, [fun _ => ⟨!![1], ![0], 1⟩, fun _ => ⟨!![1], ![3], 1⟩]⟩).predict sortPositions (some ⟨1, [![2]]⟩) = .ok rows ∧ rows.length = 1 := by
  obtain ⟨rows, h1, h2⟩ := C56_rows sortPositions sortPositions_ranking 100 1 (1 / 10) 1 (by norm_num) [fun _ => ⟨!![1], ![0], 1⟩, fun _ => ⟨!![1], ![3], 1⟩] (by simp) [![2]] (by simp)
  exact ⟨rows, h1, h2.length_eq.symm⟩

/-- C56, fit: the mixtures are those of sklearn for the samples of each class, in increasing order of the labels; an exception of sklearn is raised and leaves the mixtures before. -/
theorem C56_fit (em : Sklearn) (g : GaussMix) (n : ℕ) (hn : n ≠ 0) (x : List (Vec n)) (hx : x ≠ []) (y : List ℤ) (hy : y.length = x.length) :
    ∃ L models, IsLabels y L ∧ (g.fit em (some ⟨n, x⟩) ⟨true, y⟩).2 = { g with fitted := ⟨n, models⟩ } ∧
      List.Forall₂ (fun c m => em n g.order g.index g.regularize (samplesOf (x.zip y) c) = .ok m) (L.take models.length) models ∧
      (((g.fit em (some ⟨n, x⟩) ⟨true, y⟩).1 = .ok () ∧ models.length = L.length) ∨
        ∃ c e, L[models.length]? = some c ∧ em n g.order g.index g.regularize (samplesOf (x.zip y) c) = .error e ∧ (g.fit em (some ⟨n, x⟩) ⟨true, y⟩).1 = .error e) := by
  obtain ⟨l, h1, h2, h3⟩ := gm.loop_spec (fun ii => em n g.order g.index g.regularize (gm.group x y ii)) (gm.classes y) []
  have e : g.fit em (some ⟨n, x⟩) ⟨true, y⟩ = ((gm.loop (fun ii => em n g.order g.index g.regularize (gm.group x y ii)) (gm.classes y) []).1, { g with fitted := ⟨n, l⟩ }) := by
    simp only [GaussMix.fit, hn, hx, hy, h1]
    simp
  rw [e]
  simp only [gm.group_eq] at h2 h3 ⊢
  exact ⟨gm.classes y, l, gm.classes_spec y, rfl, h2, h3⟩

example (em : Sklearn) : ∃ L models, IsLabels [7, 5, 7] L ∧ ((GaussMix.mk 100 1 (1 / 10) ⟨0, []⟩).fit em (some ⟨1, [![0], ![1], ![2]]⟩) ⟨true, [7, 5, 7]⟩).2 = { index := 100, order := 1, regularize := 1 / 10, fitted := ⟨1, models⟩ } := by
  obtain ⟨L, models, h1, h2, _⟩ := C56_fit em (GaussMix.mk 100 1 (1 / 10) ⟨0, []⟩) 1 (by norm_num) [![0], ![1], ![2]] (by simp) [7, 5, 7] rfl
  exact ⟨L, models, h1, h2⟩

/-- C56, validation: the constructor accepts exactly a positive order, a positive index and a nonnegative `regularize`, and the setters keep it so. -/
theorem C56_rejects (order index : ℤ) (regularize : ℝ) :
    (GaussMix.new order index regularize = .error .valueError ↔ order ≤ 0 ∨ index ≤ 0 ∨ regularize < 0) ∧
    (0 < order → 0 < index → 0 ≤ regularize → ∃ g, GaussMix.new order index regularize = .ok g ∧ (g.order : ℤ) = order ∧ g.index = index ∧ g.regularize = regularize ∧ g.fitted.2 = []) ∧
    (∀ g : GaussMix, g.setIndex index = if 0 < index then (.ok (), { g with index := index }) else (.error .valueError, g)) ∧
    (∀ g : GaussMix, 0 ≤ regularize → g.setRegularize regularize = (.ok (), { g with regularize := regularize })) ∧
    (∀ g : GaussMix, regularize < 0 → g.setRegularize regularize = (.error .valueError, g)) := by
  refine ⟨?_, ?_, ?_, ?_, ?_⟩
  · unfold GaussMix.new
    split
    · simp_all
    · split
      · simp_all
      · split
        · simp_all
        · simp_all
  · intro h1 h2 h3
    refine ⟨_, by unfold GaussMix.new; rw [if_neg (by omega), if_neg (by omega), if_neg (not_lt.mpr h3)], ?_, rfl, rfl, rfl⟩
    simp; omega
  · intro g
    unfold GaussMix.setIndex
    by_cases h : 0 < index
    · rw [if_neg (by omega), if_pos h]
    · rw [if_pos (by omega), if_neg h]
  · intro g h
    simp [GaussMix.setRegularize, not_lt.mpr h]
  · intro g h
    simp [GaussMix.setRegularize, h]

example : GaussMix.new 0 10 1 = .error .valueError ∧ ∃ g, GaussMix.new 2 10 1 = .ok g :=
  ⟨(C56_rejects 0 10 1).1.mpr (.inl le_rfl), let ⟨g, h, _⟩ := (C56_rejects 2 10 1).2.1 (by norm_num) (by norm_num) (by norm_num); ⟨g, h⟩⟩

/-- C56, predict before a fit, or of data of the wrong shape, raises ValueError; fit of wrong data raises and changes nothing. -/
theorem C56_rejects_data (argsort : List ℝ → List ℕ) (em : Sklearn) :
    (∀ o i r g x, GaussMix.new o i r = .ok g → g.predict argsort x = .error .valueError) ∧ (∀ g : GaussMix, g.predict argsort none = .error .valueError) ∧
    (∀ (g : GaussMix) n x, n = 0 ∨ x = [] ∨ n ≠ g.fitted.1 → g.predict argsort (some ⟨n, x⟩) = .error .valueError) ∧
    (∀ (g : GaussMix) y, g.fit em none y = (.error .valueError, g)) ∧
    (∀ (g : GaussMix) n x y, n = 0 ∨ x = [] ∨ y.labels.length ≠ x.length → g.fit em (some ⟨n, x⟩) y = (.error .valueError, g)) ∧
    (∀ (g : GaussMix) n x y, n ≠ 0 → x ≠ [] → y.labels.length = x.length → y.integer = false → g.fit em (some ⟨n, x⟩) y = (.error .typeError, g)) := by
  refine ⟨?_, ?_, ?_, ?_, ?_, ?_⟩
  · intro o i r g x h
    unfold GaussMix.new at h
    split at h
    · exact absurd h (by simp)
    · split at h
      · exact absurd h (by simp)
      · split at h
        · exact absurd h (by simp)
        · obtain rfl := Except.ok.inj h
          simp [GaussMix.predict]
  · intro g
    simp [GaussMix.predict]
  · intro g n x h
    simp only [GaussMix.predict]
    by_cases h' : n = 0 ∨ x = []
    · simp only [if_pos h', ite_self]
    · have : n ≠ g.fitted.1 := by tauto
      simp only [dif_neg this, ite_self]
  · intro g y
    rfl
  · intro g n x y h
    simp only [GaussMix.fit]
    by_cases h' : n = 0 ∨ x = []
    · simp only [if_pos h']
    · have : y.labels.length ≠ x.length := by tauto
      simp only [if_pos this, ite_self]
  · intro g n x y hn hx h h'
    simp [GaussMix.fit, hn, hx, h, h']

/-! ### C68: the second moment is not an average over the samples -/

/-- C68: the samples repeated once more have the same mean and twice the scatter, so that the matrix learnt from them is not the one learnt from the samples
(an average over the samples, as is the maximum likelihood estimate, would be the same). -/
theorem C68_duplicate {n : ℕ} (z : List (Vec n)) (r : ℝ) : sampleMean (z ++ z) = sampleMean z ∧ moment r (z ++ z) = moment r z + (1 / (n : ℝ)) • scatter z := by
  refine ⟨gm.mean_double z, ?_⟩
  rw [moment, gm.scatter_double, moment, smul_comm, two_smul]
  abel

example := C68_duplicate [![(0 : ℝ), 1], ![2, 5]] 1

/-- C68, witness: repeating the training set reverses a prediction.  Classes 0 with samples 0 and 2, and 1 with sample 5; the observation 3.6. -/
theorem C68_violation (argsort : List ℝ → List ℕ) (hs : ∀ v, IsRanking v (argsort v)) :
    ((Gauss.mk 1 ⟨0, []⟩).fit (some ⟨1, [![0], ![2], ![5]]⟩) ⟨true, [0, 0, 1]⟩).2.predict argsort (some ⟨1, [![18 / 5]]⟩) = .ok [[1, 0]] ∧
    ((Gauss.mk 1 ⟨0, []⟩).fit (some ⟨1, [![0], ![2], ![5]] ++ [![0], ![2], ![5]]⟩) ⟨true, [0, 0, 1] ++ [0, 0, 1]⟩).2.predict argsort (some ⟨1, [![18 / 5]]⟩) = .ok [[0, 1]] := by
  have dist : ∀ (S : Matrix (Fin 1) (Fin 1) ℝ) (s u : ℝ) (m : Vec 1) (v : ℝ), IsSquaredDistance S m ![18 / 5] v → S 0 0 = s → m 0 = u → s ≠ 0 → v = (18 / 5 - u) ^ 2 / s := by
    intro S s u m v h hS hm h0
    obtain ⟨w, h1, h2⟩ := h
    have e := congrFun h1 0
    simp [Matrix.mulVec, dotProduct, hS, hm] at e
    simp [dotProduct, hm] at h2
    rw [h2]
    rw [← e, eq_div_iff h0]
    ring
  constructor
  · obtain ⟨L, rows, h1, h2, h3⟩ := C54_rows argsort hs (Gauss.mk 1 ⟨0, []⟩) (by norm_num) 1 (by norm_num) [![0], ![2], ![5]] (by simp) [0, 0, 1] rfl [![18 / 5]] (by simp)
    have hL : L = [0, 1] := (gm.classes_eq _ _ h1).symm.trans (gm.classes_eq _ _ (by simp [IsLabels]))
    subst hL
    rw [h2]
    obtain ⟨p, t, ⟨d, hd, hp⟩, ht, rfl⟩ := List.forall₂_cons_left_iff.mp h3
    obtain rfl := List.forall₂_nil_left_iff.mp ht
    obtain ⟨a, t, ha, ht1, rfl⟩ := List.forall₂_cons_left_iff.mp hd
    obtain ⟨b, t, hb, ht2, rfl⟩ := List.forall₂_cons_left_iff.mp ht1
    obtain rfl := List.forall₂_nil_left_iff.mp ht2
    have ea := dist _ 3 1 _ _ ha (by norm_num [moment, scatter, sampleMean, samplesOf, List.filterMap_cons]) (by norm_num [sampleMean, samplesOf, List.filterMap_cons]) (by norm_num)
    have eb := dist _ 1 5 _ _ hb (by norm_num [moment, scatter, sampleMean, samplesOf, List.filterMap_cons]) (by norm_num [sampleMean, samplesOf, List.filterMap_cons]) (by norm_num)
    rw [hp.two' (by rw [ea, eb]; norm_num)]
  · obtain ⟨L, rows, h1, h2, h3⟩ := C54_rows argsort hs (Gauss.mk 1 ⟨0, []⟩) (by norm_num) 1 (by norm_num) ([![0], ![2], ![5]] ++ [![0], ![2], ![5]]) (by simp) ([0, 0, 1] ++ [0, 0, 1]) rfl [![18 / 5]] (by simp)
    have hL : L = [0, 1] := (gm.classes_eq _ _ h1).symm.trans (gm.classes_eq _ _ (by simp [IsLabels]; omega))
    subst hL
    rw [h2]
    obtain ⟨p, t, ⟨d, hd, hp⟩, ht, rfl⟩ := List.forall₂_cons_left_iff.mp h3
    obtain rfl := List.forall₂_nil_left_iff.mp ht
    obtain ⟨a, t, ha, ht1, rfl⟩ := List.forall₂_cons_left_iff.mp hd
    obtain ⟨b, t, hb, ht2, rfl⟩ := List.forall₂_cons_left_iff.mp ht1
    obtain rfl := List.forall₂_nil_left_iff.mp ht2
    have ea := dist _ 5 1 _ _ ha (by norm_num [moment, scatter, sampleMean, samplesOf, List.filterMap_cons]) (by norm_num [sampleMean, samplesOf, List.filterMap_cons]) (by norm_num)
    have eb := dist _ 1 5 _ _ hb (by norm_num [moment, scatter, sampleMean, samplesOf, List.filterMap_cons]) (by norm_num [sampleMean, samplesOf, List.filterMap_cons]) (by norm_num)
    rw [hp.two (by rw [ea, eb]; norm_num)]

/-! ### C69: predictions are positions, not labels -/

/-- C69: labels changed by a strictly increasing function give the same model, hence the same predictions: predict returns positions among the sorted distinct labels. -/
theorem C69_gaussian (g : Gauss) (x : MatArg) (integer : Bool) (y : List ℤ) (f : ℤ → ℤ) (hf : StrictMono f) : g.fit x ⟨integer, y.map f⟩ = g.fit x ⟨integer, y⟩ := by
  cases x with
  | none => rfl
  | some x =>
    obtain ⟨n, x⟩ := x
    simp only [Gauss.fit, List.length_map, gm.classes_relabel y f hf, gm.loop_relabel, Function.comp_def, gm.group_relabel x y f hf]

/-- C69 for mixtures. -/
theorem C69_mixture (em : Sklearn) (g : GaussMix) (x : MatArg) (integer : Bool) (y : List ℤ) (f : ℤ → ℤ) (hf : StrictMono f) : g.fit em x ⟨integer, y.map f⟩ = g.fit em x ⟨integer, y⟩ := by
  cases x with
  | none => rfl
  | some x =>
    obtain ⟨n, x⟩ := x
    simp only [GaussMix.fit, List.length_map, gm.classes_relabel y f hf, gm.loop_relabel, Function.comp_def, gm.group_relabel x y f hf]

/-- Labels 5 and 7 are learnt as 0 and 1. -/
example (g : Gauss) (x : MatArg) : g.fit x ⟨true, [5, 5, 7]⟩ = g.fit x ⟨true, [0, 0, 1]⟩ := by
  have h := C69_gaussian g x true [0, 0, 1] (fun k => 2 * k + 5) (fun a b h => by show 2 * a + 5 < 2 * b + 5; omega)
  rwa [show ([0, 0, 1] : List ℤ).map (fun k => 2 * k + 5) = [5, 5, 7] by simp] at h

example (em : Sklearn) (g : GaussMix) (x : MatArg) : g.fit em x ⟨true, [5, 5, 7]⟩ = g.fit em x ⟨true, [0, 0, 1]⟩ := by
  have h := C69_mixture em g x true [0, 0, 1] (fun k => 2 * k + 5) (fun a b h => by show 2 * a + 5 < 2 * b + 5; omega)
  rwa [show ([0, 0, 1] : List ℤ).map (fun k => 2 * k + 5) = [5, 5, 7] by simp] at h

/-- C69, witness: with labels 5 and 7 no row contains a label. -/
theorem C69_violation (argsort : List ℝ → List ℕ) (hs : ∀ v, IsRanking v (argsort v)) :
    ((Gauss.mk 1 ⟨0, []⟩).fit (some ⟨1, [![0], ![2], ![5]]⟩) ⟨true, [5, 5, 7]⟩).2.predict argsort (some ⟨1, [![18 / 5]]⟩) = .ok [[1, 0]] := by
  have := C69_gaussian (Gauss.mk 1 ⟨0, []⟩) (some ⟨1, [![0], ![2], ![5]]⟩) true [0, 0, 1] (fun k => 2 * k + 5) (fun a b h => by show 2 * a + 5 < 2 * b + 5; omega)
  have e : ([0, 0, 1] : List ℤ).map (fun k => 2 * k + 5) = [5, 5, 7] := by simp
  rw [e] at this
  rw [this]
  exact (C68_violation argsort hs).1

/-- The hypothesis of `C68_violation` and `C69_violation` is met. -/
example := C68_violation sortPositions sortPositions_ranking

end Verif.Props
