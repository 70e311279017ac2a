import Verif.Model.Gaussian
import Verif.Spec.Classes
import Mathlib.LinearAlgebra.Matrix.PosDef
import Mathlib.Algebra.Order.Star.Real
import Mathlib.Data.List.Sort
import Mathlib.Tactic.Linarith
import Mathlib.Tactic.FieldSimp
import Mathlib.Tactic.IntervalCases

namespace Verif

open Matrix Spec

theorem gm.group_eq {n : ℕ} (x : List (Vec n)) (y : List ℤ) (c : ℤ) : gm.group x y c = samplesOf (x.zip y) c := by
  unfold gm.group samplesOf
  induction x.zip y with
  | nil => rfl
  | cons p t ih =>
    by_cases h : p.2 = c
    · simp [h, ih]
    · simp [h, ih]

theorem gm.classes_spec (y : List ℤ) : IsLabels y (gm.classes y) := by
  refine ⟨?_, fun c => by simp [gm.classes]⟩
  exact (Finset.sortedLT_sort y.toFinset).pairwise

theorem gm.classes_eq (y L : List ℤ) (h : IsLabels y L) : gm.classes y = L :=
  (gm.classes_spec y).1.eq_of_mem_iff h.1 fun c => ((gm.classes_spec y).2 c).trans (h.2 c).symm

theorem gm.mean_eq {n : ℕ} (z : List (Vec n)) : gm.mean z = sampleMean z := rfl

theorem gm.sum_fin {α : Type*} (z : List α) (f : α → ℝ) : ∑ k : Fin z.length, f z[k] = (z.map f).sum := by
  rw [← List.sum_ofFn]
  congr 1
  apply List.ext_getElem
  · simp
  · intro i h1 h2; simp

theorem gm.scatter_eq {n : ℕ} (z : List (Vec n)) : (gm.centred z (gm.mean z))ᵀ * gm.centred z (gm.mean z) = scatter z := by
  ext i j
  rw [Matrix.mul_apply]
  simp only [Matrix.transpose_apply, gm.centred, gm.mean_eq]
  exact gm.sum_fin z (fun v => (v i - sampleMean z i) * (v j - sampleMean z j))

theorem gm.covariance_eq {n : ℕ} (r : ℝ) (z : List (Vec n)) : gm.covariance r z = (1 / (n : ℝ)) • scatter z + r • (1 : Matrix (Fin n) (Fin n) ℝ) := by
  unfold gm.covariance
  rw [gm.scatter_eq]

theorem gm.covariance_posDef {n : ℕ} (r : ℝ) (hr : 0 < r) (z : List (Vec n)) : (gm.covariance r z).PosDef := by
  unfold gm.covariance
  refine Matrix.PosDef.posSemidef_add ?_ ?_
  · refine Matrix.PosSemidef.smul ?_ (by positivity)
    have := Matrix.posSemidef_conjTranspose_mul_self (gm.centred z (gm.mean z))
    rwa [Matrix.conjTranspose_eq_transpose_of_trivial] at this
  · exact Matrix.PosDef.smul Matrix.PosDef.one hr

theorem gm.loop_ok {M : Type*} (train : ℤ → Res M) (P : ℤ → M → Prop) (h : ∀ c, ∃ m, train c = .ok m ∧ P c m) (L : List ℤ) : ∀ acc, ∃ l,
    gm.loop train L acc = (.ok (), acc ++ l) ∧ List.Forall₂ P L l := by
  induction L with
  | nil => intro acc; exact ⟨[], by simp [gm.loop], .nil⟩
  | cons c t ih =>
    intro acc
    obtain ⟨m, h1, h2⟩ := h c
    obtain ⟨l, h3, h4⟩ := ih (acc ++ [m])
    refine ⟨m :: l, ?_, .cons h2 h4⟩
    rw [gm.loop, h1]
    simp only [h3, List.append_assoc, List.singleton_append]

theorem gm.loop_spec {M : Type*} (train : ℤ → Res M) (L : List ℤ) : ∀ acc, ∃ l, (gm.loop train L acc).2 = acc ++ l ∧
    List.Forall₂ (fun c m => train c = .ok m) (L.take l.length) l ∧
    (((gm.loop train L acc).1 = .ok () ∧ l.length = L.length) ∨ ∃ c e, L[l.length]? = some c ∧ train c = .error e ∧ (gm.loop train L acc).1 = .error e) := by
  induction L with
  | nil => intro acc; exact ⟨[], by simp [gm.loop], .nil, .inl ⟨rfl, rfl⟩⟩
  | cons c t ih =>
    intro acc
    rw [gm.loop]
    split
    · rename_i e he
      exact ⟨[], by simp, .nil, .inr ⟨c, e, rfl, he, rfl⟩⟩
    · rename_i m hm
      obtain ⟨l, h1, h2, h3⟩ := ih (acc ++ [m])
      refine ⟨m :: l, by simp [h1], ?_, ?_⟩
      · simp only [List.length_cons, List.take_succ_cons]
        exact .cons hm h2
      · simpa using h3

theorem gm.group_relabel {n : ℕ} (x : List (Vec n)) (y : List ℤ) (f : ℤ → ℤ) (hf : StrictMono f) (c : ℤ) : gm.group x (y.map f) (f c) = gm.group x y c := by
  simp only [gm.group, List.zip_map_right, List.filter_map, List.map_map]
  have : (fun p : Vec n × ℤ => decide (p.2 = f c)) ∘ Prod.map id f = fun p => decide (p.2 = c) := by
    funext p
    simp [hf.injective.eq_iff]
  rw [this]
  rfl

theorem gm.classes_relabel (y : List ℤ) (f : ℤ → ℤ) (hf : StrictMono f) : gm.classes (y.map f) = (gm.classes y).map f := by
  apply gm.classes_eq
  refine ⟨?_, fun c => ?_⟩
  · rw [List.pairwise_map]
    exact (gm.classes_spec y).1.imp fun h => hf h
  · simp [gm.classes]

theorem gm.loop_relabel {M : Type*} (train : ℤ → Res M) (f : ℤ → ℤ) (L : List ℤ) : ∀ acc, gm.loop train (L.map f) acc = gm.loop (train ∘ f) L acc := by
  induction L with
  | nil => intro acc; rfl
  | cons c t ih =>
    intro acc
    simp only [List.map_cons, gm.loop, Function.comp]
    split
    · rfl
    · exact ih _

theorem gm.quad_eq {n : ℕ} (S : Matrix (Fin n) (Fin n) ℝ) (hS : S.PosDef) (u x : Vec n) : IsSquaredDistance S u x (gm.quad S⁻¹ u x) := by
  have hu : IsUnit S.det := (Matrix.isUnit_iff_isUnit_det S).mp hS.isUnit
  have hi := hS.inv
  refine ⟨S⁻¹ *ᵥ (x - u), ?_, ?_⟩
  · rw [Matrix.mulVec_mulVec, Matrix.mul_nonsing_inv _ hu, Matrix.one_mulVec]
  · have hnn : 0 ≤ (S⁻¹ *ᵥ (x - u)) ⬝ᵥ (x - u) := by
      have := hi.posSemidef.dotProduct_mulVec_nonneg (x - u)
      rw [star_trivial] at this
      rwa [dotProduct_comm] at this
    have ht : (x - u) ᵥ* S⁻¹ = S⁻¹ *ᵥ (x - u) := by
      have hsym : (S⁻¹)ᵀ = S⁻¹ := by
        have := hi.isHermitian
        rwa [Matrix.IsHermitian, Matrix.conjTranspose_eq_transpose_of_trivial] at this
      rw [← Matrix.mulVec_transpose, hsym]
    unfold gm.quad
    rw [ht, max_eq_left hnn]

theorem IsSquaredDistance.unique {n : ℕ} {S : Matrix (Fin n) (Fin n) ℝ} (hS : S.PosDef) {u x : Vec n} {a b : ℝ} (ha : IsSquaredDistance S u x a) (hb : IsSquaredDistance S u x b) : a = b := by
  have hu : IsUnit S.det := (Matrix.isUnit_iff_isUnit_det S).mp hS.isUnit
  obtain ⟨v, h1, h2⟩ := ha
  obtain ⟨w, h3, h4⟩ := hb
  have : v = w := by
    have e : S⁻¹ *ᵥ (S *ᵥ v) = S⁻¹ *ᵥ (S *ᵥ w) := by rw [h1, h3]
    rwa [Matrix.mulVec_mulVec, Matrix.mulVec_mulVec, Matrix.nonsing_inv_mul _ hu, Matrix.one_mulVec, Matrix.one_mulVec] at e
  rw [h2, h4, this]

theorem gm.samplesOf_perm {V : Type*} {p q : List (V × ℤ)} (h : p.Perm q) (c : ℤ) : (samplesOf p c).Perm (samplesOf q c) := h.filterMap _

theorem gm.mean_perm {n : ℕ} {z w : List (Vec n)} (h : z.Perm w) : sampleMean z = sampleMean w := by
  funext j
  unfold sampleMean
  rw [(h.map fun v => v j).sum_eq, h.length_eq]

theorem gm.scatter_perm {n : ℕ} {z w : List (Vec n)} (h : z.Perm w) : scatter z = scatter w := by
  ext i j
  unfold scatter
  rw [gm.mean_perm h, (h.map _).sum_eq]

theorem gm.train_perm {n : ℕ} (r : ℝ) {z w : List (Vec n)} (h : z.Perm w) : gm.train r z = gm.train r w := by
  unfold gm.train
  have e1 : gm.covariance r z = gm.covariance r w := by rw [gm.covariance_eq, gm.covariance_eq, gm.scatter_perm h]
  have e2 : gm.mean z = gm.mean w := gm.mean_perm h
  rw [e1, e2]

theorem gm.mean_shift {n : ℕ} (z : List (Vec n)) (hz : z ≠ []) (c : Vec n) : sampleMean (z.map (· + c)) = sampleMean z + c := by
  funext j
  have hl : (z.length : ℝ) ≠ 0 := by
    have := List.length_pos_of_ne_nil hz
    positivity
  simp only [sampleMean, Pi.add_apply, List.length_map, List.map_map]
  have : (z.map ((fun v => v j) ∘ (· + c))).sum = (z.map fun v => v j).sum + z.length * c j := by
    clear hl hz
    induction z with
    | nil => simp
    | cons a t ih => simp only [List.map_cons, List.sum_cons, ih, Function.comp, Pi.add_apply, List.length_cons]; push_cast; ring
  rw [this]
  field_simp

theorem gm.scatter_shift {n : ℕ} (z : List (Vec n)) (c : Vec n) : scatter (z.map (· + c)) = scatter z := by
  by_cases hz : z = []
  · rw [hz]; rfl
  · ext i j
    unfold scatter
    rw [gm.mean_shift z hz c, List.map_map]
    congr 1
    apply List.map_congr_left
    intro v _
    simp only [Function.comp, Pi.add_apply]
    ring

theorem Gauss.fit_valid (g : Gauss) (n : ℕ) (hn : n ≠ 0) (x : List (Vec n)) (hx : x ≠ []) (y : List ℤ) (hy : y.length = x.length) : g.fit (some ⟨n, x⟩) ⟨true, y⟩ =
    ((gm.loop (fun ii => gm.train g.regularize (gm.group x y ii)) (gm.classes y) []).1,
      { g with fitted := ⟨n, (gm.loop (fun ii => gm.train g.regularize (gm.group x y ii)) (gm.classes y) []).2⟩ }) := by
  simp [Gauss.fit, hn, hx, hy]

theorem Gauss.predict_valid (argsort : List ℝ → List ℕ) (r : ℝ) (n : ℕ) (hn : n ≠ 0) (models : List (GClass n)) (q : List (Vec n)) :
    (Gauss.mk r ⟨n, models⟩).predict argsort (some ⟨n, q⟩) = if models = [] ∨ q = [] then .error .valueError
      else .ok (q.map fun o => argsort (models.map fun c => gm.quad c.covariancei c.mean o)) := by
  by_cases h1 : models = []
  · simp [Gauss.predict, h1]
  · by_cases h2 : q = []
    · simp [Gauss.predict, h2]
    · simp [Gauss.predict, h1, h2, hn]

theorem gm.mean_double {n : ℕ} (z : List (Vec n)) : sampleMean (z ++ z) = sampleMean z := by
  funext j
  simp only [sampleMean, List.map_append, List.sum_append, List.length_append]
  push_cast
  by_cases h : (z.length : ℝ) = 0
  · simp [h]
  · field_simp

theorem gm.scatter_double {n : ℕ} (z : List (Vec n)) : scatter (z ++ z) = (2 : ℝ) • scatter z := by
  ext i j
  simp only [scatter, gm.mean_double, List.map_append, List.sum_append, Matrix.smul_apply, smul_eq_mul]
  ring

theorem Spec.IsRanking.two {a b : ℝ} {p : List ℕ} (h : IsRanking [a, b] p) (hab : a < b) : p = [0, 1] := by
  obtain ⟨h1, h2⟩ := h
  have hl := h1.length_eq
  simp only [List.length_cons, List.length_nil, List.length_range] at hl
  obtain ⟨c, d, rfl⟩ := List.length_eq_two.mp hl
  have hc : c < 2 := List.mem_range.mp (h1.subset (by simp))
  have hd : d < 2 := List.mem_range.mp (h1.subset (by simp))
  have hn : [c, d].Nodup := h1.nodup_iff.mpr List.nodup_range
  have hle : [a, b].getD c 0 ≤ [a, b].getD d 0 := by simpa using h2
  interval_cases c <;> interval_cases d
  · simp at hn
  · rfl
  · exact absurd hle (by simpa using hab)
  · simp at hn

theorem Spec.IsRanking.two' {a b : ℝ} {p : List ℕ} (h : IsRanking [a, b] p) (hab : b < a) : p = [1, 0] := by
  obtain ⟨h1, h2⟩ := h
  have hl := h1.length_eq
  simp only [List.length_cons, List.length_nil, List.length_range] at hl
  obtain ⟨c, d, rfl⟩ := List.length_eq_two.mp hl
  have hc : c < 2 := List.mem_range.mp (h1.subset (by simp))
  have hd : d < 2 := List.mem_range.mp (h1.subset (by simp))
  have hn : [c, d].Nodup := h1.nodup_iff.mpr List.nodup_range
  have hle : [a, b].getD c 0 ≤ [a, b].getD d 0 := by simpa using h2
  interval_cases c <;> interval_cases d
  · simp at hn
  · exact absurd hle (by simpa using hab)
  · rfl
  · simp at hn

end Verif
