import Verif.Props.Wavelet

/- Property C87: linearity of WaveletTransform (diamondback/transforms/wavelet_transform.py), and the energy of the Haar coefficients. -/

namespace Verif.Props

open Finset Spec

theorem at0_range_map (m : ℕ) (g : ℕ → ℝ) (n : ℕ) : at0 ((List.range m).map g) n = if n < m then g n else 0 := by
  unfold at0
  rw [List.getD_eq_getElem?_getD, List.getElem?_map]
  by_cases h : n < m
  · simp [h]
  · rw [if_neg h, List.getElem?_eq_none (by simpa using h)]; rfl

/-- A map of lines of length `n` which is linear. -/
def wav.LinearAt (A : List ℝ → List ℝ) (n : ℕ) : Prop := ∀ (x y : ℕ → ℝ) (α β : ℝ), ∀ j < n,
  at0 (A ((List.range n).map fun k => α * x k + β * y k)) j = α * at0 (A ((List.range n).map x)) j + β * at0 (A ((List.range n).map y)) j

theorem conv_linear (b l l1 l2 : List ℝ) (α β : ℝ) (h : ∀ k, at0 l k = α * at0 l1 k + β * at0 l2 k) (n : ℕ) :
    conv b l n = α * conv b l1 n + β * conv b l2 n := by
  unfold conv
  rw [mul_sum, mul_sum, ← sum_add_distrib]
  apply sum_congr rfl
  intro i _
  rw [h]; ring

theorem wav.at0_analyse (b : List ℝ × List ℝ) (hb1 : b.1 ≠ []) (hb2 : b.2 ≠ []) (l : List ℝ) (M : ℕ) (hM : 0 < M) (hl : l.length = 2 * M) (j : ℕ) (hj : j < 2 * M) :
    at0 (wav.analyse id b l) j = if j < M then conv b.1 l (2 * j + 1) else conv b.2 l (2 * (j - M) + 1) := by
  split
  · rename_i h
    obtain ⟨-, h2⟩ := wav.analyse_low b hb1 l M hM hl
    rw [← h2 j h]
    simp only [at0, List.getD_eq_getElem?_getD, List.getElem?_take, if_pos h]
  · rename_i h
    obtain ⟨-, h2⟩ := wav.analyse_high b hb1 hb2 l M hM hl
    rw [← h2 (j - M) (by omega)]
    simp only [at0, List.getD_eq_getElem?_getD, List.getElem?_drop]
    rw [show M + (j - M) = j by omega]

theorem wav.at0_synthesise (b : List ℝ × List ℝ) (hb1 : b.1 ≠ []) (hb2 : b.2 ≠ []) (l : List ℝ) (hl : l ≠ []) (j : ℕ) (hj : j < l.length) :
    at0 (wav.synthesise id b l) j = 2 * conv b.1 (wav.up l.length (l.take (l.length / 2))) j + 2 * conv b.2 (wav.up l.length (l.drop (l.length / 2))) j := by
  have h0 := List.length_pos_of_ne_nil hl
  have hne : ∀ a, wav.up l.length a ≠ [] := by
    intro a h
    have := congrArg List.length h
    rw [wav.up_length, List.length_nil] at this
    omega
  obtain ⟨f1, f2⟩ := wav.fir_spec b.1 (wav.up l.length (l.take (l.length / 2))) hb1 (hne _)
  obtain ⟨g1, g2⟩ := wav.fir_spec b.2 (wav.up l.length (l.drop (l.length / 2))) hb2 (hne _)
  rw [wav.up_length] at f1 f2 g1 g2
  rw [← f2 j hj, ← g2 j hj]
  unfold wav.synthesise
  simp only [List.map_id, at0, List.getD_eq_getElem?_getD, List.getElem?_zipWith, List.getElem?_map]
  rw [List.getElem?_eq_getElem (by rw [f1]; exact hj), List.getElem?_eq_getElem (by rw [g1]; exact hj)]
  simp

theorem wav.analyse_linear (b : List ℝ × List ℝ) (hb1 : b.1 ≠ []) (hb2 : b.2 ≠ []) (M : ℕ) (hM : 0 < M) : wav.LinearAt (wav.analyse id b) (2 * M) := by
  intro x y α β j hj
  rw [wav.at0_analyse b hb1 hb2 _ M hM (by simp) j hj, wav.at0_analyse b hb1 hb2 _ M hM (by simp) j hj, wav.at0_analyse b hb1 hb2 _ M hM (by simp) j hj]
  have h : ∀ k, at0 ((List.range (2 * M)).map fun k => α * x k + β * y k) k = α * at0 ((List.range (2 * M)).map x) k + β * at0 ((List.range (2 * M)).map y) k := by
    intro k
    rw [at0_range_map, at0_range_map, at0_range_map]
    split <;> ring
  split <;> exact conv_linear _ _ _ _ α β h _

theorem wav.synthesise_linear (b : List ℝ × List ℝ) (hb1 : b.1 ≠ []) (hb2 : b.2 ≠ []) (M : ℕ) (hM : 0 < M) : wav.LinearAt (wav.synthesise id b) (2 * M) := by
  intro x y α β j hj
  have hne : ∀ z : ℕ → ℝ, (List.range (2 * M)).map z ≠ [] := by
    intro z h
    have := congrArg List.length h
    simp at this; omega
  have h : ∀ k, at0 ((List.range (2 * M)).map fun k => α * x k + β * y k) k = α * at0 ((List.range (2 * M)).map x) k + β * at0 ((List.range (2 * M)).map y) k := by
    intro k
    rw [at0_range_map, at0_range_map, at0_range_map]
    split <;> ring
  have hd : ∀ z : ℕ → ℝ, ∀ k, at0 (((List.range (2 * M)).map z).drop M) k = at0 ((List.range (2 * M)).map z) (M + k) := by
    intro z k
    simp only [at0, List.getD_eq_getElem?_getD, List.getElem?_drop]
  have ht : ∀ z : ℕ → ℝ, ∀ k, at0 (((List.range (2 * M)).map z).take M) k = if k < M then at0 ((List.range (2 * M)).map z) k else 0 := by
    intro z k
    simp only [at0, List.getD_eq_getElem?_getD, List.getElem?_take]
    split <;> rfl
  have hup : ∀ a, ∀ k, at0 (wav.up (2 * M) a) k = if k < 2 * M then (if k % 2 = 0 then at0 a (k / 2) else 0) else 0 := by
    intro a k
    unfold wav.up
    rw [at0_range_map]
    rfl
  rw [wav.at0_synthesise b hb1 hb2 _ (hne _) j (by simpa using hj), wav.at0_synthesise b hb1 hb2 _ (hne _) j (by simpa using hj),
    wav.at0_synthesise b hb1 hb2 _ (hne _) j (by simpa using hj)]
  simp only [List.length_map, List.length_range]
  rw [show 2 * M / 2 = M by omega]
  rw [conv_linear b.1 (wav.up (2 * M) (((List.range (2 * M)).map fun k => α * x k + β * y k).take M)) (wav.up (2 * M) (((List.range (2 * M)).map x).take M))
      (wav.up (2 * M) (((List.range (2 * M)).map y).take M)) α β (by
        intro k
        rw [hup, hup, hup, ht, ht, ht, h]
        split_ifs <;> ring),
    conv_linear b.2 (wav.up (2 * M) (((List.range (2 * M)).map fun k => α * x k + β * y k).drop M)) (wav.up (2 * M) (((List.range (2 * M)).map x).drop M))
      (wav.up (2 * M) (((List.range (2 * M)).map y).drop M)) α β (by
        intro k
        rw [hup, hup, hup, hd, hd, hd, h]
        split_ifs <;> ring)]
  ring

/-- Linear combination of arrays. -/
def comb (α β : ℝ) (u v : ℕ → ℕ → ℝ) : ℕ → ℕ → ℝ := fun i j => α * u i j + β * v i j

theorem wav.mapRows_linear (A : List ℝ → List ℝ) (r c : ℕ) (hA : wav.LinearAt A c) (α β : ℝ) (u v : ℕ → ℕ → ℝ) :
    wav.mapRows A r c (comb α β u v) = comb α β (wav.mapRows A r c u) (wav.mapRows A r c v) := by
  funext i j
  unfold wav.mapRows comb
  by_cases h : i < r ∧ j < c
  · simp only [if_pos h]
    exact hA (fun k => u i k) (fun k => v i k) α β j h.2
  · simp only [if_neg h]

theorem wav.mapCols_linear (A : List ℝ → List ℝ) (r c : ℕ) (hA : wav.LinearAt A r) (α β : ℝ) (u v : ℕ → ℕ → ℝ) :
    wav.mapCols A r c (comb α β u v) = comb α β (wav.mapCols A r c u) (wav.mapCols A r c v) := by
  funext i j
  unfold wav.mapCols comb
  by_cases h : i < r ∧ j < c
  · simp only [if_pos h]
    exact hA (fun k => u k j) (fun k => v k j) α β i h.1
  · simp only [if_neg h]

theorem wav.patch_linear (ii jj : ℕ) (α β : ℝ) (p q u v : ℕ → ℕ → ℝ) :
    wav.patch ii jj (comb α β p q) (comb α β u v) = comb α β (wav.patch ii jj p u) (wav.patch ii jj q v) := by
  funext i j
  unfold wav.patch comb
  by_cases h : i < ii ∧ j < jj
  · simp only [if_pos h]
  · simp only [if_neg h]

theorem wav.fstep_linear (A : List ℝ → List ℝ) (hA : ∀ M, 0 < M → wav.LinearAt A (2 * M)) (r c count : ℕ) (hr : wav.Fits r (count + 1)) (hc : wav.Fits c (count + 1))
    (α β : ℝ) (u v : ℕ → ℕ → ℝ) : wav.fstep A r c (comb α β u v) = comb α β (wav.fstep A r c u) (wav.fstep A r c v) := by
  have h1 : c > 1 → wav.LinearAt A c := by
    intro h; obtain ⟨M, hM, e⟩ := hc.even h; rw [e]; exact hA M hM
  have h2 : r > 1 → wav.LinearAt A r := by
    intro h; obtain ⟨M, hM, e⟩ := hr.even h; rw [e]; exact hA M hM
  unfold wav.fstep
  by_cases hc1 : c > 1 <;> by_cases hr1 : r > 1 <;> simp only [hc1, hr1, if_true, if_false]
  · rw [wav.mapRows_linear A r c (h1 hc1), wav.mapCols_linear A r c (h2 hr1)]
  · rw [wav.mapRows_linear A r c (h1 hc1)]
  · rw [wav.mapCols_linear A r c (h2 hr1)]

theorem wav.bstep_linear (A : List ℝ → List ℝ) (hA : ∀ M, 0 < M → wav.LinearAt A (2 * M)) (r c count : ℕ) (hr : wav.Fits r (count + 1)) (hc : wav.Fits c (count + 1))
    (α β : ℝ) (u v : ℕ → ℕ → ℝ) : wav.bstep A r c (comb α β u v) = comb α β (wav.bstep A r c u) (wav.bstep A r c v) := by
  have h1 : c > 1 → wav.LinearAt A c := by
    intro h; obtain ⟨M, hM, e⟩ := hc.even h; rw [e]; exact hA M hM
  have h2 : r > 1 → wav.LinearAt A r := by
    intro h; obtain ⟨M, hM, e⟩ := hr.even h; rw [e]; exact hA M hM
  unfold wav.bstep
  by_cases hc1 : c > 1 <;> by_cases hr1 : r > 1 <;> simp only [hc1, hr1, if_true, if_false]
  · rw [wav.mapCols_linear A r c (h2 hr1), wav.mapRows_linear A r c (h1 hc1)]
  · rw [wav.mapRows_linear A r c (h1 hc1)]
  · rw [wav.mapCols_linear A r c (h2 hr1)]

theorem wav.forward_linear (b : List ℝ × List ℝ) (hb1 : b.1 ≠ []) (hb2 : b.2 ≠ []) (α β : ℝ) (count : ℕ) : ∀ (r c : ℕ) (u v : ℕ → ℕ → ℝ),
    wav.Fits r (count + 1) → wav.Fits c (count + 1) → ∃ y z, wav.forward id b (count + 1) ⟨r, c, u⟩ = .ok ⟨r, c, y⟩ ∧
      wav.forward id b (count + 1) ⟨r, c, v⟩ = .ok ⟨r, c, z⟩ ∧ wav.forward id b (count + 1) ⟨r, c, comb α β u v⟩ = .ok ⟨r, c, comb α β y z⟩ := by
  induction count with
  | zero =>
    intro r c u v hr hc
    simp only [wav.forward_eq _ _ _ _ _ _ hr hc, if_pos]
    refine ⟨_, _, rfl, rfl, ?_⟩
    rw [wav.fstep_linear _ (wav.analyse_linear b hb1 hb2) r c 0 hr hc]
  | succ n ih =>
    intro r c u v hr hc
    obtain ⟨y, z, h1, h2, h3⟩ := ih _ _ (wav.fstep (wav.analyse id b) r c u) (wav.fstep (wav.analyse id b) r c v) hr.half.1 hc.half.1
    simp only [wav.forward_eq _ _ _ _ _ _ hr hc, if_neg (show ¬ n + 1 = 0 by omega), h1, h2]
    refine ⟨_, _, rfl, rfl, ?_⟩
    rw [wav.fstep_linear _ (wav.analyse_linear b hb1 hb2) r c (n + 1) hr hc, h3]
    simp only
    rw [wav.patch_linear]

theorem wav.backward_linear (b : List ℝ × List ℝ) (hb1 : b.1 ≠ []) (hb2 : b.2 ≠ []) (α β : ℝ) (count : ℕ) : ∀ (r c : ℕ) (u v : ℕ → ℕ → ℝ),
    wav.Fits r (count + 1) → wav.Fits c (count + 1) → ∃ y z, wav.backward id b (count + 1) ⟨r, c, u⟩ = .ok ⟨r, c, y⟩ ∧
      wav.backward id b (count + 1) ⟨r, c, v⟩ = .ok ⟨r, c, z⟩ ∧ wav.backward id b (count + 1) ⟨r, c, comb α β u v⟩ = .ok ⟨r, c, comb α β y z⟩ := by
  induction count with
  | zero =>
    intro r c u v hr hc
    simp only [wav.backward_eq _ _ _ _ _ _ hr hc, if_pos]
    refine ⟨_, _, rfl, rfl, ?_⟩
    rw [wav.bstep_linear _ (wav.synthesise_linear b hb1 hb2) r c 0 hr hc]
  | succ n ih =>
    intro r c u v hr hc
    obtain ⟨y, z, h1, h2, h3⟩ := ih _ _ u v hr.half.1 hc.half.1
    simp only [wav.backward_eq _ _ _ _ _ _ hr hc, if_neg (show ¬ n + 1 = 0 by omega), h1, h2, h3]
    refine ⟨_, _, rfl, rfl, ?_⟩
    rw [wav.patch_linear, wav.bstep_linear _ (wav.synthesise_linear b hb1 hb2) r c (n + 1) hr hc]

/-- The filters of a wavelet are not empty. -/
theorem wav_new_ne (style : WaveStyle) (order : ℤ) (w : Wavelet) (h : Wavelet.new (some style) order = .ok w) :
    w.analysis.1 ≠ [] ∧ w.analysis.2 ≠ [] ∧ w.synthesis.1 ≠ [] ∧ w.synthesis.2 ≠ [] := by
  obtain ⟨p, hp, rfl⟩ := wav_new style order w h
  obtain ⟨o1, o2, o3, o4⟩ := C48_orders_odd style order p hp
  have hl : p.1 ≠ [] := by intro e; rw [e] at o3; simp at o3; omega
  unfold wav.filters
  simp only
  split <;> simp [wav.negate, hl]

/-- C87.  The transform is linear: arrays. -/
theorem C87_linear (style : WaveStyle) (order : ℤ) (w : Wavelet) (h : Wavelet.new (some style) order = .ok w) (r c count : ℕ) (hcount : 0 < count)
    (hr : Acceptable r count) (hc : Acceptable c count) (inverse : Bool) (α β : ℝ) (u v : ℕ → ℕ → ℝ) :
    ∃ y z, w.transform id (.mat ⟨r, c, u⟩) count inverse = .ok (.mat ⟨r, c, y⟩) ∧ w.transform id (.mat ⟨r, c, v⟩) count inverse = .ok (.mat ⟨r, c, z⟩) ∧
      w.transform id (.mat ⟨r, c, fun i j => α * u i j + β * v i j⟩) count inverse = .ok (.mat ⟨r, c, fun i j => α * y i j + β * z i j⟩) := by
  obtain ⟨n1, n2, n3, n4⟩ := wav_new_ne style order w h
  obtain ⟨n, rfl⟩ : ∃ n, count = n + 1 := ⟨count - 1, by omega⟩
  unfold Wavelet.transform
  cases inverse
  · obtain ⟨y, z, h1, h2, h3⟩ := wav.forward_linear w.analysis n1 n2 α β n r c u v hr hc
    unfold comb at h3
    exact ⟨y, z, by simp only [Int.toNat_natCast, Bool.false_eq_true, if_false, h1], by simp only [Int.toNat_natCast, Bool.false_eq_true, if_false, h2],
      by simp only [Int.toNat_natCast, Bool.false_eq_true, if_false, h3]⟩
  · obtain ⟨y, z, h1, h2, h3⟩ := wav.backward_linear w.synthesis n3 n4 α β n r c u v hr hc
    unfold comb at h3
    exact ⟨y, z, by simp only [Int.toNat_natCast, if_true, h1], by simp only [Int.toNat_natCast, if_true, h2], by simp only [Int.toNat_natCast, if_true, h3]⟩

/-- An array of 12 rows and one column and two levels. -/
example := C87_linear .symmlet 7 _ rfl 12 1 2 (by norm_num) (Or.inr ⟨by norm_num, 3, by norm_num⟩) (Or.inl rfl) true 2 (-3) (fun i _ => i) (fun _ _ => 1)

/-- C87.  The transform is linear: signals. -/
theorem C87_linear_vec (style : WaveStyle) (order : ℤ) (w : Wavelet) (h : Wavelet.new (some style) order = .ok w) (count : ℕ) (hcount : 0 < count)
    (x x' : List ℝ) (hl : x'.length = x.length) (hc : Acceptable x.length count) (inverse : Bool) (α β : ℝ) :
    ∃ y z, w.transform id (.vec x) count inverse = .ok (.vec y) ∧ w.transform id (.vec x') count inverse = .ok (.vec z) ∧
      w.transform id (.vec (List.zipWith (fun a b => α * a + β * b) x x')) count inverse = .ok (.vec (List.zipWith (fun a b => α * a + β * b) y z)) := by
  obtain ⟨n1, n2, n3, n4⟩ := wav_new_ne style order w h
  obtain ⟨n, rfl⟩ : ∃ n, count = n + 1 := ⟨count - 1, by omega⟩
  have hpos : 0 < x.length := wav.Fits.pos hc
  have hx : x ≠ [] := List.length_pos_iff.mp hpos
  have hx' : x' ≠ [] := List.length_pos_iff.mp (by omega)
  have hz : List.zipWith (fun a b => α * a + β * b) x x' ≠ [] := List.length_pos_iff.mp (by simp; omega)
  have hzl : (List.zipWith (fun a b => α * a + β * b) x x').length = x.length := by simp [hl]
  have hcomb : (fun (_ j : ℕ) => (List.zipWith (fun a b => α * a + β * b) x x').getD j 0) = comb α β (fun _ j => x.getD j 0) (fun _ j => x'.getD j 0) := by
    funext i j
    unfold comb
    simp only [List.getD_eq_getElem?_getD, List.getElem?_zipWith]
    by_cases hj : j < x.length
    · rw [List.getElem?_eq_getElem hj, List.getElem?_eq_getElem (by rw [hl]; exact hj)]; simp
    · rw [List.getElem?_eq_none (l := x) (by omega), List.getElem?_eq_none (l := x') (by omega)]; simp
  have hout : ∀ y z : ℕ → ℕ → ℝ, ((List.range x.length).map fun j => comb α β y z 0 j) =
      List.zipWith (fun a b => α * a + β * b) ((List.range x.length).map fun j => y 0 j) ((List.range x.length).map fun j => z 0 j) := by
    intro y z
    rw [List.zipWith_map, List.zipWith_self]
    rfl
  unfold Wavelet.transform
  simp only [hx, hx', hz, if_false, Int.toNat_natCast, hzl, hl, hcomb]
  cases inverse
  · obtain ⟨y, z, h1, h2, h3⟩ := wav.forward_linear w.analysis n1 n2 α β n 1 x.length (fun _ j => x.getD j 0) (fun _ j => x'.getD j 0) (Or.inl rfl) hc
    simp only [Bool.false_eq_true, if_false, h1, h2, h3, hout]
    exact ⟨_, _, rfl, rfl, rfl⟩
  · obtain ⟨y, z, h1, h2, h3⟩ := wav.backward_linear w.synthesis n3 n4 α β n 1 x.length (fun _ j => x.getD j 0) (fun _ j => x'.getD j 0) (Or.inl rfl) hc
    simp only [if_true, h1, h2, h3, hout]
    exact ⟨_, _, rfl, rfl, rfl⟩

example : (∃ w, Wavelet.new (some .symmlet) 7 = .ok w) ∧ Acceptable 12 2 ∧ Acceptable 1 2 := ⟨⟨_, rfl⟩, Or.inr ⟨by norm_num, 3, by norm_num⟩, Or.inl rfl⟩

/-- The number of levels of analysis, of `count`, whose array contains row `i` and column `j`; the array of level `k` has `r / 2 ^ k` rows and `c / 2 ^ k` columns. -/
def levels (count r c i j : ℕ) : ℕ := #{k ∈ range count | i < r / 2 ^ k ∧ j < c / 2 ^ k}

/-- A map of lines of length `n` whose values have half the energy. -/
def wav.HalfEnergy (A : List ℝ → List ℝ) (n : ℕ) : Prop := ∀ x : ℕ → ℝ, ∑ j ∈ range n, x j ^ 2 = 2 * ∑ j ∈ range n, at0 (A ((List.range n).map x)) j ^ 2

theorem sum_pairs (M : ℕ) (f : ℕ → ℝ) : ∑ j ∈ range (2 * M), f j = ∑ p ∈ range M, (f (2 * p) + f (2 * p + 1)) := by
  induction M with
  | zero => rfl
  | succ n ih => rw [sum_range_succ, ← ih, show 2 * (n + 1) = 2 * n + 1 + 1 by ring, sum_range_succ, sum_range_succ]; ring

theorem sum_halves (M : ℕ) (f : ℕ → ℝ) : ∑ j ∈ range (2 * M), f j = ∑ p ∈ range M, (f p + f (M + p)) := by
  rw [two_mul, sum_range_add, sum_add_distrib]

theorem conv_two (a b : ℝ) (l : List ℝ) (n : ℕ) : conv [a, b] l (n + 1) = a * at0 l (n + 1) + b * at0 l n := by
  unfold conv
  rw [sum_range_succ', sum_range_succ', sum_eq_zero]
  · simp [at0]; ring
  · intro i _
    simp [at0]

theorem wav.haar_energy (M : ℕ) (hM : 0 < M) : wav.HalfEnergy (wav.analyse id ([1 / 2, 1 / 2], [1 / 2, -(1 / 2)])) (2 * M) := by
  intro x
  rw [sum_pairs, sum_halves, mul_sum]
  apply sum_congr rfl
  intro p hp
  have hp := mem_range.mp hp
  rw [wav.at0_analyse _ (by simp) (by simp) _ M hM (by simp) p (by omega), wav.at0_analyse _ (by simp) (by simp) _ M hM (by simp) (M + p) (by omega),
    if_pos hp, if_neg (by omega), show M + p - M = p by omega, conv_two, conv_two, at0_range_map, at0_range_map, if_pos (by omega), if_pos (by omega)]
  ring

theorem wav.mapRows_energy (A : List ℝ → List ℝ) (r c : ℕ) (hA : wav.HalfEnergy A c) (u : ℕ → ℕ → ℝ) :
    ∑ i ∈ range r, ∑ j ∈ range c, u i j ^ 2 = 2 * ∑ i ∈ range r, ∑ j ∈ range c, wav.mapRows A r c u i j ^ 2 := by
  rw [mul_sum]
  apply sum_congr rfl
  intro i hi
  rw [hA (fun j => u i j)]
  congr 1
  apply sum_congr rfl
  intro j hj
  unfold wav.mapRows
  rw [if_pos ⟨mem_range.mp hi, mem_range.mp hj⟩]
  rfl

theorem wav.mapCols_energy (A : List ℝ → List ℝ) (r c : ℕ) (hA : wav.HalfEnergy A r) (u : ℕ → ℕ → ℝ) :
    ∑ i ∈ range r, ∑ j ∈ range c, u i j ^ 2 = 2 * ∑ i ∈ range r, ∑ j ∈ range c, wav.mapCols A r c u i j ^ 2 := by
  rw [sum_comm, sum_comm (s := range r) (t := range c) (f := fun i j => wav.mapCols A r c u i j ^ 2), mul_sum]
  apply sum_congr rfl
  intro j hj
  rw [hA (fun i => u i j)]
  congr 1
  apply sum_congr rfl
  intro i hi
  unfold wav.mapCols
  rw [if_pos ⟨mem_range.mp hi, mem_range.mp hj⟩]
  rfl

/-- The factor of one level. -/
noncomputable def wav.gain (r c : ℕ) : ℝ := (if r > 1 then 2 else 1) * (if c > 1 then 2 else 1)

/-- The factor of the levels which contain an element. -/
noncomputable def wav.weight : ℕ → ℕ → ℕ → ℕ → ℕ → ℝ
  | 0, _, _, _, _ => 1
  | n + 1, r, c, i, j => wav.gain r c * if i < max (r / 2) 1 ∧ j < max (c / 2) 1 then wav.weight n (max (r / 2) 1) (max (c / 2) 1) i j else 1

theorem wav.fstep_energy (A : List ℝ → List ℝ) (hA : ∀ M, 0 < M → wav.HalfEnergy A (2 * M)) (r c count : ℕ) (hr : wav.Fits r (count + 1)) (hc : wav.Fits c (count + 1))
    (u : ℕ → ℕ → ℝ) : ∑ i ∈ range r, ∑ j ∈ range c, u i j ^ 2 = wav.gain r c * ∑ i ∈ range r, ∑ j ∈ range c, wav.fstep A r c u i j ^ 2 := by
  have h1 : c > 1 → wav.HalfEnergy A c := by
    intro h; obtain ⟨M, hM, e⟩ := hc.even h; rw [e]; exact hA M hM
  have h2 : r > 1 → wav.HalfEnergy A r := by
    intro h; obtain ⟨M, hM, e⟩ := hr.even h; rw [e]; exact hA M hM
  unfold wav.fstep wav.gain
  by_cases hc1 : c > 1 <;> by_cases hr1 : r > 1 <;> simp only [hc1, hr1, if_true, if_false]
  · rw [wav.mapRows_energy A r c (h1 hc1), wav.mapCols_energy A r c (h2 hr1)]; ring
  · rw [wav.mapRows_energy A r c (h1 hc1)]; ring
  · rw [wav.mapCols_energy A r c (h2 hr1)]; ring
  · ring

theorem sum_block (r c a b : ℕ) (ha : a ≤ r) (hb : b ≤ c) (K : ℕ → ℕ → ℝ) :
    ∑ i ∈ range r, ∑ j ∈ range c, (if i < a ∧ j < b then K i j else 0) = ∑ i ∈ range a, ∑ j ∈ range b, K i j := by
  rw [← sum_subset (range_subset_range.mpr ha)]
  · apply sum_congr rfl
    intro i hi
    rw [← sum_subset (range_subset_range.mpr hb)]
    · apply sum_congr rfl
      intro j hj
      rw [if_pos ⟨mem_range.mp hi, mem_range.mp hj⟩]
    · intro j _ hj
      rw [if_neg]
      intro h; exact hj (mem_range.mpr h.2)
  · intro i _ hi
    apply sum_eq_zero
    intro j _
    rw [if_neg]
    intro h; exact hi (mem_range.mpr h.1)

theorem wav.forward_energy (b : List ℝ × List ℝ) (hb : ∀ M, 0 < M → wav.HalfEnergy (wav.analyse id b) (2 * M)) (count : ℕ) : ∀ (r c : ℕ) (u : ℕ → ℕ → ℝ),
    wav.Fits r (count + 1) → wav.Fits c (count + 1) → ∃ y, wav.forward id b (count + 1) ⟨r, c, u⟩ = .ok ⟨r, c, y⟩ ∧
      ∑ i ∈ range r, ∑ j ∈ range c, u i j ^ 2 = ∑ i ∈ range r, ∑ j ∈ range c, wav.weight (count + 1) r c i j * y i j ^ 2 := by
  induction count with
  | zero =>
    intro r c u hr hc
    rw [wav.forward_eq _ _ _ _ _ _ hr hc, if_pos rfl]
    refine ⟨_, rfl, ?_⟩
    rw [wav.fstep_energy _ hb r c 0 hr hc, mul_sum]
    apply sum_congr rfl
    intro i _
    rw [mul_sum]
    apply sum_congr rfl
    intro j _
    simp [wav.weight]
  | succ n ih =>
    intro r c u hr hc
    obtain ⟨q, h1, h2⟩ := ih _ _ (wav.fstep (wav.analyse id b) r c u) hr.half.1 hc.half.1
    rw [wav.forward_eq _ _ _ _ _ _ hr hc, if_neg (by omega), h1]
    refine ⟨_, rfl, ?_⟩
    rw [wav.fstep_energy _ hb r c (n + 1) hr hc]
    generalize wav.fstep (wav.analyse id b) r c u = v at *
    have e : ∀ i j, wav.weight (n + 1 + 1) r c i j * wav.patch (max (r / 2) 1) (max (c / 2) 1) q v i j ^ 2 = wav.gain r c * (v i j ^ 2 +
        if i < max (r / 2) 1 ∧ j < max (c / 2) 1 then wav.weight (n + 1) (max (r / 2) 1) (max (c / 2) 1) i j * q i j ^ 2 - v i j ^ 2 else 0) := by
      intro i j
      rw [wav.weight]
      unfold wav.patch
      by_cases h : i < max (r / 2) 1 ∧ j < max (c / 2) 1
      · simp only [if_pos h]; ring
      · simp only [if_neg h]; ring
    simp only [e, ← mul_sum, sum_add_distrib]
    rw [sum_block r c _ _ hr.half.2 hc.half.2]
    simp only [sum_sub_distrib]
    rw [h2]
    ring

theorem levels_succ (count r c i j : ℕ) (hi : i < r) (hj : j < c) :
    levels (count + 1) r c i j = 1 + if i < r / 2 ∧ j < c / 2 then levels count (r / 2) (c / 2) i j else 0 := by
  unfold levels
  rw [card_filter, card_filter, sum_range_succ', add_comm]
  simp only [pow_zero, Nat.div_one, hi, hj, and_self, if_true]
  congr 1
  split
  · apply sum_congr rfl
    intro k _
    rw [pow_succ', ← Nat.div_div_eq_div_mul, ← Nat.div_div_eq_div_mul]
  · rename_i h
    apply sum_eq_zero
    intro k _
    rw [pow_succ', ← Nat.div_div_eq_div_mul, ← Nat.div_div_eq_div_mul, if_neg]
    rintro ⟨h1, h2⟩
    exact h ⟨lt_of_lt_of_le h1 (Nat.div_le_self _ _), lt_of_lt_of_le h2 (Nat.div_le_self _ _)⟩

theorem half_dvd {d n : ℕ} (h0 : 0 < d) (h : 2 ^ (n + 1) ∣ d) : 1 < d ∧ max (d / 2) 1 = d / 2 ∧ 0 < d / 2 ∧ 2 ^ n ∣ d / 2 := by
  obtain ⟨q, rfl⟩ := h
  have e : 2 ^ (n + 1) * q / 2 = 2 ^ n * q := by rw [pow_succ, show 2 ^ n * 2 * q = 2 * (2 ^ n * q) by ring]; omega
  have e' : 2 ^ (n + 1) * q = 2 * (2 ^ n * q) := by ring
  rw [e]
  rw [e'] at h0 ⊢
  exact ⟨by omega, by omega, by omega, dvd_mul_right _ _⟩

theorem weight_mat (count : ℕ) : ∀ (r c i j : ℕ), 0 < r → 0 < c → 2 ^ count ∣ r → 2 ^ count ∣ c → i < r → j < c →
    wav.weight count r c i j = 4 ^ levels count r c i j := by
  induction count with
  | zero => intro r c i j _ _ _ _ _ _; simp [wav.weight, levels]
  | succ n ih =>
    intro r c i j hr hc hr' hc' hi hj
    obtain ⟨a1, a2, a3, a4⟩ := half_dvd hr hr'
    obtain ⟨b1, b2, b3, b4⟩ := half_dvd hc hc'
    rw [levels_succ n r c i j hi hj, wav.weight, a2, b2]
    unfold wav.gain
    rw [if_pos a1, if_pos b1, pow_add]
    split
    · rename_i h
      rw [ih _ _ i j a3 b3 a4 b4 h.1 h.2]; norm_num
    · norm_num

/-- The number of levels of analysis, of `count`, whose line contains element `j`; the line of level `k` has length `c / 2 ^ k`. -/
def lineLevels (count c j : ℕ) : ℕ := #{k ∈ range count | j < c / 2 ^ k}

theorem lineLevels_succ (count c j : ℕ) (hj : j < c) : lineLevels (count + 1) c j = 1 + if j < c / 2 then lineLevels count (c / 2) j else 0 := by
  unfold lineLevels
  rw [card_filter, card_filter, sum_range_succ', add_comm]
  simp only [pow_zero, Nat.div_one, hj, if_true]
  congr 1
  split
  · apply sum_congr rfl
    intro k _
    rw [pow_succ', ← Nat.div_div_eq_div_mul]
  · rename_i h
    apply sum_eq_zero
    intro k _
    rw [pow_succ', ← Nat.div_div_eq_div_mul, if_neg]
    intro h1
    exact h (lt_of_lt_of_le h1 (Nat.div_le_self _ _))

theorem weight_vec (count : ℕ) : ∀ (c j : ℕ), 0 < c → 2 ^ count ∣ c → j < c → wav.weight count 1 c 0 j = 2 ^ lineLevels count c j := by
  induction count with
  | zero => intro c j _ _ _; simp [wav.weight, lineLevels]
  | succ n ih =>
    intro c j hc hc' hj
    obtain ⟨b1, b2, b3, b4⟩ := half_dvd hc hc'
    rw [lineLevels_succ n c j hj, wav.weight, b2]
    unfold wav.gain
    rw [if_neg (by omega), if_pos b1, pow_add, show max (1 / 2) 1 = 1 from rfl]
    by_cases h : j < c / 2
    · rw [if_pos ⟨by omega, h⟩, if_pos h, ih _ j b3 b4 h]; norm_num
    · rw [if_neg (by tauto), if_neg h]; norm_num

theorem haar_filters : ∃ w, Wavelet.new (some .haar) 1 = .ok w ∧ w.analysis = ([1 / 2, 1 / 2], [1 / 2, -(1 / 2)]) := by
  refine ⟨_, rfl, ?_⟩
  simp only [wav.filters, wav.negate, List.map, List.zipIdx, List.sum_cons, List.sum_nil, List.length]
  norm_num

/-- C87.  The energy of an array, from its Haar coefficients: an element which is the result of `k` levels, of rows and columns, counts `4 ^ k` times. -/
theorem C87_energy_mat (r c count : ℕ) (u : ℕ → ℕ → ℝ) (hcount : 0 < count) (hr : 0 < r) (hc : 0 < c) (hr' : 2 ^ count ∣ r) (hc' : 2 ^ count ∣ c) :
    ∃ w y, Wavelet.new (some .haar) 1 = .ok w ∧ w.transform id (.mat ⟨r, c, u⟩) count false = .ok (.mat ⟨r, c, y⟩) ∧
      ∑ i ∈ range r, ∑ j ∈ range c, u i j ^ 2 = ∑ i ∈ range r, ∑ j ∈ range c, 4 ^ levels count r c i j * y i j ^ 2 := by
  obtain ⟨w, hw, hf⟩ := haar_filters
  obtain ⟨n, rfl⟩ : ∃ n, count = n + 1 := ⟨count - 1, by omega⟩
  obtain ⟨y, h1, h2⟩ := wav.forward_energy w.analysis (by rw [hf]; exact wav.haar_energy) n r c u (Or.inr ⟨hr, hr'⟩) (Or.inr ⟨hc, hc'⟩)
  refine ⟨w, y, hw, ?_, ?_⟩
  · unfold Wavelet.transform
    simp only [Int.toNat_natCast, Bool.false_eq_true, if_false, h1]
  · rw [h2]
    apply sum_congr rfl
    intro i hi
    apply sum_congr rfl
    intro j hj
    rw [weight_mat _ r c i j hr hc hr' hc' (mem_range.mp hi) (mem_range.mp hj)]

example : levels 2 8 4 0 0 = 2 ∧ levels 2 8 4 3 1 = 2 ∧ levels 2 8 4 3 2 = 1 ∧ levels 2 8 4 7 3 = 1 := by decide

/-- C87.  The energy of a signal, from its Haar coefficients: an element which is the result of `k` levels counts `2 ^ k` times. -/
theorem C87_energy_vec (x : List ℝ) (count : ℕ) (hcount : 0 < count) (hx : 0 < x.length) (hx' : 2 ^ count ∣ x.length) :
    ∃ w y, Wavelet.new (some .haar) 1 = .ok w ∧ w.transform id (.vec x) count false = .ok (.vec y) ∧ y.length = x.length ∧
      ∑ j ∈ range x.length, at0 x j ^ 2 = ∑ j ∈ range x.length, 2 ^ lineLevels count x.length j * at0 y j ^ 2 := by
  obtain ⟨w, hw, hf⟩ := haar_filters
  obtain ⟨n, rfl⟩ : ∃ n, count = n + 1 := ⟨count - 1, by omega⟩
  obtain ⟨y, h1, h2⟩ := wav.forward_energy w.analysis (by rw [hf]; exact wav.haar_energy) n 1 x.length (fun _ j => x.getD j 0) (Or.inl rfl) (Or.inr ⟨hx, hx'⟩)
  refine ⟨w, (List.range x.length).map fun j => y 0 j, hw, ?_, by simp, ?_⟩
  · unfold Wavelet.transform
    simp only [List.length_pos_iff.mp hx, Int.toNat_natCast, Bool.false_eq_true, if_false, h1]
  · rw [sum_range_one, sum_range_one] at h2
    unfold at0 at *
    rw [h2]
    apply sum_congr rfl
    intro j hj
    have hj := mem_range.mp hj
    rw [weight_vec _ _ j hx hx' hj]
    simp [hj]

example : lineLevels 3 8 0 = 3 ∧ lineLevels 3 8 1 = 3 ∧ lineLevels 3 8 2 = 2 ∧ lineLevels 3 8 4 = 1 ∧ lineLevels 3 8 7 = 1 := by decide

theorem wav.two_forward (w : Wavelet) (h1 : w.analysis.1 ≠ []) (h2 : w.analysis.2 ≠ []) (x : List ℝ) (M : ℕ) (hM : 0 < M) (hx : x.length = 4 * M) :
    w.transform id (.vec x) 2 false =
      .ok (.vec (wav.analyse id w.analysis ((wav.analyse id w.analysis x).take (2 * M)) ++ (wav.analyse id w.analysis x).drop (2 * M))) := by
  have hne : x ≠ [] := List.length_pos_iff.mp (by omega)
  have l1 := wav.analyse_length w.analysis h1 h2 id x (2 * M) (by omega) (by omega)
  set a := wav.analyse id w.analysis x with ha
  have ht : (a.take (2 * M)).length = 2 * M := by rw [List.length_take, l1, hx]; omega
  have l2 := wav.analyse_length w.analysis h1 h2 id (a.take (2 * M)) M hM ht
  have hf : wav.Fits x.length (1 + 1) := Or.inr ⟨by omega, M, by rw [hx]; norm_num⟩
  have hg : wav.Fits (max (x.length / 2) 1) (0 + 1) := Or.inr ⟨by omega, M, by rw [hx]; omega⟩
  have e1 : max (1 / 2) 1 = 1 := rfl
  have e2 : max (x.length / 2) 1 = 2 * M := by omega
  unfold Wavelet.transform
  simp only [hne, if_false, Bool.false_eq_true]
  rw [show ((2 : ℤ).toNat) = 1 + 1 from rfl, wav.forward_eq id w.analysis 1 1 x.length _ (Or.inl rfl) hf, if_neg (by omega), e1,
    show (1 : ℕ) = 0 + 1 from rfl, wav.forward_eq id w.analysis 0 1 _ _ (Or.inl rfl) hg, if_pos rfl]
  simp only [e2, zero_add]
  have s1 : ∀ j < x.length, wav.fstep (wav.analyse id w.analysis) 1 x.length (fun _ j => x.getD j 0) 0 j = a.getD j 0 := by
    intro j hj
    unfold wav.fstep
    simp only [gt_iff_lt, show 1 < x.length by omega, if_true, lt_irrefl, if_false]
    rw [wav.mapRows, if_pos ⟨by omega, hj⟩, wav_vec]
  congr 2
  rw [← wav.range_getD (wav.analyse id w.analysis (a.take (2 * M)) ++ a.drop (2 * M)) x.length (by simp [l2, l1, hx]; omega)]
  apply List.map_congr_left
  intro j hj
  have hj := List.mem_range.mp hj
  unfold wav.patch
  by_cases h : j < 2 * M
  · rw [if_pos ⟨by omega, h⟩]
    have : ((List.range (2 * M)).map fun k => wav.fstep (wav.analyse id w.analysis) 1 x.length (fun _ j => x.getD j 0) 0 k) = a.take (2 * M) := by
      rw [← wav.range_getD (a.take (2 * M)) (2 * M) ht]
      apply List.map_congr_left
      intro k hk
      have hk := List.mem_range.mp hk
      rw [s1 k (by omega)]
      simp only [List.getD_eq_getElem?_getD, List.getElem?_take, if_pos hk]
    rw [wav.fstep]
    simp only [gt_iff_lt, show 1 < 2 * M by omega, if_true, lt_irrefl, if_false]
    rw [wav.mapRows, if_pos ⟨by omega, h⟩, this]
    simp only [List.getD_eq_getElem?_getD]
    rw [List.getElem?_append_left (by rw [l2, ht]; exact h)]
  · rw [if_neg (by tauto), s1 j hj]
    simp only [List.getD_eq_getElem?_getD]
    rw [List.getElem?_append_right (by rw [l2, ht]; omega), List.getElem?_drop, l2, ht, show 2 * M + (j - 2 * M) = j by omega]

theorem wav.two_backward (w : Wavelet) (h1 : w.synthesis.1 ≠ []) (h2 : w.synthesis.2 ≠ []) (x : List ℝ) (M : ℕ) (hM : 0 < M) (hx : x.length = 4 * M) :
    w.transform id (.vec x) 2 true =
      .ok (.vec (wav.synthesise id w.synthesis (wav.synthesise id w.synthesis (x.take (2 * M)) ++ x.drop (2 * M)))) := by
  have hne : x ≠ [] := List.length_pos_iff.mp (by omega)
  have ht : (x.take (2 * M)).length = 2 * M := by rw [List.length_take, hx]; omega
  have l2 := wav.synthesise_length w.synthesis h1 h2 id (x.take (2 * M)) (List.length_pos_iff.mp (by omega))
  set a := wav.synthesise id w.synthesis (x.take (2 * M)) ++ x.drop (2 * M) with ha
  have la : a.length = x.length := by rw [ha]; simp [l2, hx]; omega
  have l1 := wav.synthesise_length w.synthesis h1 h2 id a (List.length_pos_iff.mp (by omega))
  have hf : wav.Fits x.length (1 + 1) := Or.inr ⟨by omega, M, by rw [hx]; norm_num⟩
  have hg : wav.Fits (max (x.length / 2) 1) (0 + 1) := Or.inr ⟨by omega, M, by rw [hx]; omega⟩
  have e1 : max (1 / 2) 1 = 1 := rfl
  have e2 : max (x.length / 2) 1 = 2 * M := by omega
  unfold Wavelet.transform
  simp only [hne, if_false, if_true]
  rw [show ((2 : ℤ).toNat) = 1 + 1 from rfl, wav.backward_eq id w.synthesis 1 1 x.length _ (Or.inl rfl) hf, if_neg (by omega), e1,
    show (1 : ℕ) = 0 + 1 from rfl, wav.backward_eq id w.synthesis 0 1 _ _ (Or.inl rfl) hg, if_pos rfl]
  simp only [e2, zero_add]
  have s1 : ((List.range x.length).map fun k => wav.patch 1 (2 * M) (wav.bstep (wav.synthesise id w.synthesis) 1 (2 * M) fun _ j => x.getD j 0) (fun _ j => x.getD j 0) 0 k) = a := by
    rw [← wav.range_getD a x.length la]
    apply List.map_congr_left
    intro j hj
    have hj := List.mem_range.mp hj
    unfold wav.patch
    by_cases h : j < 2 * M
    · rw [if_pos ⟨by omega, h⟩]
      have : ((List.range (2 * M)).map fun k => x.getD k 0) = x.take (2 * M) := by
        rw [← wav.range_getD (x.take (2 * M)) (2 * M) ht]
        apply List.map_congr_left
        intro k hk
        have hk := List.mem_range.mp hk
        simp only [List.getD_eq_getElem?_getD, List.getElem?_take, if_pos hk]
      rw [wav.bstep]
      simp only [gt_iff_lt, show 1 < 2 * M by omega, if_true, lt_irrefl, if_false]
      rw [wav.mapRows, if_pos ⟨by omega, h⟩, this, ha]
      simp only [List.getD_eq_getElem?_getD]
      rw [List.getElem?_append_left (by rw [l2, ht]; exact h)]
    · rw [if_neg (by tauto), ha]
      simp only [List.getD_eq_getElem?_getD]
      rw [List.getElem?_append_right (by rw [l2, ht]; omega), List.getElem?_drop, l2, ht, show 2 * M + (j - 2 * M) = j by omega]
  congr 2
  rw [← wav.range_getD (wav.synthesise id w.synthesis a) x.length (by rw [l1, la])]
  apply List.map_congr_left
  intro j hj
  have hj := List.mem_range.mp hj
  rw [wav.bstep]
  simp only [gt_iff_lt, show 1 < x.length by omega, if_true, lt_irrefl, if_false]
  rw [wav.mapRows, if_pos ⟨by omega, hj⟩, s1]

theorem eq_of_at0 {l l' : List ℝ} (h : l.length = l'.length) (h' : ∀ i < l'.length, at0 l i = at0 l' i) : l = l' := by
  have e := wav.range_getD l _ h
  have e' := wav.range_getD l' _ rfl
  exact e.symm.trans ((List.map_congr_left fun i hi => h' i (List.mem_range.mp hi)).trans e')

theorem d3_result (b0 b1 b2 b3 : ℝ) (w : Wavelet) (ha : w.analysis = ([b0, b1, b2, b3], [-b3, b2, -b1, b0])) (hs : w.synthesis = ([b3, b2, b1, b0], [b0, -b1, b2, -b3])) :
    ∃ y z, w.transform id (.vec [1, 0, 0, 0, 0, 0, 0, 0]) 2 false = .ok (.vec y) ∧ w.transform id (.vec y) 2 true = .ok (.vec z) ∧
      ∀ l0 l1 h0 h1 : ℝ, l0 = b0 * b3 + b1 * b1 → l1 = b3 * b1 + b2 * b3 → h0 = -b3 * b3 + b2 * b1 → h1 = b0 * b1 - b1 * b3 →
        at0 z 2 = 2 * (b3 * (2 * (b2 * l0 - b1 * h0)) + b1 * (2 * (b3 * l0 + b0 * h0))) + 2 * (b0 * b0 + b2 * b2) ∧
        at0 z 6 = 2 * (b3 * (2 * (b2 * l1 + b0 * l0 - b1 * h1 - b3 * h0)) + b1 * (2 * (b3 * l1 + b1 * l0 + b0 * h1 + b2 * h0))) := by
  have n1 : w.analysis.1 ≠ [] := by rw [ha]; simp
  have n2 : w.analysis.2 ≠ [] := by rw [ha]; simp
  have n3 : w.synthesis.1 ≠ [] := by rw [hs]; simp
  have n4 : w.synthesis.2 ≠ [] := by rw [hs]; simp
  have e1 : wav.analyse id w.analysis [1, 0, 0, 0, 0, 0, 0, 0] = [b1, b3, 0, 0, b2, b0, 0, 0] := by
    refine eq_of_at0 ((wav.analyse_length w.analysis n1 n2 id [1, 0, 0, 0, 0, 0, 0, 0] 4 (by norm_num) rfl).trans rfl) ?_
    intro i hi
    simp only [List.length] at hi
    rw [wav.at0_analyse w.analysis n1 n2 [1, 0, 0, 0, 0, 0, 0, 0] 4 (by norm_num) rfl i (by omega), ha]
    interval_cases i <;> simp [conv, sum_range_succ, at0]
  have e2 : wav.analyse id w.analysis [b1, b3, 0, 0] = [b0 * b3 + b1 * b1, b3 * b1 + b2 * b3, -b3 * b3 + b2 * b1, b0 * b1 - b1 * b3] := by
    refine eq_of_at0 ((wav.analyse_length w.analysis n1 n2 id [b1, b3, 0, 0] 2 (by norm_num) rfl).trans rfl) ?_
    intro i hi
    simp only [List.length] at hi
    rw [wav.at0_analyse w.analysis n1 n2 [b1, b3, 0, 0] 2 (by norm_num) rfl i (by omega), ha]
    interval_cases i <;> simp [conv, sum_range_succ, at0] <;> ring
  have f := wav.two_forward w n1 n2 [1, 0, 0, 0, 0, 0, 0, 0] 2 (by norm_num) rfl
  rw [e1, show List.take (2 * 2) [b1, b3, 0, 0, b2, b0, 0, 0] = [b1, b3, 0, 0] from rfl, e2] at f
  have f' := wav.two_backward w n3 n4 ([b0 * b3 + b1 * b1, b3 * b1 + b2 * b3, -b3 * b3 + b2 * b1, b0 * b1 - b1 * b3] ++
    List.drop (2 * 2) [b1, b3, 0, 0, b2, b0, 0, 0]) 2 (by norm_num) rfl
  refine ⟨_, _, f, f', ?_⟩
  · intro l0 l1 h0 h1 el0 el1 eh0 eh1
    rw [← el0, ← el1, ← eh0, ← eh1]
    have e3 : wav.synthesise id w.synthesis [l0, l1, h0, h1] = [2 * (b3 * l0 + b0 * h0), 2 * (b2 * l0 - b1 * h0), 2 * (b3 * l1 + b1 * l0 + b0 * h1 + b2 * h0),
        2 * (b2 * l1 + b0 * l0 - b1 * h1 - b3 * h0)] := by
      refine eq_of_at0 ((wav.synthesise_length w.synthesis n3 n4 id [l0, l1, h0, h1] (by simp)).trans rfl) ?_
      intro i hi
      simp only [List.length] at hi
      rw [wav.at0_synthesise w.synthesis n3 n4 [l0, l1, h0, h1] (by simp) i (by simpa using hi), hs]
      interval_cases i <;> simp [conv, sum_range_succ, at0, wav.up] <;> ring
    simp only [List.take, List.drop, List.cons_append, List.nil_append, e3]
    constructor
    · rw [wav.at0_synthesise w.synthesis n3 n4 _ (by simp) 2 (by simp), hs]
      simp [conv, sum_range_succ, at0, wav.up]
    · rw [wav.at0_synthesise w.synthesis n3 n4 _ (by simp) 6 (by simp), hs]
      simp [conv, sum_range_succ, at0, wav.up]

/-- C87.  Several levels of other wavelets do not reconstruct: the delays of the levels differ.  No delay of the impulse is the result of analysis and synthesis by
two levels of Daubechies 3. -/
theorem C87_levels_witness : ∃ w y z, Wavelet.new (some .daubechies) 3 = .ok w ∧ w.transform id (.vec [1, 0, 0, 0, 0, 0, 0, 0]) 2 false = .ok (.vec y) ∧
    w.transform id (.vec y) 2 true = .ok (.vec z) ∧ ¬ ∃ d : ℕ, ∀ m < 8, at0 z m = if m = d then 1 else 0 := by
  have hw : ∃ w, Wavelet.new (some .daubechies) 3 = .ok w := ⟨_, rfl⟩
  obtain ⟨w, hw⟩ := hw
  have hf : w = wav.filters ([4829629131445341, 8365163037378077, 2241438680420134, -1294095225512603].map fun z : ℤ => (z : ℝ) / 10 ^ 16) := by
    have : Wavelet.new (some .daubechies) 3 = .ok (wav.filters ([4829629131445341, 8365163037378077, 2241438680420134, -1294095225512603].map fun z : ℤ => (z : ℝ) / 10 ^ 16)) := rfl
    rw [hw] at this
    exact Except.ok.inj this
  obtain ⟨y, z, h1, h2, h3⟩ := d3_result (4829629131445341 / 14142135623730949) (8365163037378077 / 14142135623730949) (2241438680420134 / 14142135623730949)
    (-1294095225512603 / 14142135623730949) w (by
      rw [hf]
      simp only [wav.filters, wav.negate, List.map, List.zipIdx, List.sum_cons, List.sum_nil, List.length]
      norm_num) (by
      rw [hf]
      simp only [wav.filters, wav.negate, List.map, List.zipIdx, List.sum_cons, List.sum_nil, List.length]
      norm_num)
  refine ⟨w, y, z, hw, h1, h2, ?_⟩
  rintro ⟨d, hd⟩
  obtain ⟨a, b⟩ := h3 _ _ _ _ rfl rfl rfl rfl
  have h2 := hd 2 (by norm_num)
  have h6 := hd 6 (by norm_num)
  rw [a] at h2
  rw [b] at h6
  by_cases e : 2 = d
  · subst e
    norm_num at h6
  · rw [if_neg e] at h2
    norm_num at h2

end Verif.Props
