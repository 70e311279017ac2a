import Verif.Props.WaveletLinear

/- Property C157: WaveletTransform (diamondback/transforms/wavelet_transform.py) of an array whose type is coarser than the real numbers.  The
results of every line are stored into an array of the type of the signal (lines 548, 553, 571, 578), so they are rounded, and truncated toward
zero for integers. -/

namespace Verif.Props

open Finset Spec

/-- The sum of the magnitudes of a filter. -/
noncomputable def magnitude (b : List ℝ) : ℝ := ∑ i ∈ range b.length, |at0 b i|

/-- The error after `n` operations of gain `g` which each add an error `η`, from an error `e`. -/
noncomputable def grown (g η e : ℝ) (n : ℕ) : ℝ := g ^ n * e + η * ∑ k ∈ range n, g ^ k

theorem grown_zero (g η e : ℝ) : grown g η e 0 = e := by simp [grown]

theorem grown_succ (g η e : ℝ) (n : ℕ) : grown g η e (n + 1) = g * grown g η e n + η := by
  unfold grown
  rw [sum_range_succ', pow_zero, pow_succ]
  simp only [pow_succ, ← sum_mul]
  ring

theorem grown_add (g η e : ℝ) (m n : ℕ) : grown g η (grown g η e m) n = grown g η e (m + n) := by
  induction n with
  | zero => rw [grown_zero, Nat.add_zero]
  | succ n ih => rw [grown_succ, ih, ← Nat.add_assoc, grown_succ]

theorem grown_nonneg {g η e : ℝ} (hg : 1 ≤ g) (hη : 0 ≤ η) (he : 0 ≤ e) (n : ℕ) : 0 ≤ grown g η e n := by
  unfold grown
  have : 0 ≤ g := by linarith
  positivity

theorem grown_mono {g η e : ℝ} (hg : 1 ≤ g) (hη : 0 ≤ η) (he : 0 ≤ e) {m n : ℕ} (h : m ≤ n) : grown g η e m ≤ grown g η e n := by
  induction n, h using Nat.le_induction with
  | base => rfl
  | succ n _ ih =>
    rw [grown_succ]
    have := grown_nonneg hg hη he n
    nlinarith

/-- Two maps of lines of length `n` whose values differ by at most `g` times the difference of the arguments and `η`. -/
def wav.NearAt (A A' : List ℝ → List ℝ) (g η : ℝ) (n : ℕ) : Prop := ∀ (x y : ℕ → ℝ) (e : ℝ), (∀ k < n, |x k - y k| ≤ e) → ∀ j < n,
  |at0 (A ((List.range n).map x)) j - at0 (A' ((List.range n).map y)) j| ≤ g * e + η

theorem conv_eq_length (b l : List ℝ) (n : ℕ) : conv b l n = ∑ i ∈ range b.length, if i ≤ n then at0 b i * at0 l (n - i) else 0 := by
  unfold conv
  rw [← sum_filter]
  have e : (range b.length).filter (fun i => i ≤ n) ⊆ range (n + 1) := by
    intro i hi; simp only [mem_filter, mem_range] at hi ⊢; omega
  rw [← sum_subset e]
  intro i hi hi'
  simp only [mem_filter, mem_range, not_and] at hi hi'
  rw [at0_of_le b i (by omega), zero_mul]

/-- The difference of two convolutions, where only some samples differ. -/
theorem conv_near (b l l' : List ℝ) (e : ℝ) (he : 0 ≤ e) (P : ℕ → Prop) [DecidablePred P] (n : ℕ) (h : ∀ i ≤ n, |at0 l (n - i) - at0 l' (n - i)| ≤ if P i then e else 0) :
    |conv b l n - conv b l' n| ≤ (∑ i ∈ range b.length, if P i then |at0 b i| else 0) * e := by
  rw [conv_eq_length, conv_eq_length, ← sum_sub_distrib, sum_mul]
  refine (abs_sum_le_sum_abs _ _).trans (sum_le_sum fun i _ => ?_)
  by_cases hi : i ≤ n
  · rw [if_pos hi, if_pos hi, ← mul_sub, abs_mul]
    have := h i hi
    split at this
    · rw [if_pos (by assumption)]; exact mul_le_mul_of_nonneg_left this (abs_nonneg _)
    · rw [if_neg (by assumption)]
      rw [le_antisymm this (abs_nonneg _)]; simp
  · rw [if_neg hi, if_neg hi]; simp only [sub_zero, abs_zero]
    split
    · positivity
    · simp

theorem at0_map_cast (cast : ℝ → ℝ) (l : List ℝ) (j : ℕ) (hj : j < l.length) : at0 (l.map cast) j = cast (at0 l j) := by
  rw [at0_of_lt _ _ (by simpa using hj), at0_of_lt _ _ hj, List.getElem_map]

theorem wav.analyse_cast (cast : ℝ → ℝ) (b : List ℝ × List ℝ) (l : List ℝ) : wav.analyse cast b l = (wav.analyse id b l).map cast := by
  unfold wav.analyse; rw [List.map_id]

theorem wav.synthesise_cast (cast : ℝ → ℝ) (b : List ℝ × List ℝ) (l : List ℝ) : wav.synthesise cast b l = (wav.synthesise id b l).map cast := by
  unfold wav.synthesise; simp only [List.map_id]

theorem wav.analyse_near (cast : ℝ → ℝ) (η g : ℝ) (hcast : ∀ v, |cast v - v| ≤ η) (b : List ℝ × List ℝ) (hb1 : b.1 ≠ []) (hb2 : b.2 ≠ []) (h1 : magnitude b.1 ≤ g)
    (h2 : magnitude b.2 ≤ g) (M : ℕ) (hM : 0 < M) : wav.NearAt (wav.analyse cast b) (wav.analyse id b) g η (2 * M) := by
  intro x y e he j hj
  have he0 : 0 ≤ e := (abs_nonneg _).trans (he 0 (by omega))
  rw [wav.analyse_cast, at0_map_cast _ _ _ (by rw [wav.analyse_length b hb1 hb2 id _ M hM (by simp)]; simpa using hj)]
  have hl : |at0 (wav.analyse id b ((List.range (2 * M)).map x)) j - at0 (wav.analyse id b ((List.range (2 * M)).map y)) j| ≤ g * e := by
    have hd : ∀ n, ∀ i ≤ n, |at0 ((List.range (2 * M)).map x) (n - i) - at0 ((List.range (2 * M)).map y) (n - i)| ≤ if True then e else 0 := by
      intro n i _
      rw [if_pos trivial, at0_range_map, at0_range_map]
      split
      · exact he _ (by assumption)
      · simpa using he0
    rw [wav.at0_analyse b hb1 hb2 _ M hM (by simp) j hj, wav.at0_analyse b hb1 hb2 _ M hM (by simp) j hj]
    split
    · refine (conv_near _ _ _ e he0 (fun _ => True) _ (hd _)).trans ?_
      simp only [if_true]
      exact mul_le_mul_of_nonneg_right h1 he0
    · refine (conv_near _ _ _ e he0 (fun _ => True) _ (hd _)).trans ?_
      simp only [if_true]
      exact mul_le_mul_of_nonneg_right h2 he0
  have := hcast (at0 (wav.analyse id b ((List.range (2 * M)).map x)) j)
  rw [abs_le] at *
  constructor <;> linarith [this.1, this.2, hl.1, hl.2]

/-- The magnitudes of the two synthesis filters which meet the samples of one parity. -/
noncomputable def wav.parity (b : List ℝ × List ℝ) (m : ℕ) : ℝ :=
  (∑ i ∈ range b.1.length, if i % 2 = m % 2 then |at0 b.1 i| else 0) + ∑ i ∈ range b.2.length, if i % 2 = m % 2 then |at0 b.2 i| else 0

theorem wav.synthesise_near (cast : ℝ → ℝ) (η g : ℝ) (hcast : ∀ v, |cast v - v| ≤ η) (b : List ℝ × List ℝ) (hb1 : b.1 ≠ []) (hb2 : b.2 ≠ [])
    (h1 : ∀ m, 2 * wav.parity b m ≤ g) (M : ℕ) (hM : 0 < M) : wav.NearAt (wav.synthesise cast b) (wav.synthesise id b) g η (2 * M) := by
  intro x y e he j hj
  have he0 : 0 ≤ e := (abs_nonneg _).trans (he 0 (by omega))
  have hne : ∀ z : ℕ → ℝ, (List.range (2 * M)).map z ≠ [] := by
    intro z h
    have := congrArg List.length h
    simp at this; omega
  rw [wav.synthesise_cast, at0_map_cast _ _ _ (by rw [wav.synthesise_length b hb1 hb2 id _ (hne _)]; simpa using hj)]
  have hd : ∀ z : ℕ → ℝ, ∀ k, at0 (((List.range (2 * M)).map z).drop M) k = at0 ((List.range (2 * M)).map z) (M + k) := by
    intro z k
    simp only [at0, List.getD_eq_getElem?_getD, List.getElem?_drop]
  have ht : ∀ z : ℕ → ℝ, ∀ k, at0 (((List.range (2 * M)).map z).take M) k = if k < M then at0 ((List.range (2 * M)).map z) k else 0 := by
    intro z k
    simp only [at0, List.getD_eq_getElem?_getD, List.getElem?_take]
    split <;> rfl
  have hup : ∀ a, ∀ k, k < 2 * M → at0 (wav.up (2 * M) a) k = if k % 2 = 0 then at0 a (k / 2) else 0 := by
    intro a k hk
    exact wav.at0_up _ _ _ hk
  have hs : ∀ k, |at0 ((List.range (2 * M)).map x) k - at0 ((List.range (2 * M)).map y) k| ≤ e := by
    intro k
    rw [at0_range_map, at0_range_map]
    split
    · exact he _ (by assumption)
    · simpa using he0
  have hl : |at0 (wav.synthesise id b ((List.range (2 * M)).map x)) j - at0 (wav.synthesise id b ((List.range (2 * M)).map y)) j| ≤ g * e := by
    rw [wav.at0_synthesise b hb1 hb2 _ (hne _) j (by simpa using hj), wav.at0_synthesise b hb1 hb2 _ (hne _) j (by simpa using hj)]
    simp only [List.length_map, List.length_range]
    rw [show 2 * M / 2 = M by omega]
    have c1 := conv_near b.1 (wav.up (2 * M) (((List.range (2 * M)).map x).take M)) (wav.up (2 * M) (((List.range (2 * M)).map y).take M)) e he0
      (fun i => i % 2 = j % 2) j (by
        intro i hi
        rw [hup _ _ (by omega), hup _ _ (by omega), ht, ht]
        by_cases hp : i % 2 = j % 2
        · simp only [if_pos (show (j - i) % 2 = 0 by omega), if_pos hp]
          split
          · exact hs _
          · simpa using he0
        · simp only [if_neg (show ¬ (j - i) % 2 = 0 by omega), if_neg hp]; simp)
    have c2 := conv_near b.2 (wav.up (2 * M) (((List.range (2 * M)).map x).drop M)) (wav.up (2 * M) (((List.range (2 * M)).map y).drop M)) e he0
      (fun i => i % 2 = j % 2) j (by
        intro i hi
        rw [hup _ _ (by omega), hup _ _ (by omega), hd, hd]
        by_cases hp : i % 2 = j % 2
        · simp only [if_pos (show (j - i) % 2 = 0 by omega), if_pos hp]
          exact hs _
        · simp only [if_neg (show ¬ (j - i) % 2 = 0 by omega), if_neg hp]; simp)
    have c3 : 2 * wav.parity b j * e ≤ g * e := mul_le_mul_of_nonneg_right (h1 j) he0
    unfold wav.parity at c3
    rw [mul_add, add_mul] at c3
    rw [abs_le] at *
    constructor <;> linarith [c1.1, c1.2, c2.1, c2.2]
  have := hcast (at0 (wav.synthesise id b ((List.range (2 * M)).map x)) j)
  rw [abs_le] at *
  constructor <;> linarith [this.1, this.2, hl.1, hl.2]

/-- Arrays which differ by at most `e`. -/
def wav.Within (r c : ℕ) (e : ℝ) (u v : ℕ → ℕ → ℝ) : Prop := ∀ i < r, ∀ j < c, |u i j - v i j| ≤ e

theorem wav.mapRows_near (A A' : List ℝ → List ℝ) (g η : ℝ) (r c : ℕ) (hA : wav.NearAt A A' g η c) (u v : ℕ → ℕ → ℝ) (e : ℝ) (h : wav.Within r c e u v) :
    wav.Within r c (g * e + η) (wav.mapRows A r c u) (wav.mapRows A' r c v) := by
  intro i hi j hj
  unfold wav.mapRows
  rw [if_pos ⟨hi, hj⟩, if_pos ⟨hi, hj⟩]
  exact hA (fun k => u i k) (fun k => v i k) e (fun k hk => h i hi k hk) j hj

theorem wav.mapCols_near (A A' : List ℝ → List ℝ) (g η : ℝ) (r c : ℕ) (hA : wav.NearAt A A' g η r) (u v : ℕ → ℕ → ℝ) (e : ℝ) (h : wav.Within r c e u v) :
    wav.Within r c (g * e + η) (wav.mapCols A r c u) (wav.mapCols A' r c v) := by
  intro i hi j hj
  unfold wav.mapCols
  rw [if_pos ⟨hi, hj⟩, if_pos ⟨hi, hj⟩]
  exact hA (fun k => u k j) (fun k => v k j) e (fun k hk => h k hk j hj) i hi

theorem wav.Within.mono {r c : ℕ} {e e' : ℝ} {u v : ℕ → ℕ → ℝ} (h : wav.Within r c e u v) (h' : e ≤ e') : wav.Within r c e' u v := fun i hi j hj => (h i hi j hj).trans h'

theorem wav.patch_near {r c ii jj : ℕ} {e : ℝ} {p q u v : ℕ → ℕ → ℝ} (h : wav.Within ii jj e p q) (h' : wav.Within r c e u v) :
    wav.Within r c e (wav.patch ii jj p u) (wav.patch ii jj q v) := by
  intro i hi j hj
  unfold wav.patch
  by_cases hb : i < ii ∧ j < jj
  · rw [if_pos hb, if_pos hb]; exact h i hb.1 j hb.2
  · rw [if_neg hb, if_neg hb]; exact h' i hi j hj

/-- The dimensions of an array which are transformed: at most `d`. -/
def wav.Dims (r d : ℕ) : Prop := d = 2 ∨ (d = 1 ∧ r = 1)

theorem wav.Dims.half {r d : ℕ} (h : wav.Dims r d) : wav.Dims (max (r / 2) 1) d := by
  rcases h with h | ⟨h, h'⟩
  · exact Or.inl h
  · right; subst h'; exact ⟨h, rfl⟩

section steps

variable (A A' : List ℝ → List ℝ) {g η : ℝ} (hg : 1 ≤ g) (hη : 0 ≤ η) (hA : ∀ M, 0 < M → wav.NearAt A A' g η (2 * M))
include hg hη hA

theorem wav.fstep_near (r c d count : ℕ) (hr : wav.Fits r (count + 1)) (hc : wav.Fits c (count + 1)) (hd : wav.Dims r d) (u v : ℕ → ℕ → ℝ) (e : ℝ) (he : 0 ≤ e)
    (h : wav.Within r c e u v) : wav.Within r c (grown g η e d) (wav.fstep A r c u) (wav.fstep A' r c v) := by
  have h1 : c > 1 → wav.NearAt A A' g η c := by
    intro h; obtain ⟨M, hM, e⟩ := hc.even h; rw [e]; exact hA M hM
  have h2 : r > 1 → wav.NearAt A A' g η r := by
    intro h; obtain ⟨M, hM, e⟩ := hr.even h; rw [e]; exact hA M hM
  have m0 : grown g η e 0 = e := grown_zero g η e
  have m1 : grown g η e 1 = g * e + η := by rw [grown_succ, m0]
  have m2 : grown g η e 2 = g * (g * e + η) + η := by rw [grown_succ, m1]
  have d1 : 1 ≤ d := by rcases hd with h | ⟨h, -⟩ <;> omega
  unfold wav.fstep
  by_cases hc1 : c > 1 <;> by_cases hr1 : r > 1 <;> simp only [hc1, hr1, if_true, if_false]
  · have : d = 2 := by rcases hd with h | ⟨-, h⟩ <;> omega
    rw [this, m2]
    exact wav.mapCols_near A A' g η r c (h2 hr1) _ _ _ (wav.mapRows_near A A' g η r c (h1 hc1) _ _ _ h)
  · exact (wav.mapRows_near A A' g η r c (h1 hc1) _ _ _ h).mono (m1 ▸ grown_mono hg hη he d1)
  · exact (wav.mapCols_near A A' g η r c (h2 hr1) _ _ _ h).mono (m1 ▸ grown_mono hg hη he d1)
  · refine h.mono ?_
    have := grown_mono hg hη he (Nat.zero_le d)
    rwa [m0] at this

theorem wav.bstep_near (r c d count : ℕ) (hr : wav.Fits r (count + 1)) (hc : wav.Fits c (count + 1)) (hd : wav.Dims r d) (u v : ℕ → ℕ → ℝ) (e : ℝ) (he : 0 ≤ e)
    (h : wav.Within r c e u v) : wav.Within r c (grown g η e d) (wav.bstep A r c u) (wav.bstep A' r c v) := by
  have h1 : c > 1 → wav.NearAt A A' g η c := by
    intro h; obtain ⟨M, hM, e⟩ := hc.even h; rw [e]; exact hA M hM
  have h2 : r > 1 → wav.NearAt A A' g η r := by
    intro h; obtain ⟨M, hM, e⟩ := hr.even h; rw [e]; exact hA M hM
  have m0 : grown g η e 0 = e := grown_zero g η e
  have m1 : grown g η e 1 = g * e + η := by rw [grown_succ, m0]
  have m2 : grown g η e 2 = g * (g * e + η) + η := by rw [grown_succ, m1]
  have d1 : 1 ≤ d := by rcases hd with h | ⟨h, -⟩ <;> omega
  unfold wav.bstep
  by_cases hc1 : c > 1 <;> by_cases hr1 : r > 1 <;> simp only [hc1, hr1, if_true, if_false]
  · have : d = 2 := by rcases hd with h | ⟨-, h⟩ <;> omega
    rw [this, m2]
    exact wav.mapRows_near A A' g η r c (h1 hc1) _ _ _ (wav.mapCols_near A A' g η r c (h2 hr1) _ _ _ h)
  · exact (wav.mapRows_near A A' g η r c (h1 hc1) _ _ _ h).mono (m1 ▸ grown_mono hg hη he d1)
  · exact (wav.mapCols_near A A' g η r c (h2 hr1) _ _ _ h).mono (m1 ▸ grown_mono hg hη he d1)
  · refine h.mono ?_
    have := grown_mono hg hη he (Nat.zero_le d)
    rwa [m0] at this

end steps

theorem wav.forward_near (cast : ℝ → ℝ) (b : List ℝ × List ℝ) {g η : ℝ} (hg : 1 ≤ g) (hη : 0 ≤ η)
    (hA : ∀ M, 0 < M → wav.NearAt (wav.analyse cast b) (wav.analyse id b) g η (2 * M)) (d : ℕ) (count : ℕ) : ∀ (r c : ℕ) (u v : ℕ → ℕ → ℝ) (e : ℝ), 0 ≤ e →
    wav.Dims r d → wav.Fits r (count + 1) → wav.Fits c (count + 1) → wav.Within r c e u v → ∃ y z, wav.forward cast b (count + 1) ⟨r, c, u⟩ = .ok ⟨r, c, y⟩ ∧
      wav.forward id b (count + 1) ⟨r, c, v⟩ = .ok ⟨r, c, z⟩ ∧ wav.Within r c (grown g η e (d * (count + 1))) y z := by
  induction count with
  | zero =>
    intro r c u v e he hd hr hc h
    simp only [wav.forward_eq _ _ _ _ _ _ hr hc, if_pos]
    refine ⟨_, _, rfl, rfl, ?_⟩
    simpa using wav.fstep_near _ _ hg hη hA r c d 0 hr hc hd u v e he h
  | succ n ih =>
    intro r c u v e he hd hr hc h
    have hf := wav.fstep_near _ _ hg hη hA r c d (n + 1) hr hc hd u v e he h
    have he' := grown_nonneg hg hη he d
    obtain ⟨y, z, h1, h2, h3⟩ := ih _ _ (wav.fstep (wav.analyse cast b) r c u) (wav.fstep (wav.analyse id b) r c v) _ he' hd.half hr.half.1 hc.half.1
      (fun i hi j hj => hf i (by have := hr.half.2; omega) j (by have := hc.half.2; omega))
    simp only [wav.forward_eq _ _ _ _ _ _ hr hc, if_neg (show ¬ n + 1 = 0 by omega), h1, h2]
    refine ⟨_, _, rfl, rfl, ?_⟩
    rw [grown_add, show d + d * (n + 1) = d * (n + 1 + 1) by ring] at h3
    exact wav.patch_near h3 (hf.mono (grown_mono hg hη he (by nlinarith)))

theorem wav.backward_near (cast : ℝ → ℝ) (b : List ℝ × List ℝ) {g η : ℝ} (hg : 1 ≤ g) (hη : 0 ≤ η)
    (hA : ∀ M, 0 < M → wav.NearAt (wav.synthesise cast b) (wav.synthesise id b) g η (2 * M)) (d : ℕ) (count : ℕ) : ∀ (r c : ℕ) (u v : ℕ → ℕ → ℝ) (e : ℝ), 0 ≤ e →
    wav.Dims r d → wav.Fits r (count + 1) → wav.Fits c (count + 1) → wav.Within r c e u v → ∃ y z, wav.backward cast b (count + 1) ⟨r, c, u⟩ = .ok ⟨r, c, y⟩ ∧
      wav.backward id b (count + 1) ⟨r, c, v⟩ = .ok ⟨r, c, z⟩ ∧ wav.Within r c (grown g η e (d * (count + 1))) y z := by
  induction count with
  | zero =>
    intro r c u v e he hd hr hc h
    simp only [wav.backward_eq _ _ _ _ _ _ hr hc, if_pos]
    refine ⟨_, _, rfl, rfl, ?_⟩
    simpa using wav.bstep_near _ _ hg hη hA r c d 0 hr hc hd u v e he h
  | succ n ih =>
    intro r c u v e he hd hr hc h
    obtain ⟨y, z, h1, h2, h3⟩ := ih _ _ u v e he hd.half hr.half.1 hc.half.1
      (fun i hi j hj => h i (by have := hr.half.2; omega) j (by have := hc.half.2; omega))
    simp only [wav.backward_eq _ _ _ _ _ _ hr hc, if_neg (show ¬ n + 1 = 0 by omega), h1, h2]
    refine ⟨_, _, rfl, rfl, ?_⟩
    have he' := grown_nonneg hg hη he (d * (n + 1))
    have hp := wav.patch_near h3 (h.mono (by
      have := grown_mono hg hη he (Nat.zero_le (d * (n + 1)))
      rwa [grown_zero] at this))
    have := wav.bstep_near _ _ hg hη hA r c d (n + 1) hr hc hd _ _ _ he' hp
    rwa [grown_add, show d * (n + 1) + d = d * (n + 1 + 1) by ring] at this

theorem magnitude_eq (l : List ℝ) : magnitude l = (l.map abs).sum := by
  unfold magnitude
  induction l with
  | nil => simp
  | cons a l ih =>
    rw [List.length_cons, sum_range_succ', List.map_cons, List.sum_cons, ← ih, add_comm]
    simp [at0]

theorem digits_magnitude (style : WaveStyle) (order : ℤ) (p : List ℤ × ℕ) (h : Wavelet.digits style order = some p) :
    0 < p.1.sum ∧ p.1.sum ≤ (p.1.map abs).sum ∧ 100 * (p.1.map abs).sum ≤ 179 * p.1.sum := by
  unfold Wavelet.digits at h
  split at h <;> first | (cases h; decide +kernel) | simp at h

theorem magnitude_scaled (l : List ℤ) (s t : ℝ) (hs : 0 < s) (ht : 0 < t) :
    magnitude ((l.map fun z : ℤ => (z : ℝ) / s).map (· / t)) = ((l.map abs).sum : ℤ) / s / t := by
  rw [magnitude_eq]
  induction l with
  | nil => simp
  | cons a l ih =>
    simp only [List.map_cons, List.sum_cons] at ih ⊢
    rw [ih, abs_div, abs_div, abs_of_pos hs, abs_of_pos ht]
    push_cast
    ring

theorem sum_scaled (l : List ℤ) (s : ℝ) : (l.map fun z : ℤ => (z : ℝ) / s).sum = (l.sum : ℤ) / s := by
  induction l with
  | nil => simp
  | cons a l ih => simp only [List.map_cons, List.sum_cons, ih]; push_cast; ring

theorem magnitude_range (style : WaveStyle) (order : ℤ) (w : Wavelet) (h : Wavelet.new (some style) order = .ok w) :
    1 ≤ magnitude w.analysis.1 ∧ magnitude w.analysis.1 ≤ 179 / 100 ∧ magnitude w.analysis.2 = magnitude w.analysis.1 ∧ ∀ m, wav.parity w.synthesis m = magnitude w.analysis.1 := by
  obtain ⟨p, hp, rfl⟩ := wav_new style order w h
  obtain ⟨o1, o2, o3, o4⟩ := C48_orders_odd style order p hp
  obtain ⟨d1, d2, d3⟩ := digits_magnitude style order p hp
  set c := p.1.map fun z : ℤ => (z : ℝ) / 10 ^ p.2 with hc
  have h10 : (0 : ℝ) < 10 ^ p.2 := by positivity
  have hsum : c.sum = (p.1.sum : ℤ) / 10 ^ p.2 := sum_scaled _ _
  have hpos : (0 : ℝ) < c.sum := by rw [hsum]; have : (0 : ℝ) < (p.1.sum : ℤ) := by exact_mod_cast d1
                                    positivity
  obtain ⟨n, hn⟩ : ∃ n : ℕ, order = n := ⟨order.toNat, by omega⟩
  have hcl : c.length = n + 1 := by rw [hc, List.length_map]; omega
  obtain ⟨σ, f1, f2, f3, f4, f5, f6, f7, f8⟩ := wav.filters_spec c n hcl (by omega) (by
    intro h1 i j hi hj
    have e := o4 (by omega)
    have : ∀ i, i ≤ 1 → at0 c i = 10 / 10 ^ p.2 := by
      intro i hi
      rw [hc, e]
      interval_cases i <;> simp [at0]
    rw [this i hi, this j hj])
  have hσ : |σ| = 1 := by
    rcases mul_self_eq_one_iff.mp f1 with e | e <;> rw [e] <;> simp
  have hs : magnitude (c.map (· / c.sum)) = ((p.1.map abs).sum : ℤ) / (p.1.sum : ℤ) := by
    rw [hc, magnitude_scaled _ _ _ h10 (by rw [← hc]; exact hpos), ← hc, hsum]
    field_simp
  have hz : (0 : ℝ) < (p.1.sum : ℤ) := by exact_mod_cast d1
  have hbl : (c.map (· / c.sum)).length = n + 1 := by rw [List.length_map, hcl]
  rw [f2]
  refine ⟨?_, ?_, ?_, ?_⟩
  · rw [hs, le_div_iff₀ hz, one_mul]; exact_mod_cast d2
  · rw [hs, div_le_iff₀ hz]
    have : (100 : ℝ) * ((p.1.map abs).sum : ℤ) ≤ 179 * (p.1.sum : ℤ) := by exact_mod_cast d3
    linarith
  · unfold magnitude
    rw [f3, hbl, ← sum_range_reflect]
    apply sum_congr rfl
    intro i hi
    have hi := mem_range.mp hi
    rw [f6 _ (by omega), abs_mul, hσ, abs_neg, abs_mul, abs_pow, abs_neg, abs_one, one_pow, one_mul, one_mul, show n - (n + 1 - 1 - i) = i by omega]
  · intro m
    unfold wav.parity magnitude
    rw [f4, List.length_reverse, f5, hbl, ← f4]
    rw [← sum_range_reflect, ← sum_add_distrib]
    apply sum_congr rfl
    intro i hi
    have hi := mem_range.mp hi
    rw [f7 _ (by omega), f8 _ (by omega), abs_mul, hσ, abs_mul, abs_pow, abs_neg, abs_one, one_pow, one_mul, one_mul, show n - (n + 1 - 1 - i) = i by omega]
    by_cases hp : i % 2 = m % 2
    · rw [if_neg (by omega), if_pos hp, zero_add]
    · rw [if_pos (by omega), if_neg hp, add_zero]

/-- C157.  The gain of one operation on a line: the magnitudes of the low pass analysis filter sum to between 1 and 1.79 for every entry of the table. -/
theorem C157_gain (style : WaveStyle) (order : ℤ) (w : Wavelet) (h : Wavelet.new (some style) order = .ok w) :
    1 ≤ magnitude w.analysis.1 ∧ magnitude w.analysis.1 ≤ 179 / 100 := ⟨(magnitude_range style order w h).1, (magnitude_range style order w h).2.1⟩

/-- A filter of the table. -/
example := C157_gain .daubechies 19 _ rfl

theorem C157_gain_haar : ∃ w, Wavelet.new (some .haar) 1 = .ok w ∧ magnitude w.analysis.1 = 1 := by
  obtain ⟨w, hw, hf⟩ := haar_filters
  refine ⟨w, hw, ?_⟩
  rw [hf, magnitude_eq]
  norm_num

/-- C157.  Arrays: the transform of an array which is stored with an error of at most `η`, against the transform in real numbers of an array which
differs by at most `e`. -/
theorem C157_stored_mat (style : WaveStyle) (order : ℤ) (w : Wavelet) (h : Wavelet.new (some style) order = .ok w) (cast : ℝ → ℝ) (η : ℝ)
    (hcast : ∀ v, |cast v - v| ≤ η) (r c count : ℕ) (hcount : 0 < count) (hr : Acceptable r count) (hc : Acceptable c count) (inverse : Bool) (u v : ℕ → ℕ → ℝ) (e : ℝ)
    (he : ∀ i < r, ∀ j < c, |u i j - v i j| ≤ e) :
    ∃ y z, w.transform cast (.mat ⟨r, c, u⟩) count inverse = .ok (.mat ⟨r, c, y⟩) ∧ w.transform id (.mat ⟨r, c, v⟩) count inverse = .ok (.mat ⟨r, c, z⟩) ∧
      ∀ i < r, ∀ j < c, |y i j - z i j| ≤ grown (if inverse then 2 * magnitude w.analysis.1 else magnitude w.analysis.1) η e (2 * count) := by
  obtain ⟨n1, n2, n3, n4⟩ := wav_new_ne style order w h
  obtain ⟨s1, s2, s3, s4⟩ := magnitude_range style order w h
  obtain ⟨n, rfl⟩ : ∃ n, count = n + 1 := ⟨count - 1, by omega⟩
  have hη : 0 ≤ η := (abs_nonneg _).trans (hcast 0)
  have he0 : 0 ≤ e := (abs_nonneg _).trans (he 0 (wav.Fits.pos hr) 0 (wav.Fits.pos hc))
  unfold Wavelet.transform
  cases inverse
  · obtain ⟨y, z, h1, h2, h3⟩ := wav.forward_near cast w.analysis s1 hη (wav.analyse_near cast η _ hcast _ n1 n2 le_rfl s3.le) 2 n r c u v e he0 (Or.inl rfl) hr hc he
    exact ⟨y, z, by simp only [Int.toNat_natCast, Bool.false_eq_true, if_false, h1], by simp only [Int.toNat_natCast, Bool.false_eq_true, if_false, h2],
      by simpa [wav.Within] using h3⟩
  · obtain ⟨y, z, h1, h2, h3⟩ := wav.backward_near cast w.synthesis (show 1 ≤ 2 * magnitude w.analysis.1 by linarith) hη
      (wav.synthesise_near cast η _ hcast _ n3 n4 (fun m => by rw [s4])) 2 n r c u v e he0 (Or.inl rfl) hr hc he
    exact ⟨y, z, by simp only [Int.toNat_natCast, if_true, h1], by simp only [Int.toNat_natCast, if_true, h2], by simpa [wav.Within] using h3⟩

/-- C157.  Signals: one operation in each level. -/
theorem C157_stored_vec (style : WaveStyle) (order : ℤ) (w : Wavelet) (h : Wavelet.new (some style) order = .ok w) (cast : ℝ → ℝ) (η : ℝ)
    (hcast : ∀ v, |cast v - v| ≤ η) (x x' : List ℝ) (hl : x'.length = x.length) (count : ℕ) (hcount : 0 < count) (hc : Acceptable x.length count) (inverse : Bool) (e : ℝ)
    (he : ∀ j < x.length, |at0 x j - at0 x' j| ≤ e) :
    ∃ y z, w.transform cast (.vec x) count inverse = .ok (.vec y) ∧ w.transform id (.vec x') count inverse = .ok (.vec z) ∧ y.length = x.length ∧ z.length = x.length ∧
      ∀ j < x.length, |at0 y j - at0 z j| ≤ grown (if inverse then 2 * magnitude w.analysis.1 else magnitude w.analysis.1) η e count := by
  obtain ⟨n1, n2, n3, n4⟩ := wav_new_ne style order w h
  obtain ⟨s1, s2, s3, s4⟩ := magnitude_range style order w h
  obtain ⟨n, rfl⟩ : ∃ n, count = n + 1 := ⟨count - 1, by omega⟩
  have hη : 0 ≤ η := (abs_nonneg _).trans (hcast 0)
  have hpos : 0 < x.length := wav.Fits.pos hc
  have he0 : 0 ≤ e := (abs_nonneg _).trans (he 0 hpos)
  have hx : x ≠ [] := List.length_pos_iff.mp hpos
  have hx' : x' ≠ [] := List.length_pos_iff.mp (by omega)
  have hw : wav.Within 1 x.length e (fun _ j => x.getD j 0) (fun _ j => x'.getD j 0) := fun i _ j hj => he j hj
  unfold Wavelet.transform
  simp only [hx, hx', if_false, Int.toNat_natCast, hl]
  cases inverse
  · obtain ⟨y, z, h1, h2, h3⟩ := wav.forward_near cast w.analysis s1 hη (wav.analyse_near cast η _ hcast _ n1 n2 le_rfl s3.le) 1 n 1 x.length _ _ e he0
      (Or.inr ⟨rfl, rfl⟩) (Or.inl rfl) hc hw
    simp only [Bool.false_eq_true, if_false, h1, h2]
    refine ⟨_, _, rfl, rfl, by simp, by simp, fun j hj => ?_⟩
    rw [at0_range_map, at0_range_map, if_pos hj, if_pos hj]
    simpa using h3 0 one_pos j hj
  · obtain ⟨y, z, h1, h2, h3⟩ := wav.backward_near cast w.synthesis (show 1 ≤ 2 * magnitude w.analysis.1 by linarith) hη
      (wav.synthesise_near cast η _ hcast _ n3 n4 (fun m => by rw [s4])) 1 n 1 x.length _ _ e he0
      (Or.inr ⟨rfl, rfl⟩) (Or.inl rfl) hc hw
    simp only [if_true, h1, h2]
    refine ⟨_, _, rfl, rfl, by simp, by simp, fun j hj => ?_⟩
    rw [at0_range_map, at0_range_map, if_pos hj, if_pos hj]
    simpa using h3 0 one_pos j hj

theorem truncInt_near (v : ℝ) : |truncInt v - v| ≤ 1 := by
  unfold truncInt
  split
  · rw [abs_le]; constructor <;> linarith [Int.floor_le v, Int.lt_floor_add_one v]
  · rw [abs_le]; constructor <;> linarith [Int.le_ceil v, Int.ceil_lt_add_one v]

theorem truncInt_of_int (z : ℤ) : truncInt (z : ℝ) = z := by
  unfold truncInt
  split <;> simp

example : (∃ w, Wavelet.new (some .daubechies) 19 = .ok w) ∧ (∀ v : ℝ, |truncInt v - v| ≤ 1) ∧ Acceptable 12 2 ∧ Acceptable ([3, 1, 4, 1] : List ℝ).length 2 :=
  ⟨⟨_, rfl⟩, truncInt_near, Or.inr ⟨by norm_num, 3, by norm_num⟩, Or.inr ⟨by norm_num, 1, by norm_num⟩⟩

/-- C157.  Integers and the Haar wavelet: one unit of error in each level of a signal. -/
theorem C157_integers_vec (x : List ℝ) (count : ℕ) (hcount : 0 < count) (hc : Acceptable x.length count) :
    ∃ w y z, Wavelet.new (some .haar) 1 = .ok w ∧ w.transform truncInt (.vec x) count false = .ok (.vec y) ∧ w.transform id (.vec x) count false = .ok (.vec z) ∧
      ∀ j < x.length, |at0 y j - at0 z j| ≤ count := by
  obtain ⟨w, hw, hs⟩ := C157_gain_haar
  obtain ⟨y, z, h1, h2, -, -, h3⟩ := C157_stored_vec .haar 1 w hw truncInt 1 truncInt_near x x rfl count hcount hc false 0 (by simp)
  refine ⟨w, y, z, hw, h1, h2, fun j hj => (h3 j hj).trans ?_⟩
  simp [grown, hs]

/-- Four samples and two levels. -/
example := C157_integers_vec [3, 1, 4, 1] 2 (by norm_num) (Or.inr ⟨by norm_num, 1, by norm_num⟩)

/-- C157.  Integers and the Haar wavelet: two units of error in each level of an array. -/
theorem C157_integers_mat (r c count : ℕ) (u : ℕ → ℕ → ℝ) (hcount : 0 < count) (hr : Acceptable r count) (hc : Acceptable c count) :
    ∃ w y z, Wavelet.new (some .haar) 1 = .ok w ∧ w.transform truncInt (.mat ⟨r, c, u⟩) count false = .ok (.mat ⟨r, c, y⟩) ∧
      w.transform id (.mat ⟨r, c, u⟩) count false = .ok (.mat ⟨r, c, z⟩) ∧ ∀ i < r, ∀ j < c, |y i j - z i j| ≤ 2 * count := by
  obtain ⟨w, hw, hs⟩ := C157_gain_haar
  obtain ⟨y, z, h1, h2, h3⟩ := C157_stored_mat .haar 1 w hw truncInt 1 truncInt_near r c count hcount hr hc false u u 0 (by simp)
  refine ⟨w, y, z, hw, h1, h2, fun i hi j hj => (h3 i hi j hj).trans ?_⟩
  simp [grown, hs]

/-- An array of 12 rows and one column and two levels. -/
example := C157_integers_mat 12 1 2 (fun i _ => i) (by norm_num) (Or.inr ⟨by norm_num, 3, by norm_num⟩) (Or.inl rfl)

/-! ### Exact cases -/

/-- Arrays of multiples of `2 ^ k`. -/
def wav.Multiple (k r c : ℕ) (u : ℕ → ℕ → ℝ) : Prop := ∀ i < r, ∀ j < c, ∃ z : ℤ, u i j = 2 ^ k * z

/-- A map of lines which is exact on multiples of `2 ^ (k + s)`, with multiples of `2 ^ k` as results. -/
def wav.ExactAt (A A' : List ℝ → List ℝ) (s n : ℕ) : Prop := ∀ (x : ℕ → ℝ) (k : ℕ), (∀ i < n, ∃ z : ℤ, x i = 2 ^ (k + s) * z) → ∀ j < n,
  at0 (A ((List.range n).map x)) j = at0 (A' ((List.range n).map x)) j ∧ ∃ z : ℤ, at0 (A ((List.range n).map x)) j = 2 ^ k * z

theorem wav.mapRows_exact (A A' : List ℝ → List ℝ) (s r c : ℕ) (hA : wav.ExactAt A A' s c) (k : ℕ) (u : ℕ → ℕ → ℝ) (h : wav.Multiple (k + s) r c u) :
    wav.mapRows A r c u = wav.mapRows A' r c u ∧ wav.Multiple k r c (wav.mapRows A r c u) := by
  constructor
  · funext i j
    unfold wav.mapRows
    split
    · rename_i hb
      exact (hA (fun j => u i j) k (fun j hj => h i hb.1 j hj) j hb.2).1
    · rfl
  · intro i hi j hj
    unfold wav.mapRows
    rw [if_pos ⟨hi, hj⟩]
    exact (hA (fun j => u i j) k (fun j hj => h i hi j hj) j hj).2

theorem wav.mapCols_exact (A A' : List ℝ → List ℝ) (s r c : ℕ) (hA : wav.ExactAt A A' s r) (k : ℕ) (u : ℕ → ℕ → ℝ) (h : wav.Multiple (k + s) r c u) :
    wav.mapCols A r c u = wav.mapCols A' r c u ∧ wav.Multiple k r c (wav.mapCols A r c u) := by
  constructor
  · funext i j
    unfold wav.mapCols
    split
    · rename_i hb
      exact (hA (fun i => u i j) k (fun i hi => h i hi j hb.2) i hb.1).1
    · rfl
  · intro i hi j hj
    unfold wav.mapCols
    rw [if_pos ⟨hi, hj⟩]
    exact (hA (fun i => u i j) k (fun i hi => h i hi j hj) i hi).2

theorem wav.Multiple.mono {k k' r c : ℕ} {u : ℕ → ℕ → ℝ} (h : wav.Multiple k' r c u) (hk : k ≤ k') : wav.Multiple k r c u := by
  intro i hi j hj
  obtain ⟨z, hz⟩ := h i hi j hj
  refine ⟨2 ^ (k' - k) * z, ?_⟩
  rw [hz]
  push_cast
  rw [← mul_assoc, ← pow_add, Nat.add_sub_cancel' hk]

section exact

variable (A A' : List ℝ → List ℝ) (s : ℕ) (hA : ∀ M, 0 < M → wav.ExactAt A A' s (2 * M))
include hA

theorem wav.fstep_exact (r c d count : ℕ) (hr : wav.Fits r (count + 1)) (hc : wav.Fits c (count + 1)) (hd : wav.Dims r d) (k : ℕ) (u : ℕ → ℕ → ℝ)
    (h : wav.Multiple (k + s * d) r c u) : wav.fstep A r c u = wav.fstep A' r c u ∧ wav.Multiple k r c (wav.fstep A r c u) := by
  have h1 : c > 1 → wav.ExactAt A A' s c := by
    intro h; obtain ⟨M, hM, e⟩ := hc.even h; rw [e]; exact hA M hM
  have h2 : r > 1 → wav.ExactAt A A' s r := by
    intro h; obtain ⟨M, hM, e⟩ := hr.even h; rw [e]; exact hA M hM
  have d1 : 1 ≤ d := by rcases hd with h | ⟨h, -⟩ <;> omega
  unfold wav.fstep
  by_cases hc1 : c > 1 <;> by_cases hr1 : r > 1 <;> simp only [hc1, hr1, if_true, if_false]
  · have : d = 2 := by rcases hd with h | ⟨-, h⟩ <;> omega
    subst this
    obtain ⟨e1, e2⟩ := wav.mapRows_exact A A' s r c (h1 hc1) (k + s) u (h.mono (by omega))
    obtain ⟨e3, e4⟩ := wav.mapCols_exact A A' s r c (h2 hr1) k _ e2
    exact ⟨by rw [e3, e1], e4⟩
  · exact wav.mapRows_exact A A' s r c (h1 hc1) k u (h.mono (by nlinarith))
  · exact wav.mapCols_exact A A' s r c (h2 hr1) k u (h.mono (by nlinarith))
  · exact ⟨trivial, h.mono (by omega)⟩

theorem wav.bstep_exact (r c d count : ℕ) (hr : wav.Fits r (count + 1)) (hc : wav.Fits c (count + 1)) (hd : wav.Dims r d) (k : ℕ) (u : ℕ → ℕ → ℝ)
    (h : wav.Multiple (k + s * d) r c u) : wav.bstep A r c u = wav.bstep A' r c u ∧ wav.Multiple k r c (wav.bstep A r c u) := by
  have h1 : c > 1 → wav.ExactAt A A' s c := by
    intro h; obtain ⟨M, hM, e⟩ := hc.even h; rw [e]; exact hA M hM
  have h2 : r > 1 → wav.ExactAt A A' s r := by
    intro h; obtain ⟨M, hM, e⟩ := hr.even h; rw [e]; exact hA M hM
  have d1 : 1 ≤ d := by rcases hd with h | ⟨h, -⟩ <;> omega
  unfold wav.bstep
  by_cases hc1 : c > 1 <;> by_cases hr1 : r > 1 <;> simp only [hc1, hr1, if_true, if_false]
  · have : d = 2 := by rcases hd with h | ⟨-, h⟩ <;> omega
    subst this
    obtain ⟨e1, e2⟩ := wav.mapCols_exact A A' s r c (h2 hr1) (k + s) u (h.mono (by omega))
    obtain ⟨e3, e4⟩ := wav.mapRows_exact A A' s r c (h1 hc1) k _ e2
    exact ⟨by rw [e3, e1], e4⟩
  · exact wav.mapRows_exact A A' s r c (h1 hc1) k u (h.mono (by nlinarith))
  · exact wav.mapCols_exact A A' s r c (h2 hr1) k u (h.mono (by nlinarith))
  · exact ⟨trivial, h.mono (by omega)⟩

end exact

theorem wav.patch_exact {k r c ii jj : ℕ} {p u : ℕ → ℕ → ℝ} (h : wav.Multiple k ii jj p) (h' : wav.Multiple k r c u) : wav.Multiple k r c (wav.patch ii jj p u) := by
  intro i hi j hj
  unfold wav.patch
  split
  · rename_i hb; exact h i hb.1 j hb.2
  · exact h' i hi j hj

theorem wav.forward_exact (cast : ℝ → ℝ) (b : List ℝ × List ℝ) (s : ℕ) (hA : ∀ M, 0 < M → wav.ExactAt (wav.analyse cast b) (wav.analyse id b) s (2 * M)) (d : ℕ) (count : ℕ) :
    ∀ (r c k : ℕ) (u : ℕ → ℕ → ℝ), wav.Dims r d → wav.Fits r (count + 1) → wav.Fits c (count + 1) → wav.Multiple (k + s * d * (count + 1)) r c u →
      ∃ y, wav.forward cast b (count + 1) ⟨r, c, u⟩ = .ok ⟨r, c, y⟩ ∧ wav.forward id b (count + 1) ⟨r, c, u⟩ = .ok ⟨r, c, y⟩ ∧ wav.Multiple k r c y := by
  induction count with
  | zero =>
    intro r c k u hd hr hc h
    simp only [wav.forward_eq _ _ _ _ _ _ hr hc, if_pos]
    obtain ⟨e1, e2⟩ := wav.fstep_exact _ _ s hA r c d 0 hr hc hd k u (by simpa using h)
    exact ⟨_, rfl, by rw [e1], e2⟩
  | succ n ih =>
    intro r c k u hd hr hc h
    obtain ⟨e1, e2⟩ := wav.fstep_exact _ _ s hA r c d (n + 1) hr hc hd (k + s * d * (n + 1)) u (by
      rw [show k + s * d * (n + 1) + s * d = k + s * d * (n + 1 + 1) by ring]; exact h)
    obtain ⟨y, h1, h2, h3⟩ := ih _ _ k (wav.fstep (wav.analyse cast b) r c u) hd.half hr.half.1 hc.half.1
      (fun i hi j hj => e2 i (by have := hr.half.2; omega) j (by have := hc.half.2; omega))
    simp only [wav.forward_eq _ _ _ _ _ _ hr hc, if_neg (show ¬ n + 1 = 0 by omega), ← e1, h1, h2]
    exact ⟨_, rfl, rfl, wav.patch_exact h3 (e2.mono (Nat.le_add_right _ _))⟩

theorem wav.backward_exact (cast : ℝ → ℝ) (b : List ℝ × List ℝ) (hA : ∀ M, 0 < M → wav.ExactAt (wav.synthesise cast b) (wav.synthesise id b) 0 (2 * M)) (d : ℕ) (count : ℕ) :
    ∀ (r c : ℕ) (u : ℕ → ℕ → ℝ), wav.Dims r d → wav.Fits r (count + 1) → wav.Fits c (count + 1) → wav.Multiple 0 r c u →
      ∃ y, wav.backward cast b (count + 1) ⟨r, c, u⟩ = .ok ⟨r, c, y⟩ ∧ wav.backward id b (count + 1) ⟨r, c, u⟩ = .ok ⟨r, c, y⟩ ∧ wav.Multiple 0 r c y := by
  induction count with
  | zero =>
    intro r c u hd hr hc h
    simp only [wav.backward_eq _ _ _ _ _ _ hr hc, if_pos]
    obtain ⟨e1, e2⟩ := wav.bstep_exact _ _ 0 hA r c d 0 hr hc hd 0 u (by simpa using h)
    exact ⟨_, rfl, by rw [e1], e2⟩
  | succ n ih =>
    intro r c u hd hr hc h
    obtain ⟨y, h1, h2, h3⟩ := ih _ _ u hd.half hr.half.1 hc.half.1
      (fun i hi j hj => h i (by have := hr.half.2; omega) j (by have := hc.half.2; omega))
    obtain ⟨e1, e2⟩ := wav.bstep_exact _ _ 0 hA r c d (n + 1) hr hc hd 0 _ (by simpa using wav.patch_exact h3 h)
    simp only [wav.backward_eq _ _ _ _ _ _ hr hc, if_neg (show ¬ n + 1 = 0 by omega), h1, h2]
    exact ⟨_, rfl, by rw [e1], e2⟩

theorem wav.haar_exact (M : ℕ) (hM : 0 < M) :
    wav.ExactAt (wav.analyse truncInt ([1 / 2, 1 / 2], [1 / 2, -(1 / 2)])) (wav.analyse id ([1 / 2, 1 / 2], [1 / 2, -(1 / 2)])) 1 (2 * M) := by
  intro x k h j hj
  have e : ∃ z : ℤ, at0 (wav.analyse id (([1 / 2, 1 / 2], [1 / 2, -(1 / 2)]) : List ℝ × List ℝ) ((List.range (2 * M)).map x)) j = 2 ^ k * z := by
    rw [wav.at0_analyse _ (by simp) (by simp) _ M hM (by simp) j hj]
    split
    · obtain ⟨a, ha⟩ := h (2 * j + 1) (by omega)
      obtain ⟨b, hb⟩ := h (2 * j) (by omega)
      rw [conv_two, at0_range_map, at0_range_map, if_pos (by omega), if_pos (by omega), ha, hb]
      exact ⟨a + b, by push_cast; ring⟩
    · obtain ⟨a, ha⟩ := h (2 * (j - M) + 1) (by omega)
      obtain ⟨b, hb⟩ := h (2 * (j - M)) (by omega)
      rw [conv_two, at0_range_map, at0_range_map, if_pos (by omega), if_pos (by omega), ha, hb]
      exact ⟨a - b, by push_cast; ring⟩
  obtain ⟨z, hz⟩ := e
  rw [wav.analyse_cast, at0_map_cast _ _ _ (by rw [wav.analyse_length _ (by simp) (by simp) id _ M hM (by simp)]; simpa using hj), hz]
  have : truncInt ((2 : ℝ) ^ k * z) = 2 ^ k * z := by
    have := truncInt_of_int (2 ^ k * z)
    push_cast at this
    exact this
  exact ⟨this, z, this⟩

theorem conv_two' (a b : ℝ) (l : List ℝ) (n : ℕ) : conv [a, b] l n = a * at0 l n + if n = 0 then 0 else b * at0 l (n - 1) := by
  cases n with
  | zero => simp [conv, at0]
  | succ n => rw [conv_two, if_neg (by omega)]; rfl

theorem haar_synthesis : ∃ w, Wavelet.new (some .haar) 1 = .ok w ∧ w.analysis = ([1 / 2, 1 / 2], [1 / 2, -(1 / 2)]) ∧ w.synthesis = ([1 / 2, 1 / 2], [-(1 / 2), 1 / 2]) := by
  refine ⟨_, rfl, ?_, ?_⟩
  · simp only [wav.filters, wav.negate, List.map, List.zipIdx, List.sum_cons, List.sum_nil, List.length]
    norm_num
  · simp only [wav.filters, wav.negate, List.map, List.zipIdx, List.sum_cons, List.sum_nil, List.length]
    norm_num

theorem wav.haar_exact_inverse (M : ℕ) (hM : 0 < M) :
    wav.ExactAt (wav.synthesise truncInt ([1 / 2, 1 / 2], [-(1 / 2), 1 / 2])) (wav.synthesise id ([1 / 2, 1 / 2], [-(1 / 2), 1 / 2])) 0 (2 * M) := by
  intro x k h j hj
  have hne : (List.range (2 * M)).map x ≠ [] := by
    intro h
    have := congrArg List.length h
    simp at this; omega
  have hi : ∀ i, ∃ z : ℤ, at0 ((List.range (2 * M)).map x) i = 2 ^ k * z := by
    intro i
    rw [at0_range_map]
    split
    · obtain ⟨z, hz⟩ := h i (by assumption)
      exact ⟨z, hz⟩
    · exact ⟨0, by simp⟩
  have hd : ∀ i, ∃ z : ℤ, at0 (((List.range (2 * M)).map x).drop M) i = 2 ^ k * z := by
    intro i
    simpa only [at0, List.getD_eq_getElem?_getD, List.getElem?_drop] using hi (M + i)
  have ht : ∀ i, ∃ z : ℤ, at0 (((List.range (2 * M)).map x).take M) i = 2 ^ k * z := by
    intro i
    by_cases hM : i < M
    · simpa only [at0, List.getD_eq_getElem?_getD, List.getElem?_take, if_pos hM] using hi i
    · refine ⟨0, ?_⟩
      rw [at0_of_le _ _ (by simp; omega)]; simp
  have hu : ∀ a : List ℝ, (∀ i, ∃ z : ℤ, at0 a i = 2 ^ k * z) → ∀ i, ∃ z : ℤ, at0 (wav.up (2 * M) a) i = 2 ^ k * z := by
    intro a ha i
    by_cases hi : i < 2 * M
    · rw [wav.at0_up _ _ _ hi]
      split
      · exact ha _
      · exact ⟨0, by simp⟩
    · exact ⟨0, by rw [at0_of_le _ _ (by rw [wav.up_length]; omega)]; simp⟩
  have e : ∃ z : ℤ, at0 (wav.synthesise id (([1 / 2, 1 / 2], [-(1 / 2), 1 / 2]) : List ℝ × List ℝ) ((List.range (2 * M)).map x)) j = 2 ^ k * z := by
    rw [wav.at0_synthesise _ (by simp) (by simp) _ hne j (by simpa using hj)]
    simp only [List.length_map, List.length_range]
    rw [show 2 * M / 2 = M by omega, conv_two', conv_two']
    obtain ⟨a, ha⟩ := hu _ ht j
    obtain ⟨b, hb⟩ := hu _ ht (j - 1)
    obtain ⟨c, hc⟩ := hu _ hd j
    obtain ⟨d, hd⟩ := hu _ hd (j - 1)
    rw [ha, hb, hc, hd]
    split
    · exact ⟨a - c, by push_cast; ring⟩
    · exact ⟨a + b - c + d, by push_cast; ring⟩
  obtain ⟨z, hz⟩ := e
  rw [wav.synthesise_cast, at0_map_cast _ _ _ (by rw [wav.synthesise_length _ (by simp) (by simp) id _ hne]; simpa using hj), hz]
  have : truncInt ((2 : ℝ) ^ k * z) = 2 ^ k * z := by
    have := truncInt_of_int (2 ^ k * z)
    push_cast at this
    exact this
  exact ⟨this, z, this⟩

/-- C157.  The Haar transform of integers which are multiples of `2 ^ count` is exact, and its coefficients are integers. -/
theorem C157_exact_vec (x : List ℝ) (count : ℕ) (hcount : 0 < count) (hc : Acceptable x.length count) (hx : ∀ v ∈ x, ∃ z : ℤ, v = 2 ^ count * z) :
    ∃ w y, Wavelet.new (some .haar) 1 = .ok w ∧ w.transform truncInt (.vec x) count false = .ok (.vec y) ∧ w.transform id (.vec x) count false = .ok (.vec y) ∧
      ∀ v ∈ y, ∃ z : ℤ, v = z := by
  obtain ⟨w, hw, hf, -⟩ := haar_synthesis
  obtain ⟨n, rfl⟩ : ∃ n, count = n + 1 := ⟨count - 1, by omega⟩
  have hpos : 0 < x.length := wav.Fits.pos hc
  have hne : x ≠ [] := List.length_pos_iff.mp hpos
  obtain ⟨y, h1, h2, h3⟩ := wav.forward_exact truncInt w.analysis 1 (by rw [hf]; exact wav.haar_exact) 1 n 1 x.length 0 (fun _ j => x.getD j 0) (Or.inr ⟨rfl, rfl⟩)
    (Or.inl rfl) hc (by
      intro i _ j hj
      have : x.getD j 0 = x[j] := by simp [hj]
      simp only [this]
      simpa using hx _ (List.getElem_mem hj))
  refine ⟨w, (List.range x.length).map fun j => y 0 j, hw, ?_, ?_, ?_⟩
  · simp only [Wavelet.transform, hne, if_false, Int.toNat_natCast, Bool.false_eq_true, h1]
  · simp only [Wavelet.transform, hne, if_false, Int.toNat_natCast, Bool.false_eq_true, h2]
  · intro v hv
    obtain ⟨j, hj, rfl⟩ := List.mem_map.mp hv
    simpa using h3 0 one_pos j (List.mem_range.mp hj)

/-- Multiples of four and two levels. -/
example := C157_exact_vec [4, -8] 1 (by norm_num) (Or.inr ⟨by norm_num, 1, by norm_num⟩) (by
  intro v hv
  simp only [List.mem_cons, List.not_mem_nil, or_false] at hv
  rcases hv with rfl | rfl
  · exact ⟨2, by norm_num⟩
  · exact ⟨-4, by norm_num⟩)

/-- C157.  Arrays: multiples of `4 ^ count`. -/
theorem C157_exact_mat (r c count : ℕ) (u : ℕ → ℕ → ℝ) (hcount : 0 < count) (hr : Acceptable r count) (hc : Acceptable c count)
    (hu : ∀ i < r, ∀ j < c, ∃ z : ℤ, u i j = 4 ^ count * z) :
    ∃ w y, Wavelet.new (some .haar) 1 = .ok w ∧ w.transform truncInt (.mat ⟨r, c, u⟩) count false = .ok (.mat ⟨r, c, y⟩) ∧
      w.transform id (.mat ⟨r, c, u⟩) count false = .ok (.mat ⟨r, c, y⟩) ∧ ∀ i < r, ∀ j < c, ∃ z : ℤ, y i j = z := by
  obtain ⟨w, hw, hf, -⟩ := haar_synthesis
  obtain ⟨n, rfl⟩ : ∃ n, count = n + 1 := ⟨count - 1, by omega⟩
  obtain ⟨y, h1, h2, h3⟩ := wav.forward_exact truncInt w.analysis 1 (by rw [hf]; exact wav.haar_exact) 2 n r c 0 u (Or.inl rfl) hr hc (by
      intro i hi j hj
      obtain ⟨z, hz⟩ := hu i hi j hj
      exact ⟨z, by rw [hz, zero_add, one_mul, pow_mul]; norm_num⟩)
  refine ⟨w, y, hw, ?_, ?_, fun i hi j hj => by simpa using h3 i hi j hj⟩
  · simp only [Wavelet.transform, Int.toNat_natCast, Bool.false_eq_true, if_false, h1]
  · simp only [Wavelet.transform, Int.toNat_natCast, Bool.false_eq_true, if_false, h2]

/-- Multiples of sixteen and two levels. -/
example := C157_exact_mat 12 4 2 (fun i j => 4 ^ 2 * ((i + j : ℕ) : ℤ)) (by norm_num) (Or.inr ⟨by norm_num, 3, by norm_num⟩) (Or.inr ⟨by norm_num, 1, by norm_num⟩) fun i _ j _ => ⟨_, rfl⟩

/-- C157.  The inverse Haar transform of integers is exact. -/
theorem C157_inverse_vec (x : List ℝ) (count : ℕ) (hcount : 0 < count) (hc : Acceptable x.length count) (hx : ∀ v ∈ x, ∃ z : ℤ, v = z) :
    ∃ w y, Wavelet.new (some .haar) 1 = .ok w ∧ w.transform truncInt (.vec x) count true = .ok (.vec y) ∧ w.transform id (.vec x) count true = .ok (.vec y) := by
  obtain ⟨w, hw, -, hf⟩ := haar_synthesis
  obtain ⟨n, rfl⟩ : ∃ n, count = n + 1 := ⟨count - 1, by omega⟩
  have hpos : 0 < x.length := wav.Fits.pos hc
  have hne : x ≠ [] := List.length_pos_iff.mp hpos
  obtain ⟨y, h1, h2, h3⟩ := wav.backward_exact truncInt w.synthesis (by rw [hf]; exact wav.haar_exact_inverse) 1 n 1 x.length (fun _ j => x.getD j 0) (Or.inr ⟨rfl, rfl⟩)
    (Or.inl rfl) hc (by
      intro i _ j hj
      have : x.getD j 0 = x[j] := by simp [hj]
      simp only [this]
      simpa using hx _ (List.getElem_mem hj))
  refine ⟨w, (List.range x.length).map fun j => y 0 j, hw, ?_, ?_⟩
  · simp only [Wavelet.transform, hne, if_false, Int.toNat_natCast, if_true, h1]
  · simp only [Wavelet.transform, hne, if_false, Int.toNat_natCast, if_true, h2]

/-- C157.  Arrays of integers: the inverse Haar transform is exact. -/
theorem C157_inverse_mat (r c count : ℕ) (u : ℕ → ℕ → ℝ) (hcount : 0 < count) (hr : Acceptable r count) (hc : Acceptable c count)
    (hu : ∀ i < r, ∀ j < c, ∃ z : ℤ, u i j = z) :
    ∃ w y, Wavelet.new (some .haar) 1 = .ok w ∧ w.transform truncInt (.mat ⟨r, c, u⟩) count true = .ok (.mat ⟨r, c, y⟩) ∧
      w.transform id (.mat ⟨r, c, u⟩) count true = .ok (.mat ⟨r, c, y⟩) := by
  obtain ⟨w, hw, -, hf⟩ := haar_synthesis
  obtain ⟨n, rfl⟩ : ∃ n, count = n + 1 := ⟨count - 1, by omega⟩
  obtain ⟨y, h1, h2, h3⟩ := wav.backward_exact truncInt w.synthesis (by rw [hf]; exact wav.haar_exact_inverse) 2 n r c u (Or.inl rfl) hr hc (by
      intro i hi j hj
      simpa using hu i hi j hj)
  refine ⟨w, y, hw, ?_, ?_⟩
  · simp only [Wavelet.transform, Int.toNat_natCast, if_true, h1]
  · simp only [Wavelet.transform, Int.toNat_natCast, if_true, h2]

/-- The hypotheses of `C157_inverse_vec`, `C157_inverse_mat` and `C157_reconstructed` hold for integers. -/
example := And.intro (C157_inverse_vec [3, 1, 4, 1] 2 (by norm_num) (Or.inr ⟨by norm_num, 1, by norm_num⟩) (by
    simp only [List.mem_cons, List.not_mem_nil, or_false]
    rintro v (rfl | rfl | rfl | rfl)
    exacts [⟨3, by norm_num⟩, ⟨1, by norm_num⟩, ⟨4, by norm_num⟩, ⟨1, by norm_num⟩]))
  (C157_inverse_mat 12 4 2 (fun i j => ((i + j : ℕ) : ℤ)) (by norm_num) (Or.inr ⟨by norm_num, 3, by norm_num⟩) (Or.inr ⟨by norm_num, 1, by norm_num⟩) fun i _ j _ => ⟨_, rfl⟩)

/-- C157.  Integers which are multiples of `2 ^ count` are reconstructed exactly. -/
theorem C157_roundtrip (x : List ℝ) (count : ℕ) (hcount : 0 < count) (hc : Acceptable x.length count) (hx : ∀ v ∈ x, ∃ z : ℤ, v = 2 ^ count * z) :
    ∃ w y, Wavelet.new (some .haar) 1 = .ok w ∧ w.transform truncInt (.vec x) count false = .ok (.vec y) ∧ w.transform truncInt (.vec y) count true = .ok (.vec x) := by
  obtain ⟨w, y, hw, h1, h2, h3⟩ := C157_exact_vec x count hcount hc hx
  obtain ⟨w', y', hw', g1, g2⟩ := C47_haar_vec x count hcount hc
  obtain rfl : w = w' := by rw [hw] at hw'; exact Except.ok.inj hw'
  obtain rfl : y = y' := by rw [h2] at g1; simpa using g1
  obtain ⟨y'', z, e1, -, e2, e3, -⟩ := C157_stored_vec .haar 1 w hw truncInt 1 truncInt_near x x rfl count hcount hc false 0 (by simp)
  obtain rfl : y = y'' := by rw [h1] at e1; simpa using e1
  obtain ⟨w', z, hw'', f1, f2⟩ := C157_inverse_vec y count hcount (by rw [e2]; exact hc) h3
  obtain rfl : w = w' := by rw [hw] at hw''; exact Except.ok.inj hw''
  refine ⟨w, y, hw, h1, ?_⟩
  rw [f1, ← f2, g2]

example := C157_roundtrip [4, 8, -4, 12] 2 (by norm_num) (.inr (by norm_num)) (fun v hv => by
  simp only [List.mem_cons, List.not_mem_nil, or_false] at hv
  rcases hv with rfl | rfl | rfl | rfl
  exacts [⟨1, by norm_num⟩, ⟨2, by norm_num⟩, ⟨-1, by norm_num⟩, ⟨3, by norm_num⟩])

theorem wav.analyse_int (b : List ℝ × List ℝ) (l : List ℝ) (j : ℕ) : ∃ z : ℤ, at0 (wav.analyse truncInt b l) j = z := by
  rw [wav.analyse_cast]
  by_cases hj : j < (wav.analyse id b l).length
  · rw [at0_map_cast _ _ _ hj]
    unfold truncInt
    split
    · exact ⟨_, rfl⟩
    · exact ⟨_, rfl⟩
  · exact ⟨0, by rw [at0_of_le _ _ (by simpa using hj)]; simp⟩

theorem wav.fstep_int (b : List ℝ × List ℝ) (r c : ℕ) (u : ℕ → ℕ → ℝ) (h : wav.Multiple 0 r c u) : wav.Multiple 0 r c (wav.fstep (wav.analyse truncInt b) r c u) := by
  have h1 : wav.Multiple 0 r c (if c > 1 then wav.mapRows (wav.analyse truncInt b) r c u else u) := by
    split
    · intro i hi j hj
      unfold wav.mapRows
      rw [if_pos ⟨hi, hj⟩]
      simpa [at0] using wav.analyse_int b ((List.range c).map fun j => u i j) j
    · exact h
  unfold wav.fstep
  simp only
  split
  · intro i hi j hj
    unfold wav.mapCols
    rw [if_pos ⟨hi, hj⟩]
    obtain ⟨z, hz⟩ := wav.analyse_int b ((List.range r).map fun i => (if c > 1 then wav.mapRows (wav.analyse truncInt b) r c u else u) i j) i
    exact ⟨z, by rw [pow_zero, one_mul]; exact hz⟩
  · exact h1

theorem wav.forward_int (b : List ℝ × List ℝ) (count : ℕ) : ∀ (r c : ℕ) (u : ℕ → ℕ → ℝ), wav.Fits r (count + 1) → wav.Fits c (count + 1) → wav.Multiple 0 r c u →
    ∃ y, wav.forward truncInt b (count + 1) ⟨r, c, u⟩ = .ok ⟨r, c, y⟩ ∧ wav.Multiple 0 r c y := by
  induction count with
  | zero =>
    intro r c u hr hc h
    simp only [wav.forward_eq _ _ _ _ _ _ hr hc, if_pos]
    exact ⟨_, rfl, wav.fstep_int b r c u h⟩
  | succ n ih =>
    intro r c u hr hc h
    have e := wav.fstep_int b r c u h
    obtain ⟨y, h1, h2⟩ := ih _ _ (wav.fstep (wav.analyse truncInt b) r c u) hr.half.1 hc.half.1
      (fun i hi j hj => e i (by have := hr.half.2; omega) j (by have := hc.half.2; omega))
    simp only [wav.forward_eq _ _ _ _ _ _ hr hc, if_neg (show ¬ n + 1 = 0 by omega), h1]
    exact ⟨_, rfl, wav.patch_exact h2 e⟩

theorem trunc_forward_int (w : Wavelet) (x : List ℝ) (count : ℕ) (hcount : 0 < count) (hc : Acceptable x.length count) (hx : ∀ v ∈ x, ∃ z : ℤ, v = z) (y : List ℝ)
    (h : w.transform truncInt (.vec x) count false = .ok (.vec y)) : ∀ v ∈ y, ∃ z : ℤ, v = z := by
  obtain ⟨n, rfl⟩ : ∃ n, count = n + 1 := ⟨count - 1, by omega⟩
  have hpos : 0 < x.length := wav.Fits.pos hc
  have hne : x ≠ [] := List.length_pos_iff.mp hpos
  obtain ⟨q, h1, h2⟩ := wav.forward_int w.analysis n 1 x.length (fun _ j => x.getD j 0) (Or.inl rfl) hc (by
      intro i _ j hj
      have : x.getD j 0 = x[j] := by simp [hj]
      simp only [this]
      simpa using hx _ (List.getElem_mem hj))
  simp only [Wavelet.transform, hne, if_false, Int.toNat_natCast, Bool.false_eq_true, h1, Except.ok.injEq, WaveArg.vec.injEq] at h
  intro v hv
  rw [← h] at hv
  obtain ⟨j, hj, rfl⟩ := List.mem_map.mp hv
  simpa using h2 0 one_pos j (List.mem_range.mp hj)

/-- C157.  Any signal of integers is reconstructed, by the Haar wavelet, within `count * 2 ^ count`. -/
theorem C157_reconstructed (x : List ℝ) (count : ℕ) (hcount : 0 < count) (hc : Acceptable x.length count) (hx : ∀ v ∈ x, ∃ z : ℤ, v = z) :
    ∃ w y z, Wavelet.new (some .haar) 1 = .ok w ∧ w.transform truncInt (.vec x) count false = .ok (.vec y) ∧ w.transform truncInt (.vec y) count true = .ok (.vec z) ∧
      ∀ j < x.length, |at0 z j - at0 x j| ≤ count * 2 ^ count := by
  obtain ⟨w, hw, hs⟩ := C157_gain_haar
  obtain ⟨y, y', h1, h2, l1, l2, h3⟩ := C157_stored_vec .haar 1 w hw truncInt 1 truncInt_near x x rfl count hcount hc false 0 (by simp)
  obtain ⟨w', q, hw', g1, g2⟩ := C47_haar_vec x count hcount hc
  obtain rfl : w = w' := by rw [hw] at hw'; exact Except.ok.inj hw'
  obtain rfl : y' = q := by rw [h2] at g1; simpa using g1
  obtain ⟨w', z, hw'', f1, f2⟩ := C157_inverse_vec y count hcount (by rw [l1]; exact hc) (trunc_forward_int w x count hcount hc hx y h1)
  obtain rfl : w = w' := by rw [hw] at hw''; exact Except.ok.inj hw''
  obtain ⟨z1, z2, e1, e2, -, -, e3⟩ := C157_stored_vec .haar 1 w hw id 0 (by simp) y y' (by rw [l1, l2]) count hcount (by rw [l1]; exact hc) true count (by
    intro j hj
    refine (h3 j (by rwa [l1] at hj)).trans ?_
    simp [grown, hs])
  obtain rfl : z = z1 := by rw [f2] at e1; simpa using e1
  obtain rfl : x = z2 := by rw [g2] at e2; simpa using e2
  refine ⟨w, y, z, hw, h1, f1, fun j hj => (e3 j (by rw [l1]; exact hj)).trans ?_⟩
  simp [grown, hs, mul_comm]

example := C157_reconstructed [5, 8] 1 (by norm_num) (.inr (by norm_num)) (fun v hv => by
  simp only [List.mem_cons, List.not_mem_nil, or_false] at hv
  rcases hv with rfl | rfl
  exacts [⟨5, by norm_num⟩, ⟨8, by norm_num⟩])

/-- C157.  The Haar transform of integers loses information: two signals have the same coefficients. -/
theorem C157_lost : ∃ w, Wavelet.new (some .haar) 1 = .ok w ∧ w.transform truncInt (.vec [1, 0]) 1 false = .ok (.vec [0, 0]) ∧
    w.transform truncInt (.vec [0, 0]) 1 false = .ok (.vec [0, 0]) := by
  obtain ⟨w, hw, hf, -⟩ := haar_synthesis
  have hfir : ∀ a b x y : ℝ, wav.fir [a, b] [x, y] = [a * x, a * y + b * x] := by
    intro a b x y
    obtain ⟨h1, h2⟩ := wav.fir_spec [a, b] [x, y] (by simp) (by simp)
    apply List.ext_getElem (by simpa using h1)
    intro i hi1 hi2
    have := h2 i (by simpa using hi2)
    rw [at0_of_lt _ _ hi1] at this
    rw [this]
    have : i < 2 := by simpa using hi2
    interval_cases i <;> simp [conv, sum_range_succ, at0]
  have t0 : truncInt (0 : ℝ) = 0 := by norm_num [truncInt]
  have t1 : truncInt (1 / 2 : ℝ) = 0 := by norm_num [truncInt]
  have t2 : truncInt (-(1 / 2) : ℝ) = 0 := by
    have : ⌈(-(1 / 2) : ℝ)⌉ = 0 := by rw [Int.ceil_eq_iff]; norm_num
    rw [truncInt, if_neg (by norm_num), this]; simp
  have hA : wav.analyse truncInt w.analysis [1, 0] = [0, 0] := by
    rw [hf]
    simp only [wav.analyse, hfir, wav.odds]
    norm_num [List.range_succ, t0, t1, t2]
  have hB : wav.analyse truncInt w.analysis [0, 0] = [0, 0] := by
    rw [hf]
    simp only [wav.analyse, hfir, wav.odds]
    norm_num [List.range_succ, t0, t1, t2]
  refine ⟨w, hw, ?_, ?_⟩
  · have := wav_forward_vec truncInt w [1, 0] 1 (by norm_num) rfl (by rw [hA]; rfl)
    rw [hA] at this
    exact this
  · have := wav_forward_vec truncInt w [0, 0] 1 (by norm_num) rfl (by rw [hB])
    rw [hB] at this
    exact this

example : (∀ v ∈ ([4, -8, 12, 0] : List ℝ), ∃ z : ℤ, v = 2 ^ 2 * z) ∧ Acceptable ([4, -8, 12, 0] : List ℝ).length 2 := by
  refine ⟨?_, Or.inr ⟨by norm_num, 1, by norm_num⟩⟩
  intro v hv
  simp only [List.mem_cons, List.not_mem_nil, or_false] at hv
  rcases hv with rfl | rfl | rfl | rfl
  · exact ⟨1, by norm_num⟩
  · exact ⟨-2, by norm_num⟩
  · exact ⟨3, by norm_num⟩
  · exact ⟨0, by norm_num⟩

/-- `C157_stored_mat`: an array which is truncated to integers. -/
example := C157_stored_mat .daubechies 19 _ rfl truncInt 1 truncInt_near 12 1 2 (by norm_num) (Or.inr ⟨by norm_num, 3, by norm_num⟩) (Or.inl rfl) false (fun i _ => i) (fun i _ => i) 0 (by simp)

end Verif.Props
