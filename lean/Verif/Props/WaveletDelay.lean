import Verif.Props.WaveletLinear

/- C152: one wavelet level of an array delays rows and columns, and two levels delay nothing as a whole. -/

namespace Verif.Props

open Finset Spec

/-- An array, zero before its first row and column. -/
def aext (x : ℕ → ℕ → ℝ) (s t : ℤ) : ℝ := if 0 ≤ s ∧ 0 ≤ t then x s.toNat t.toNat else 0

private theorem line_delay (style : WaveStyle) (order : ℕ) (w : Wavelet) (h : Wavelet.new (some style) order = .ok w) (x : List ℝ) (M : ℕ) (hM : 0 < M)
    (hx : x.length = 2 * M) (K : ℝ) (hK : ∀ v ∈ x, |v| ≤ K) (m : ℕ) (hm : m < x.length) :
    |at0 (wav.synthesise id w.synthesis (wav.analyse id w.analysis x)) m - zext x (m - (order - 1))| ≤ bankError w.analysis.1 * K := by
  obtain ⟨n1, n2, n3, n4⟩ := wav_new_ne style order w h
  obtain ⟨y, z, h1, h2, h3, h4⟩ := C48_reconstructs style order w h x M hM hx K hK
  have a1 := wav.analyse_length w.analysis n1 n2 id x M hM hx
  rw [wav_forward_vec id w x M hM hx a1] at h1
  obtain rfl : wav.analyse id w.analysis x = y := by simpa using h1
  have hne : wav.analyse id w.analysis x ≠ [] := List.length_pos_iff.mp (by omega)
  rw [wav_backward_vec id w _ M hM (by omega) (wav.synthesise_length w.synthesis n3 n4 id _ hne)] at h2
  obtain rfl : wav.synthesise id w.synthesis (wav.analyse id w.analysis x) = z := by simpa using h2
  exact h4 m hm

/-- A linear map of lines is its matrix. -/
private theorem linear_matrix (A : List ℝ → List ℝ) (n : ℕ) (hA : wav.LinearAt A n) (x : ℕ → ℝ) (j : ℕ) (hj : j < n) :
    at0 (A ((List.range n).map x)) j = ∑ k ∈ range n, x k * at0 (A ((List.range n).map fun t => if t = k then 1 else 0)) j := by
  have hz : at0 (A ((List.range n).map fun _ => (0 : ℝ))) j = 0 := by
    have := hA (fun _ => 0) (fun _ => 0) 0 0 j hj
    simpa using this
  have key : ∀ m ≤ n, at0 (A ((List.range n).map fun t => if t < m then x t else 0)) j =
      ∑ k ∈ range m, x k * at0 (A ((List.range n).map fun t => if t = k then 1 else 0)) j := by
    intro m
    induction m with
    | zero => intro _; simpa using hz
    | succ m ih =>
      intro hm
      rw [sum_range_succ, ← ih (by omega)]
      have := hA (fun t => if t < m then x t else 0) (fun t => if t = m then 1 else 0) 1 (x m) j hj
      rw [one_mul] at this
      rw [← this]
      congr 2
      apply List.map_congr_left
      intro t _
      by_cases h1 : t = m
      · subst h1; simp
      · by_cases h2 : t < m
        · simp [h1, h2, show t < m + 1 by omega]
        · simp [h1, h2, show ¬ t < m + 1 by omega]
  rw [← key n le_rfl]
  congr 2
  apply List.map_congr_left
  intro t ht
  rw [if_pos (List.mem_range.mp ht)]

/-- Linear maps of rows and of columns commute. -/
private theorem rows_cols (F G : List ℝ → List ℝ) (r c : ℕ) (hF : wav.LinearAt F r) (hG : wav.LinearAt G c) (v : ℕ → ℕ → ℝ) :
    wav.Agree r c (wav.mapRows G r c (wav.mapCols F r c v)) (wav.mapCols F r c (wav.mapRows G r c v)) := by
  intro i hi j hj
  unfold wav.mapRows wav.mapCols
  simp only [hi, hj, true_and, and_self, if_true]
  have e1 : ((List.range c).map fun l => if l < c then (F ((List.range r).map fun k => v k l)).getD i 0 else v i l) =
      (List.range c).map fun l => at0 (F ((List.range r).map fun k => v k l)) i := by
    apply List.map_congr_left; intro l hl; rw [if_pos (List.mem_range.mp hl)]; rfl
  have e2 : ((List.range r).map fun k => if k < r ∧ True then (G ((List.range c).map fun l => v k l)).getD j 0 else v k j) =
      (List.range r).map fun k => at0 (G ((List.range c).map fun l => v k l)) j := by
    apply List.map_congr_left; intro k hk; rw [if_pos ⟨List.mem_range.mp hk, trivial⟩]; rfl
  rw [e1]
  rw [e2]
  have f1 : ∀ l, at0 (F ((List.range r).map fun k => v k l)) i = ∑ k ∈ range r, v k l * at0 (F ((List.range r).map fun t => if t = k then 1 else 0)) i :=
    fun l => linear_matrix F r hF (fun k => v k l) i hi
  have f2 : ∀ k, at0 (G ((List.range c).map fun l => v k l)) j = ∑ l ∈ range c, v k l * at0 (G ((List.range c).map fun t => if t = l then 1 else 0)) j :=
    fun k => linear_matrix G c hG (fun l => v k l) j hj
  change at0 _ _ = at0 _ _
  rw [linear_matrix G c hG _ j hj, linear_matrix F r hF _ i hi]
  simp only [f1, f2, sum_mul]
  rw [sum_comm]
  apply sum_congr rfl; intro k _
  apply sum_congr rfl; intro l _
  ring

/-- The samples by which one level delays a dimension: none if it has one element only. -/
def levelDelay (d order : ℕ) : ℤ := if d = 1 then 0 else order - 1

private theorem bankError_nonneg (b : List ℝ) : 0 ≤ bankError b := by unfold bankError; positivity

private theorem at0_map_range (n : ℕ) (g : ℕ → ℝ) (k : ℕ) (hk : k < n) : at0 ((List.range n).map g) k = g k := by rw [at0_range_map, if_pos hk]

private theorem rows_delay (style : WaveStyle) (order : ℕ) (ho : 0 < order) (w : Wavelet) (h : Wavelet.new (some style) order = .ok w) (r c M : ℕ) (hM : 0 < M) (hc : c = 2 * M)
    (v : ℕ → ℕ → ℝ) (K : ℝ) (hK : ∀ i < r, ∀ j < c, |v i j| ≤ K) (i : ℕ) (hi : i < r) (j : ℕ) (hj : j < c) :
    |wav.mapRows (wav.synthesise id w.synthesis) r c (wav.mapRows (wav.analyse id w.analysis) r c v) i j - aext v i (j - levelDelay c order)| ≤ bankError w.analysis.1 * K := by
  obtain ⟨n1, n2, n3, n4⟩ := wav_new_ne style order w h
  set l := (List.range c).map fun j => v i j with hl
  have ll : l.length = 2 * M := by rw [hl, List.length_map, List.length_range, hc]
  have a1 := wav.analyse_length w.analysis n1 n2 id l M hM ll
  have e : wav.mapRows (wav.synthesise id w.synthesis) r c (wav.mapRows (wav.analyse id w.analysis) r c v) i j = at0 (wav.synthesise id w.synthesis (wav.analyse id w.analysis l)) j := by
    unfold wav.mapRows
    rw [if_pos ⟨hi, hj⟩]
    have : ((List.range c).map fun k => if i < r ∧ k < c then (wav.analyse id w.analysis ((List.range c).map fun j => v i j)).getD k 0 else v i k) = wav.analyse id w.analysis l := by
      refine Eq.trans ?_ (wav.range_getD (wav.analyse id w.analysis l) c (by rw [a1, ll, hc]))
      apply List.map_congr_left
      intro k hk
      rw [if_pos ⟨hi, List.mem_range.mp hk⟩]
    rw [this]; rfl
  have hz : zext l (j - (order - 1)) = aext v i (j - levelDelay c order) := by
    have hd : levelDelay c order = order - 1 := by unfold levelDelay; rw [if_neg (by omega)]
    rw [hd]
    unfold zext aext
    by_cases h0 : (0 : ℤ) ≤ j - (order - 1)
    · rw [if_pos h0, if_pos ⟨by omega, h0⟩, hl, at0_map_range _ _ _ (by omega)]
      rfl
    · rw [if_neg h0, if_neg (fun h => h0 h.2)]
  rw [e, ← hz]
  refine line_delay style order w h l M hM ll K ?_ j (by omega)
  intro a ha
  rw [hl, List.mem_map] at ha
  obtain ⟨k, hk, rfl⟩ := ha
  exact hK i hi k (List.mem_range.mp hk)

private theorem cols_delay (style : WaveStyle) (order : ℕ) (ho : 0 < order) (w : Wavelet) (h : Wavelet.new (some style) order = .ok w) (r c M : ℕ) (hM : 0 < M) (hr : r = 2 * M)
    (v : ℕ → ℕ → ℝ) (K : ℝ) (hK : ∀ i < r, ∀ j < c, |v i j| ≤ K) (i : ℕ) (hi : i < r) (j : ℕ) (hj : j < c) :
    |wav.mapCols (wav.synthesise id w.synthesis) r c (wav.mapCols (wav.analyse id w.analysis) r c v) i j - aext v (i - levelDelay r order) j| ≤ bankError w.analysis.1 * K := by
  obtain ⟨n1, n2, n3, n4⟩ := wav_new_ne style order w h
  set l := (List.range r).map fun i => v i j with hl
  have ll : l.length = 2 * M := by rw [hl, List.length_map, List.length_range, hr]
  have a1 := wav.analyse_length w.analysis n1 n2 id l M hM ll
  have e : wav.mapCols (wav.synthesise id w.synthesis) r c (wav.mapCols (wav.analyse id w.analysis) r c v) i j = at0 (wav.synthesise id w.synthesis (wav.analyse id w.analysis l)) i := by
    unfold wav.mapCols
    rw [if_pos ⟨hi, hj⟩]
    have : ((List.range r).map fun k => if k < r ∧ j < c then (wav.analyse id w.analysis ((List.range r).map fun i => v i j)).getD k 0 else v k j) = wav.analyse id w.analysis l := by
      refine Eq.trans ?_ (wav.range_getD (wav.analyse id w.analysis l) r (by rw [a1, ll, hr]))
      apply List.map_congr_left
      intro k hk
      rw [if_pos ⟨List.mem_range.mp hk, hj⟩]
    rw [this]; rfl
  have hz : zext l (i - (order - 1)) = aext v (i - levelDelay r order) j := by
    have hd : levelDelay r order = order - 1 := by unfold levelDelay; rw [if_neg (by omega)]
    rw [hd]
    unfold zext aext
    by_cases h0 : (0 : ℤ) ≤ i - (order - 1)
    · rw [if_pos h0, if_pos ⟨h0, by omega⟩, hl, at0_map_range _ _ _ (by omega)]
      rfl
    · rw [if_neg h0, if_neg (fun h => h0 h.1)]
  rw [e, ← hz]
  refine line_delay style order w h l M hM ll K ?_ i (by omega)
  intro a ha
  rw [hl, List.mem_map] at ha
  obtain ⟨k, hk, rfl⟩ := ha
  exact hK k (List.mem_range.mp hk) j hj

/-- C152: one level of analysis and of synthesis, of an array of any acceptable shape and with any style and order, returns the array delayed by `order - 1`
in every dimension of more than one element, up to an error bounded by the accuracy of the table. -/
theorem C152_array (style : WaveStyle) (order : ℕ) (w : Wavelet) (h : Wavelet.new (some style) order = .ok w) (r c : ℕ) (hr : Acceptable r 1) (hc : Acceptable c 1)
    (x : ℕ → ℕ → ℝ) (K : ℝ) (hK : ∀ i < r, ∀ j < c, |x i j| ≤ K) : ∃ y z, w.transform id (.mat ⟨r, c, x⟩) 1 false = .ok (.mat ⟨r, c, y⟩) ∧
      w.transform id (.mat ⟨r, c, y⟩) 1 true = .ok (.mat ⟨r, c, z⟩) ∧ ∀ i < r, ∀ j < c,
      |z i j - aext x (i - levelDelay r order) (j - levelDelay c order)| ≤ ((1 + bankError w.analysis.1) ^ 2 - 1) * K := by
  obtain ⟨n1, n2, n3, n4⟩ := wav_new_ne style order w h
  have ho : 0 < order := by
    obtain ⟨p, hp, -⟩ := wav_new style order w h
    obtain ⟨o1, o2, -⟩ := C48_orders_odd style order p hp
    exact_mod_cast o2
  have hK0 : 0 ≤ K := (abs_nonneg _).trans (hK 0 (wav.Fits.pos hr) 0 (wav.Fits.pos hc))
  set A := wav.analyse id w.analysis with hA
  set S := wav.synthesise id w.synthesis with hS
  set E := bankError w.analysis.1 with hE
  have E0 : 0 ≤ E := bankError_nonneg _
  have e1 : w.transform id (.mat ⟨r, c, x⟩) 1 false = .ok (.mat ⟨r, c, wav.fstep A r c x⟩) := by
    unfold Wavelet.transform
    simp only [Bool.false_eq_true, if_false, show ((1 : ℤ).toNat) = 0 + 1 from rfl]
    rw [wav.forward_eq id w.analysis 0 r c x hr hc, if_pos rfl]
  have e2 : w.transform id (.mat ⟨r, c, wav.fstep A r c x⟩) 1 true = .ok (.mat ⟨r, c, wav.bstep S r c (wav.fstep A r c x)⟩) := by
    unfold Wavelet.transform
    simp only [if_true, show ((1 : ℤ).toNat) = 0 + 1 from rfl]
    rw [wav.backward_eq id w.synthesis 0 r c _ hr hc, if_pos rfl]
  refine ⟨_, _, e1, e2, ?_⟩
  -- the rows first
  set Y := if c > 1 then wav.mapRows S r c (wav.mapRows A r c x) else x with hY
  have y1 : ∀ i < r, ∀ j < c, |Y i j - aext x i (j - levelDelay c order)| ≤ E * K := by
    intro i hi j hj
    rw [hY]
    by_cases h1 : c > 1
    · obtain ⟨M, hM, e⟩ := wav.Fits.even (count := 0) hc h1
      rw [if_pos h1]
      exact rows_delay style order ho w h r c M hM e x K hK i hi j hj
    · have hc1 : c = 1 := by have := wav.Fits.pos hc; omega
      rw [if_neg h1]
      unfold aext levelDelay
      rw [if_pos hc1, if_pos ⟨by omega, by omega⟩]
      simp
      positivity
  have aK : ∀ i < r, ∀ t : ℤ, t < c → |aext x i t| ≤ K := by
    intro i hi t ht
    unfold aext
    split
    · exact hK _ (by omega) _ (by omega)
    · simpa using hK0
  have dpos : ∀ d, 0 ≤ levelDelay d order := by intro d; unfold levelDelay; split <;> omega
  have yK : ∀ i < r, ∀ j < c, |Y i j| ≤ (1 + E) * K := by
    intro i hi j hj
    have a := y1 i hi j hj
    have b := aK i hi (j - levelDelay c order) (by have := dpos c; omega)
    have := abs_add_le (Y i j - aext x i (j - levelDelay c order)) (aext x i (j - levelDelay c order))
    rw [sub_add_cancel] at this
    linarith
  -- then the columns
  set Z := if r > 1 then wav.mapCols S r c (wav.mapCols A r c Y) else Y with hZ
  have z1 : ∀ i < r, ∀ j < c, |Z i j - aext Y (i - levelDelay r order) j| ≤ E * ((1 + E) * K) := by
    intro i hi j hj
    rw [hZ]
    by_cases h1 : r > 1
    · obtain ⟨M, hM, e⟩ := wav.Fits.even (count := 0) hr h1
      rw [if_pos h1]
      exact cols_delay style order ho w h r c M hM e Y _ yK i hi j hj
    · have hr1 : r = 1 := by have := wav.Fits.pos hr; omega
      rw [if_neg h1]
      unfold aext levelDelay
      rw [if_pos hr1, if_pos ⟨by omega, by omega⟩]
      simp
      positivity
  have hag : wav.Agree r c (wav.bstep S r c (wav.fstep A r c x)) Z := by
    unfold wav.bstep wav.fstep
    rw [hZ, hY]
    by_cases h1 : c > 1 <;> by_cases h2 : r > 1 <;> simp only [h1, h2, if_true, if_false]
    · obtain ⟨M, hM, ec⟩ := wav.Fits.even (count := 0) hc h1
      obtain ⟨N, hN, er⟩ := wav.Fits.even (count := 0) hr h2
      have SL : wav.LinearAt S c := by rw [ec]; exact wav.synthesise_linear w.synthesis n3 n4 M hM
      have SL' : wav.LinearAt S r := by rw [er]; exact wav.synthesise_linear w.synthesis n3 n4 N hN
      have AL' : wav.LinearAt A r := by rw [er]; exact wav.analyse_linear w.analysis n1 n2 N hN
      intro i hi j hj
      rw [rows_cols S S r c SL' SL _ i hi j hj]
      exact wav.mapCols_congr S r c _ _ (rows_cols A S r c AL' SL _) i hi j hj
    · exact fun _ _ _ _ => rfl
    · exact fun _ _ _ _ => rfl
    · exact fun _ _ _ _ => rfl
  intro i hi j hj
  rw [hag i hi j hj]
  have a := z1 i hi j hj
  have b : |aext Y (i - levelDelay r order) j - aext x (i - levelDelay r order) (j - levelDelay c order)| ≤ E * K := by
    by_cases h0 : (0 : ℤ) ≤ i - levelDelay r order
    · have := y1 (i - levelDelay r order).toNat (by have := dpos r; omega) j hj
      have q : (((i : ℤ) - levelDelay r order).toNat : ℤ) = i - levelDelay r order := Int.toNat_of_nonneg h0
      rw [q] at this
      have p : aext Y (i - levelDelay r order) j = Y (i - levelDelay r order).toNat j := by
        unfold aext; rw [if_pos ⟨h0, by omega⟩]; rfl
      rw [p]; exact this
    · unfold aext
      rw [if_neg (fun h => h0 h.1), if_neg (fun h => h0 h.1), sub_zero, abs_zero]
      positivity
  have := abs_sub_le (Z i j) (aext Y (i - levelDelay r order) j) (aext x (i - levelDelay r order) (j - levelDelay c order))
  nlinarith

example : (∃ w, Wavelet.new (some .daubechies) ((3 : ℕ) : ℤ) = .ok w) ∧ Acceptable 6 1 ∧ Acceptable 4 1 ∧ Acceptable 1 1 ∧ levelDelay 6 3 = 2 :=
  ⟨⟨_, rfl⟩, Or.inr ⟨by norm_num, 3, by norm_num⟩, Or.inr ⟨by norm_num, 2, by norm_num⟩, Or.inl rfl, by norm_num [levelDelay]⟩

/-- Sums over the digits of a table entry: the squares at even positions, and the magnitudes. -/
def evenSquares : List ℤ → ℤ
  | [] => 0
  | [a] => a ^ 2
  | a :: _ :: l => a ^ 2 + evenSquares l

private theorem digits_even (style : WaveStyle) (order : ℤ) (p : List ℤ × ℕ) (h : Wavelet.digits style order = some p) :
    0 < p.1.sum ∧ (p.1.map abs).sum ≤ 2 * p.1.sum ∧ 26 * p.1.sum ^ 2 ≤ 200 * evenSquares p.1 ∧ 200 * evenSquares p.1 ≤ 74 * p.1.sum ^ 2 := by
  unfold Wavelet.digits at h
  split at h <;> first | (cases h; decide +kernel) | simp at h

private theorem evenSquares_sum : ∀ (n : ℕ) (z : List ℤ), z.length = 2 * n → evenSquares z = ∑ k ∈ range n, at0 z (2 * k) ^ 2
  | 0, z, h => by
    obtain rfl : z = [] := List.length_eq_zero_iff.mp (by omega)
    rfl
  | n + 1, [], h => by simp at h
  | n + 1, [a], h => by simp at h; omega
  | n + 1, a :: b :: l, h => by
    have hl : l.length = 2 * n := by simp at h; omega
    rw [evenSquares, evenSquares_sum n l hl, sum_range_succ']
    have : ∀ k, at0 (a :: b :: l) (2 * (k + 1)) = at0 l (2 * k) := fun k => rfl
    simp only [this]
    rw [add_comm]; rfl

private theorem abs_sum_at0 (z : List ℤ) : (z.map abs).sum = ∑ k ∈ range z.length, |at0 z k| := by
  induction z with
  | nil => rfl
  | cons a l ih =>
    rw [List.map_cons, List.sum_cons, ih, List.length_cons, sum_range_succ', add_comm]
    rfl

private theorem conv_up (s u : List ℝ) (N q : ℕ) (hq : 2 * q < N) : conv s (wav.up N u) (2 * q) = ∑ k ∈ range (q + 1), at0 s (2 * q - 2 * k) * at0 u k := by
  unfold conv
  rw [← sum_range_reflect, sum_range_succ, sum_pairs, sum_range_succ]
  congr 1
  · apply sum_congr rfl
    intro k hk
    have hk := mem_range.mp hk
    rw [show 2 * q + 1 - 1 - 2 * k = 2 * q - 2 * k by omega, show 2 * q - (2 * q - 2 * k) = 2 * k by omega,
      show 2 * q + 1 - 1 - (2 * k + 1) = 2 * q - 2 * k - 1 by omega, show 2 * q - (2 * q - 2 * k - 1) = 2 * k + 1 by omega,
      wav.at0_up _ _ _ (by omega), wav.at0_up _ _ _ (by omega), if_pos (by omega), if_neg (by omega), show 2 * k / 2 = k by omega]
    ring
  · rw [show 2 * q + 1 - 1 - 2 * q = 0 by omega, show 2 * q - 2 * q = 0 by omega, show 2 * q - 0 = 2 * q by omega, wav.at0_up _ _ _ (by omega),
      if_pos (by omega), show 2 * q / 2 = q by omega]

private theorem conv_delta (b : List ℝ) (N n : ℕ) : conv b (1 :: List.replicate N 0) n = at0 b n := by
  unfold conv
  rw [sum_range_succ, Nat.sub_self]
  have : ∀ i ∈ range n, at0 b i * at0 ((1 : ℝ) :: List.replicate N 0) (n - i) = 0 := by
    intro i hi
    obtain ⟨t, ht⟩ : ∃ t, n - i = t + 1 := ⟨n - i - 1, by have := mem_range.mp hi; omega⟩
    rw [ht]
    simp [at0, List.getD_eq_getElem?_getD, List.getElem?_replicate]
    right
    split <;> rfl
  rw [sum_eq_zero this]
  simp [at0]

/-- C152: two levels of any wavelet but Haar turn an impulse into neither an impulse nor zero: the sample at which one level would return it is about
twice the sum of the squares of the coefficients at even positions, which is between 1/4 and 3/4. -/
theorem C152_two_levels (style : WaveStyle) (order : ℕ) (h1 : order ≠ 1) (w : Wavelet) (h : Wavelet.new (some style) order = .ok w) (M : ℕ) (hM : order ≤ 4 * M) :
    ∃ y z, w.transform id (.vec (1 :: List.replicate (4 * M - 1) 0)) 2 false = .ok (.vec y) ∧ w.transform id (.vec y) 2 true = .ok (.vec z) ∧
      z.length = 4 * M ∧ 0.25 < at0 z (order - 1) ∧ at0 z (order - 1) < 0.75 := by
  obtain ⟨n1, n2, n3, n4⟩ := wav_new_ne style order w h
  have hE := (C48_table style order w h).1
  have hE0 := bankError_nonneg w.analysis.1
  have hline := line_delay style order w h
  obtain ⟨p, hp, hw⟩ := wav_new style order w h
  obtain ⟨o1, o2, o3, o4⟩ := C48_orders_odd style order p hp
  obtain ⟨d1, d2, d3, d4⟩ := digits_even style order p hp
  obtain ⟨q, rfl⟩ : ∃ q, order = 2 * q + 1 := ⟨order / 2, by omega⟩
  have hq : 1 ≤ q := by omega
  set c := p.1.map fun z : ℤ => (z : ℝ) / 10 ^ p.2 with hc
  have hcl : c.length = 2 * q + 1 + 1 := by rw [hc, List.length_map]; omega
  obtain ⟨σ, f1, f2, f3, f4, f5, f6, f7, f8⟩ := wav.filters_spec c (2 * q + 1) hcl (by omega) (fun e => absurd e h1)
  rw [← hw] at f2 f3 f4 f5 f6 f7 f8
  set b := c.map (· / c.sum) with hb
  have hS : (0 : ℝ) < ((p.1.sum : ℤ) : ℝ) := by exact_mod_cast d1
  have bz : ∀ i, at0 b i = ((at0 p.1 i : ℤ) : ℝ) / p.1.sum := by
    intro i
    rw [hb, hc]
    exact at0_normal p.1 p.2 i
  have hpl : p.1.length = 2 * (q + 1) := by have := hcl; rw [hc, List.length_map] at this; omega
  -- the sums of the table
  have t1 : ∑ i ∈ range (2 * (q + 1)), |at0 b i| ≤ 2 := by
    have : ∑ i ∈ range (2 * (q + 1)), |at0 b i| = (((p.1.map abs).sum : ℤ) : ℝ) / p.1.sum := by
      rw [abs_sum_at0, hpl]
      rw [Int.cast_sum, sum_div]
      apply sum_congr rfl
      intro i _
      rw [bz, abs_div, abs_of_pos hS, Int.cast_abs]
    rw [this, div_le_iff₀ hS]
    exact_mod_cast d2
  have t2 : 2 * ∑ k ∈ range (q + 1), at0 b (2 * k) ^ 2 = 2 * (evenSquares p.1 : ℝ) / (p.1.sum : ℝ) ^ 2 := by
    rw [evenSquares_sum (q + 1) p.1 hpl]
    rw [Int.cast_sum, mul_div_assoc, sum_div]
    congr 1
    apply sum_congr rfl
    intro i _
    rw [bz, div_pow, Int.cast_pow]
  have t3 : 0.26 ≤ 2 * ∑ k ∈ range (q + 1), at0 b (2 * k) ^ 2 ∧ 2 * ∑ k ∈ range (q + 1), at0 b (2 * k) ^ 2 ≤ 0.74 := by
    have e3 : (26 : ℝ) * (p.1.sum : ℝ) ^ 2 ≤ 200 * (evenSquares p.1 : ℝ) := by exact_mod_cast d3
    have e4 : 200 * (evenSquares p.1 : ℝ) ≤ (74 : ℝ) * (p.1.sum : ℝ) ^ 2 := by exact_mod_cast d4
    rw [t2, le_div_iff₀ (by positivity), div_le_iff₀ (by positivity)]
    constructor <;> linarith
  have bi : ∀ i, |at0 b i| ≤ 2 := by
    intro i
    by_cases hi : i < 2 * (q + 1)
    · exact (single_le_sum (f := fun i => |at0 b i|) (fun _ _ => abs_nonneg _) (mem_range.mpr hi)).trans t1
    · rw [at0_of_le _ _ (by rw [hb, List.length_map]; omega), abs_zero]; norm_num
  have t4 : ∑ k ∈ range (q + 1), |at0 b (2 * k + 1)| ≤ 2 := by
    refine le_trans ?_ t1
    rw [sum_pairs]
    exact sum_le_sum fun k _ => by have := abs_nonneg (at0 b (2 * k)); linarith
  -- the two levels
  set x : List ℝ := 1 :: List.replicate (4 * M - 1) 0 with hx
  have xl : x.length = 4 * M := by rw [hx]; simp; omega
  have hM0 : 0 < M := by omega
  set a := wav.analyse id w.analysis x with ha
  have al : a.length = 4 * M := by rw [ha, wav.analyse_length w.analysis n1 n2 id x (2 * M) (by omega) (by omega), xl]
  obtain ⟨g1, g2⟩ := wav.analyse_low w.analysis n1 x (2 * M) (by omega) (by omega)
  obtain ⟨g3, g4⟩ := wav.analyse_high w.analysis n1 n2 x (2 * M) (by omega) (by omega)
  rw [← ha] at g1 g2 g3 g4
  have e1 := wav.two_forward w n1 n2 x M hM0 xl
  rw [← ha] at e1
  set a1 := a.take (2 * M) with ha1
  set dd := a.drop (2 * M) with hdd
  have l2 := wav.analyse_length w.analysis n1 n2 id a1 M hM0 g1
  set u := wav.analyse id w.analysis a1 with hu
  have e2 := wav.two_backward w n3 n4 (u ++ dd) M hM0 (by rw [List.length_append]; omega)
  rw [List.take_left' (by omega), List.drop_left' (by omega)] at e2
  have l3 := wav.synthesise_length w.synthesis n3 n4 id u (List.length_pos_iff.mp (by omega))
  set v := wav.synthesise id w.synthesis u with hv
  have hvd : (v ++ dd).length = 4 * M := by rw [List.length_append]; omega
  have hne : v ++ dd ≠ [] := List.length_pos_iff.mp (by omega)
  refine ⟨_, _, e1, e2, by rw [wav.synthesise_length w.synthesis n3 n4 id _ hne, hvd], ?_⟩
  have hz := wav.at0_synthesise w.synthesis n3 n4 (v ++ dd) hne (2 * q) (by omega)
  rw [hvd, show 4 * M / 2 = 2 * M by omega, List.take_left' (by omega), List.drop_left' (by omega), conv_up _ _ _ _ (by omega), conv_up _ _ _ _ (by omega)] at hz
  have high : ∑ k ∈ range (q + 1), at0 w.synthesis.2 (2 * q - 2 * k) * at0 dd k = ∑ k ∈ range (q + 1), at0 b (2 * k) ^ 2 := by
    rw [← sum_range_reflect (fun k => at0 b (2 * k) ^ 2)]
    apply sum_congr rfl
    intro k hk
    have hk := mem_range.mp hk
    rw [g4 k (by omega), hx, conv_delta, f8 _ (by omega), f6 _ (by omega), show 2 * q + 1 - (2 * k + 1) = 2 * q - 2 * k by omega,
      show 2 * (q + 1 - 1 - k) = 2 * q - 2 * k by omega, Even.neg_one_pow ⟨q - k, by omega⟩, Odd.neg_one_pow ⟨k, rfl⟩]
    linear_combination (at0 b (2 * q - 2 * k) ^ 2) * f1
  have low : |∑ k ∈ range (q + 1), at0 w.synthesis.1 (2 * q - 2 * k) * at0 v k| ≤ 2 * (1.05e-4 * 2) := by
    refine (abs_sum_le_sum_abs _ _).trans ?_
    have : ∀ k ∈ range (q + 1), |at0 w.synthesis.1 (2 * q - 2 * k) * at0 v k| ≤ |at0 b (2 * k + 1)| * (1.05e-4 * 2) := by
      intro k hk
      have hk := mem_range.mp hk
      rw [abs_mul, f7 _ (by omega), show 2 * q + 1 - (2 * q - 2 * k) = 2 * k + 1 by omega]
      apply mul_le_mul_of_nonneg_left _ (abs_nonneg _)
      have := hline a1 M hM0 g1 2 (by
        intro t ht
        obtain ⟨i, hi, rfl⟩ := List.getElem_of_mem ht
        rw [← at0_of_lt _ _ hi, g2 i (by omega), hx, conv_delta, f2]
        exact bi _) k (by omega)
      rw [show zext a1 ((k : ℤ) - (((2 * q + 1 : ℕ) : ℤ) - 1)) = 0 by unfold zext; rw [if_neg (by push_cast; omega)], sub_zero] at this
      exact this.trans (by nlinarith)
    refine (sum_le_sum this).trans ?_
    rw [← sum_mul]
    exact mul_le_mul_of_nonneg_right t4 (by norm_num)
  rw [high] at hz
  have k1 := abs_le.mp low
  rw [show 2 * q + 1 - 1 = 2 * q by omega, hz]
  norm_num at k1 t3 ⊢
  constructor <;> linarith [k1.1, k1.2, t3.1, t3.2]

/-- A Symmlet filter of order 7 and eight samples. -/
example := C152_two_levels .symmlet 7 (by norm_num) _ rfl 2 (by norm_num)

/-- C152: hence the result of two levels is no delayed impulse, not even within a quarter. -/
theorem C152_no_delay (style : WaveStyle) (order : ℕ) (h1 : order ≠ 1) (w : Wavelet) (h : Wavelet.new (some style) order = .ok w) (M : ℕ) (hM : order ≤ 4 * M) :
    ∃ y z, w.transform id (.vec (1 :: List.replicate (4 * M - 1) 0)) 2 false = .ok (.vec y) ∧ w.transform id (.vec y) 2 true = .ok (.vec z) ∧
      ∀ d : ℕ, ∃ m < 4 * M, 0.25 < |at0 z m - if m = d then 1 else 0| := by
  obtain ⟨y, z, e1, e2, -, e3, e4⟩ := C152_two_levels style order h1 w h M hM
  have ho : 0 < order := by
    obtain ⟨p, hp, -⟩ := wav_new style order w h
    obtain ⟨o1, o2, -⟩ := C48_orders_odd style order p hp
    exact_mod_cast o2
  refine ⟨y, z, e1, e2, fun d => ⟨order - 1, by omega, ?_⟩⟩
  split
  · rw [abs_of_neg (by norm_num at e4 ⊢; linarith)]; norm_num at e4 ⊢; linarith
  · rw [sub_zero, abs_of_pos (by norm_num at e3; linarith)]; exact e3

example : (∃ w, Wavelet.new (some .symmlet) ((7 : ℕ) : ℤ) = .ok w) ∧ (7 : ℕ) ≠ 1 ∧ 7 ≤ 4 * 2 := ⟨⟨_, rfl⟩, by norm_num, by norm_num⟩

end Verif.Props
