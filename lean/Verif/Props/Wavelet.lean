import Verif.Lemmas.WaveletArray
import Mathlib.Tactic.NormNum
import Mathlib.Tactic.IntervalCases
import Mathlib.Tactic.Positivity
import Mathlib.Tactic.FieldSimp
import Mathlib.Algebra.Order.Archimedean.Real.Basic
import Mathlib.Algebra.BigOperators.Field

/- Properties of WaveletTransform (C47-C49). -/

namespace Verif.Props

open Finset Spec

/-- A length that `transform` documents as acceptable: unity or an integral multiple of `2 ** count`, not empty. -/
def Acceptable (d count : ℕ) : Prop := d = 1 ∨ (0 < d ∧ 2 ^ count ∣ d)

/-- Arrays with the same shape and the same elements. -/
def SameArray (x y : Arr) : Prop := x.rows = y.rows ∧ x.cols = y.cols ∧ ∀ i < x.rows, ∀ j < x.cols, x.val i j = y.val i j

theorem wav_vec (x : List ℝ) : ((List.range x.length).map fun j => (fun _ j => x.getD j 0 : ℕ → ℕ → ℝ) 0 j) = x := wav.range_getD x _ rfl

theorem wav_forward_vec (cast : ℝ → ℝ) (w : Wavelet) (x : List ℝ) (M : ℕ) (hM : 0 < M) (hx : x.length = 2 * M) (hA : (wav.analyse cast w.analysis x).length = x.length) :
    w.transform cast (.vec x) 1 false = .ok (.vec (wav.analyse cast w.analysis x)) := by
  have hne : x ≠ [] := by intro h; rw [h] at hx; simp at hx; omega
  have hf : wav.Fits x.length (0 + 1) := Or.inr ⟨by omega, M, by rw [hx]; ring⟩
  unfold Wavelet.transform
  simp only [hne, if_false]
  rw [show ((1 : ℤ).toNat) = 0 + 1 from rfl]
  simp only [Bool.false_eq_true, if_false]
  rw [wav.forward_eq cast w.analysis 0 1 x.length _ (Or.inl rfl) hf]
  simp only [if_true]
  congr 2
  rw [← wav.range_getD (wav.analyse cast w.analysis x) x.length hA]
  apply List.map_congr_left
  intro j hj
  have hj := List.mem_range.mp hj
  unfold wav.fstep
  simp only [gt_iff_lt, show 1 < x.length by omega, if_true, lt_irrefl, if_false]
  rw [wav.mapRows, if_pos ⟨by omega, hj⟩, wav_vec]

theorem wav_backward_vec (cast : ℝ → ℝ) (w : Wavelet) (x : List ℝ) (M : ℕ) (hM : 0 < M) (hx : x.length = 2 * M) (hA : (wav.synthesise cast w.synthesis x).length = x.length) :
    w.transform cast (.vec x) 1 true = .ok (.vec (wav.synthesise cast w.synthesis x)) := by
  have hne : x ≠ [] := by intro h; rw [h] at hx; simp at hx; omega
  have hf : wav.Fits x.length (0 + 1) := Or.inr ⟨by omega, M, by rw [hx]; ring⟩
  unfold Wavelet.transform
  simp only [hne, if_false]
  rw [show ((1 : ℤ).toNat) = 0 + 1 from rfl]
  simp only [if_true]
  rw [wav.backward_eq cast w.synthesis 0 1 x.length _ (Or.inl rfl) hf]
  simp only [if_true]
  congr 2
  rw [← wav.range_getD (wav.synthesise cast w.synthesis x) x.length hA]
  apply List.map_congr_left
  intro j hj
  have hj := List.mem_range.mp hj
  unfold wav.bstep
  simp only [gt_iff_lt, show 1 < x.length by omega, if_true, lt_irrefl, if_false]
  rw [wav.mapRows, if_pos ⟨by omega, hj⟩, wav_vec]

/-- What a successful constructor says about the table. -/
theorem wav_new (style : WaveStyle) (order : ℤ) (w : Wavelet) (h : Wavelet.new (some style) order = .ok w) :
    ∃ p, Wavelet.digits style order = some p ∧ w = wav.filters (p.1.map fun z : ℤ => (z : ℝ) / 10 ^ p.2) := by
  unfold Wavelet.new Wavelet.table at h
  cases hd : Wavelet.digits style order with
  | none => simp [hd] at h
  | some p => simp [hd] at h; exact ⟨p, rfl, h.symm⟩

/-- C48: every order of the table is odd and has one coefficient more than its order; Haar, the only one of order 1, has equal coefficients. -/
theorem C48_orders_odd (style : WaveStyle) (order : ℤ) (p : List ℤ × ℕ) (h : Wavelet.digits style order = some p) :
    order % 2 = 1 ∧ 0 < order ∧ (p.1.length : ℤ) = order + 1 ∧ (order = 1 → p.1 = [10, 10]) := by
  unfold Wavelet.digits at h
  split at h <;> first | (cases h; decide +kernel) | simp at h

/-- A Daubechies filter of order 3. -/
example : ∃ p, Wavelet.digits .daubechies 3 = some p := ⟨_, rfl⟩

/-- Sums over the digits, in a form to compute with. -/
def digitCorr (z : List ℤ) (l : ℕ) : ℤ := (List.zipWith (· * ·) z (z.drop (2 * l))).sum

def digitError (z : List ℤ) : ℤ := |2 * digitCorr z 0 - z.sum ^ 2| + ((List.range (z.length - 1)).map fun l => 4 * |digitCorr z (l + 1)|).sum

/-- Numerator and denominator of a bound of the error of a table entry. -/
def tableBound (style : WaveStyle) (order : ℤ) : ℤ × ℤ :=
  if style = .haar then (0, 1) else if style = .coiflet ∧ order = 5 then (105, 1000000) else if style = .daubechies ∧ order = 11 then (15, 1000000)
  else (33, 1000000000)

theorem digits_bound (style : WaveStyle) (order : ℤ) (p : List ℤ × ℕ) (h : Wavelet.digits style order = some p) :
    p.1.sum ≠ 0 ∧ digitError p.1 * (tableBound style order).2 ≤ (tableBound style order).1 * p.1.sum ^ 2 := by
  unfold Wavelet.digits at h
  split at h <;> first | (cases h; decide +kernel) | simp at h

theorem sum_map_div (z : List ℤ) (c : ℝ) : (z.map fun z : ℤ => (z : ℝ) / c).sum = (z.sum : ℝ) / c := by
  induction z with
  | nil => simp
  | cons a z ih => simp only [List.map_cons, List.sum_cons, ih]; push_cast; ring

/-- The normalised low pass filter in terms of the digits. -/
theorem at0_normal (z : List ℤ) (k i : ℕ) :
    at0 ((z.map fun z : ℤ => (z : ℝ) / 10 ^ k).map (· / (z.map fun z : ℤ => (z : ℝ) / 10 ^ k).sum)) i = ((at0 z i : ℤ) : ℝ) / z.sum := by
  rw [sum_map_div]
  by_cases h : i < z.length
  · rw [at0_of_lt _ _ (by simpa using h), at0_of_lt _ _ h]
    simp only [List.getElem_map]
    rw [div_div_div_cancel_right₀ (by positivity)]
  · rw [at0_of_le _ _ (by simpa using h), at0_of_le _ _ (by simpa using h)]; simp

theorem digitCorr_eq (z : List ℤ) (l : ℕ) : digitCorr z l = ∑ k ∈ range z.length, at0 z k * at0 z (k + 2 * l) := by
  have h : digitCorr z l = dot z (z.drop (2 * l)) := by
    unfold digitCorr dot; rfl
  rw [h, dot_eq_sum]
  apply sum_congr rfl
  intro k _
  congr 1
  unfold at0
  rw [List.getD_eq_getElem?_getD, List.getD_eq_getElem?_getD, List.getElem?_drop, Nat.add_comm]

theorem shiftCorr_normal (z : List ℤ) (k l : ℕ) :
    shiftCorr ((z.map fun z : ℤ => (z : ℝ) / 10 ^ k).map (· / (z.map fun z : ℤ => (z : ℝ) / 10 ^ k).sum)) l = (digitCorr z l : ℝ) / z.sum ^ 2 := by
  unfold shiftCorr
  simp only [at0_normal, List.length_map]
  rw [digitCorr_eq]
  simp only [Int.cast_sum, Int.cast_mul]
  rw [sum_div]
  apply sum_congr rfl
  intro i _
  rw [div_mul_div_comm, sq]

theorem bankError_normal (z : List ℤ) (k : ℕ) (hz : z.sum ≠ 0) :
    bankError ((z.map fun z : ℤ => (z : ℝ) / 10 ^ k).map (· / (z.map fun z : ℤ => (z : ℝ) / 10 ^ k).sum)) = (digitError z : ℝ) / z.sum ^ 2 := by
  have hS : (0 : ℝ) < (z.sum : ℝ) ^ 2 := by positivity
  unfold bankError digitError
  simp only [shiftCorr_normal, List.length_map]
  have e1 : 2 * ((digitCorr z 0 : ℝ) / (z.sum : ℝ) ^ 2) - 1 = (2 * digitCorr z 0 - z.sum ^ 2) / (z.sum : ℝ) ^ 2 := by field_simp
  rw [e1, abs_div, abs_of_pos hS, Int.cast_add, add_div]
  congr 1
  · push_cast; rfl
  · have e2 : ((List.range (z.length - 1)).map fun l => 4 * |digitCorr z (l + 1)|).sum = ∑ l ∈ range (z.length - 1), 4 * |digitCorr z (l + 1)| := rfl
    rw [e2]
    simp only [Int.cast_sum, Int.cast_mul, Int.cast_abs, Int.cast_ofNat]
    rw [sum_div]
    have e3 : Icc 1 (z.length - 1) = (range (z.length - 1)).image (· + 1) := by
      ext a; simp only [mem_Icc, mem_image, mem_range]
      constructor
      · intro h; exact ⟨a - 1, by omega, by omega⟩
      · rintro ⟨b, hb, rfl⟩; omega
    rw [e3, sum_image (by intro a _ b _ h; simpa using h)]
    apply sum_congr rfl
    intro l _
    rw [abs_div, abs_of_pos hS, mul_div_assoc]

/-- C48: for every style and order of the table one level of analysis and synthesis is, sample by sample, an exact combination of the signal
delayed by `order - 1` and its even shifts: the aliasing of the two bands cancels. -/
theorem C48_one_level (style : WaveStyle) (order : ℕ) (w : Wavelet) (h : Wavelet.new (some style) order = .ok w) (x : List ℝ) (M : ℕ) (hM : 0 < M)
    (hx : x.length = 2 * M) : ∃ y z, w.transform id (.vec x) 1 false = .ok (.vec y) ∧ w.transform id (.vec y) 1 true = .ok (.vec z) ∧
      z.length = x.length ∧ ∀ m < x.length, at0 z m = 2 * shiftCorr w.analysis.1 0 * zext x (m - (order - 1)) +
        ∑ k ∈ Icc 1 order, 2 * shiftCorr w.analysis.1 k * (zext x (m - (order - 1) + 2 * k) + zext x (m - (order - 1) - 2 * k)) := by
  obtain ⟨p, hp, rfl⟩ := wav_new style order w h
  obtain ⟨o1, o2, o3, o4⟩ := C48_orders_odd style order p hp
  set c := p.1.map fun z : ℤ => (z : ℝ) / 10 ^ p.2 with hc
  have hcl : c.length = order + 1 := by rw [hc, List.length_map]; omega
  obtain ⟨σ, f1, f2, f3, f4, f5, f6, f7, f8⟩ := wav.filters_spec c order hcl (by omega) (by
    intro h1 i j hi hj
    have e := o4 (by omega)
    have : ∀ i, i ≤ 1 → at0 c i = 10 / 10 ^ p.2 := by
      intro i hi
      rw [hc, e]
      interval_cases i <;> simp [at0]
    rw [this i hi, this j hj])
  have hl := wav.line (wav.filters c).analysis.1 (wav.filters c).analysis.2 (wav.filters c).synthesis.1 (wav.filters c).synthesis.2 order (by omega) (by rw [f2, List.length_map, hcl]) f3 (by rw [f4]; simp [hcl]) f5 σ f1 (by rw [f2]; exact f6)
    (by rw [f2]; exact f7) (by rw [f2]; exact f8) x M hM hx
  set w := wav.filters c with hw
  have n1 : w.analysis.1 ≠ [] := by rw [f2]; intro h; have := congrArg List.length h; simp [hcl] at this
  have n2 : w.analysis.2 ≠ [] := by intro h; rw [h] at f3; simp at f3
  have a1 := wav.analyse_length w.analysis n1 n2 id x M hM hx
  have e1 := wav_forward_vec id w x M hM hx a1
  have e2 := wav_backward_vec id w (wav.analyse id w.analysis x) M hM (by rw [a1, hx]) (by rw [a1]; exact hl.1)
  refine ⟨_, _, e1, e2, hl.1, fun m hm => ?_⟩
  have := hl.2 m hm
  rw [show ((m : ℤ) + 1 - order) = m - (order - 1) by ring] at this
  exact this

/-- Six samples. -/
example := C48_one_level .daubechies 3 _ rfl [4, -1, 2, 7, 0, 1] 3 (by norm_num) rfl

/-- C48: the error of one level of analysis and synthesis, against the delayed signal, is at most the largest sample times `bankError`. -/
theorem C48_reconstructs (style : WaveStyle) (order : ℕ) (w : Wavelet) (h : Wavelet.new (some style) order = .ok w) (x : List ℝ) (M : ℕ) (hM : 0 < M)
    (hx : x.length = 2 * M) (K : ℝ) (hK : ∀ v ∈ x, |v| ≤ K) : ∃ y z, w.transform id (.vec x) 1 false = .ok (.vec y) ∧
      w.transform id (.vec y) 1 true = .ok (.vec z) ∧ z.length = x.length ∧
      ∀ m < x.length, |at0 z m - zext x (m - (order - 1))| ≤ bankError w.analysis.1 * K := by
  obtain ⟨y, z, h1, h2, h3, h4⟩ := C48_one_level style order w h x M hM hx
  refine ⟨y, z, h1, h2, h3, fun m hm => ?_⟩
  have hK0 : 0 ≤ K := by
    have : x ≠ [] := by intro h; rw [h] at hx; simp at hx; omega
    obtain ⟨a, ha⟩ := List.exists_mem_of_ne_nil x this
    exact (abs_nonneg a).trans (hK a ha)
  have hX : ∀ t, |zext x t| ≤ K := by
    intro t
    unfold zext
    split
    · by_cases ht : t.toNat < x.length
      · rw [at0_of_lt _ _ ht]; exact hK _ (List.getElem_mem ht)
      · rw [at0_of_le _ _ (by omega), abs_zero]; exact hK0
    · rw [abs_zero]; exact hK0
  have hlen : w.analysis.1.length - 1 = order := by
    obtain ⟨p, hp, rfl⟩ := wav_new style order w h
    obtain ⟨o1, o2, o3, o4⟩ := C48_orders_odd style order p hp
    have : (wav.filters (p.1.map fun z : ℤ => (z : ℝ) / 10 ^ p.2)).analysis.1.length = p.1.length := by
      unfold wav.filters; simp only; split <;> simp
    omega
  rw [h4 m hm]
  unfold bankError
  rw [hlen, add_mul, sum_mul]
  have e : ∀ A B S : ℝ, A * B + S - B = (A - 1) * B + S := by intros; ring
  rw [e]
  refine (abs_add_le _ _).trans (add_le_add ?_ ?_)
  · rw [abs_mul]; exact mul_le_mul_of_nonneg_left (hX _) (abs_nonneg _)
  · refine (abs_sum_le_sum_abs _ _).trans (sum_le_sum fun k _ => ?_)
    rw [abs_mul, abs_mul, abs_two]
    have h2 : |zext x (m - (order - 1) + 2 * k) + zext x (m - (order - 1) - 2 * k)| ≤ 2 * K :=
      (abs_add_le _ _).trans (by have := hX (m - (order - 1) + 2 * k); have := hX (m - (order - 1) - 2 * k); linarith)
    calc 2 * |shiftCorr w.analysis.1 k| * _ ≤ 2 * |shiftCorr w.analysis.1 k| * (2 * K) := mul_le_mul_of_nonneg_left h2 (by positivity)
      _ = 4 * |shiftCorr w.analysis.1 k| * K := by ring

/-- Six samples up to 7. -/
example := C48_reconstructs .daubechies 3 _ rfl [4, -1, 2, 7, 0, 1] 3 (by norm_num) rfl 7 (by norm_num [abs_of_pos, abs_of_neg])

/-- C48: the accuracy of the table.  Haar is exact; all others are within 3.3e-8, but for Coiflet 5 and Daubechies 11. -/
theorem C48_table (style : WaveStyle) (order : ℤ) (w : Wavelet) (h : Wavelet.new (some style) order = .ok w) :
    bankError w.analysis.1 ≤ 1.05e-4 ∧ (¬ (style = .coiflet ∧ order = 5) → bankError w.analysis.1 ≤ 1.5e-5) ∧
      (¬ (style = .coiflet ∧ order = 5) → ¬ (style = .daubechies ∧ order = 11) → bankError w.analysis.1 ≤ 3.3e-8) ∧
      (style = .haar → bankError w.analysis.1 = 0) := by
  obtain ⟨p, hp, rfl⟩ := wav_new style order w h
  obtain ⟨h0, h1⟩ := digits_bound style order p hp
  have hb : (wav.filters (p.1.map fun z : ℤ => (z : ℝ) / 10 ^ p.2)).analysis.1 =
      (p.1.map fun z : ℤ => (z : ℝ) / 10 ^ p.2).map (· / (p.1.map fun z : ℤ => (z : ℝ) / 10 ^ p.2).sum) := by
    unfold wav.filters; simp only; split <;> rfl
  rw [hb, bankError_normal _ _ h0]
  have hS : (0 : ℝ) < (p.1.sum : ℝ) ^ 2 := by positivity
  have h2 : (digitError p.1 : ℝ) * (tableBound style order).2 ≤ (tableBound style order).1 * (p.1.sum : ℝ) ^ 2 := by exact_mod_cast h1
  have hE : (0 : ℝ) ≤ digitError p.1 := by
    have : 0 ≤ digitError p.1 := by
      unfold digitError
      refine add_nonneg (abs_nonneg _) (List.sum_nonneg ?_)
      intro a ha
      obtain ⟨l, -, rfl⟩ := List.mem_map.mp ha
      positivity
    exact_mod_cast this
  simp only [div_le_iff₀ hS]
  unfold tableBound at h2
  split at h2
  · rename_i hs
    have : (digitError p.1 : ℝ) ≤ 0 := by simpa using h2
    refine ⟨by linarith, fun _ => by linarith, fun _ _ => by linarith, fun _ => ?_⟩
    rw [le_antisymm this hE, zero_div]
  · rename_i hs
    split at h2
    · rename_i h3
      refine ⟨?_, fun h => absurd h3 h, fun h => absurd h3 h, fun h => absurd h hs⟩
      norm_num at h2 ⊢; linarith
    · rename_i h3
      split at h2
      · rename_i h4
        refine ⟨?_, ?_, fun _ h => absurd h4 h, fun h => absurd h hs⟩ <;> norm_num at h2 ⊢
        · linarith
        · intro _; linarith
      · refine ⟨?_, ?_, ?_, fun h => absurd h hs⟩ <;> norm_num at h2 ⊢
        · linarith
        · intro _; linarith
        · intro _ _; linarith

/-- A filter of the table. -/
example := C48_table .symmlet 7 _ rfl

theorem wav_low (c : List ℝ) : (wav.filters c).analysis.1 = c.map (· / c.sum) := by
  unfold wav.filters; simp only; split <;> rfl

/-- C48: an impulse comes back with the height `2 shiftCorr 0`. -/
theorem wav_impulse (style : WaveStyle) (order : ℕ) (w : Wavelet) (h : Wavelet.new (some style) order = .ok w) (M : ℕ) (hM : order < 2 * M) :
    ∃ y z, w.transform id (.vec (1 :: List.replicate (2 * M - 1) 0)) 1 false = .ok (.vec y) ∧ w.transform id (.vec y) 1 true = .ok (.vec z) ∧
      at0 z (order - 1) = 2 * shiftCorr w.analysis.1 0 := by
  obtain ⟨p, hp, -⟩ := wav_new style order w h
  obtain ⟨o1, o2, -, -⟩ := C48_orders_odd style order p hp
  obtain ⟨y, z, h1, h2, h3, h4⟩ := C48_one_level style order w h (1 :: List.replicate (2 * M - 1) 0) M (by omega) (by simp; omega)
  refine ⟨y, z, h1, h2, ?_⟩
  have hz : ∀ t : ℤ, zext (1 :: List.replicate (2 * M - 1) (0 : ℝ)) t = if t = 0 then 1 else 0 := by
    intro t
    unfold zext
    by_cases h0 : t = 0
    · subst h0; rfl
    · rw [if_neg h0]
      split
      · obtain ⟨n, hn⟩ : ∃ n, t.toNat = n + 1 := ⟨t.toNat - 1, by omega⟩
        rw [hn, at0_cons_succ]
        unfold at0
        rw [List.getD_eq_getElem?_getD, List.getElem?_replicate]
        split <;> rfl
      · rfl
  rw [h4 (order - 1) (by simp; omega)]
  have e : (((order - 1 : ℕ) : ℤ) - (order - 1)) = 0 := by omega
  rw [e, hz, if_pos rfl, mul_one]
  rw [sum_eq_zero, add_zero]
  intro k hk
  have hk := mem_Icc.mp hk
  rw [hz, hz, if_neg (by omega), if_neg (by omega)]; ring

/-- C48: the two exceptions are real.  A unit impulse through Coiflet 5 is wrong by more than 4.7e-5, through Daubechies 11 by more than 6e-6. -/
theorem C48_defect : (∃ w y z, Wavelet.new (some .coiflet) 5 = .ok w ∧ w.transform id (.vec (1 :: List.replicate 7 0)) 1 false = .ok (.vec y) ∧
      w.transform id (.vec y) 1 true = .ok (.vec z) ∧ |at0 z 4 - 1| > 4.7e-5) ∧
    (∃ w y z, Wavelet.new (some .daubechies) 11 = .ok w ∧ w.transform id (.vec (1 :: List.replicate 15 0)) 1 false = .ok (.vec y) ∧
      w.transform id (.vec y) 1 true = .ok (.vec z) ∧ |at0 z 10 - 1| > 6e-6) := by
  constructor
  · obtain ⟨y, z, h1, h2, h3⟩ := wav_impulse .coiflet 5 _ rfl 4 (by norm_num)
    refine ⟨_, y, z, rfl, h1, h2, ?_⟩
    rw [h3, wav_low, shiftCorr_normal]
    norm_num [digitCorr]
  · obtain ⟨y, z, h1, h2, h3⟩ := wav_impulse .daubechies 11 _ rfl 8 (by norm_num)
    refine ⟨_, y, z, rfl, h1, h2, ?_⟩
    rw [h3, wav_low, shiftCorr_normal]
    norm_num [digitCorr]

/-- The hypotheses are satisfiable: Coiflet 29. -/
example : ∃ w, Wavelet.new (some .coiflet) (29 : ℕ) = .ok w := ⟨_, rfl⟩

theorem wav_haar : ∃ w, Wavelet.new (some .haar) 1 = .ok w ∧ wav.Undo (wav.analyse id w.analysis) (wav.synthesise id w.synthesis) := by
  refine ⟨_, rfl, ?_⟩
  have hw : Wavelet.new (some .haar) ((1 : ℕ) : ℤ) = .ok (wav.filters ([10, 10].map fun z : ℤ => (z : ℝ) / 10 ^ 1)) := rfl
  constructor
  · intro l M hM hl
    refine wav.analyse_length _ ?_ ?_ id l M hM hl <;> simp [wav.filters, wav.negate]
  · intro l M hM hl
    obtain ⟨y, z, h1, h2, h3, h4⟩ := C48_one_level .haar 1 _ hw l M hM hl
    have a1 := wav.analyse_length (wav.filters ([10, 10].map fun z : ℤ => (z : ℝ) / 10 ^ 1)).analysis
      (by simp [wav.filters]) (by simp [wav.filters, wav.negate]) id l M hM hl
    rw [wav_forward_vec id _ l M hM hl a1] at h1
    simp only [Except.ok.injEq, WaveArg.vec.injEq] at h1
    subst h1
    rw [wav_backward_vec id _ _ M hM (by rw [a1, hl]) (wav.synthesise_length _ (by simp [wav.filters]) (by simp [wav.filters, wav.negate]) id _
      (by intro h; rw [h] at a1; simp at a1; omega))] at h2
    simp only [Except.ok.injEq, WaveArg.vec.injEq] at h2
    refine List.ext_getElem (by rw [← h3, ← h2]) ?_
    intro m hm1 hm
    have := h4 m hm
    rw [← h2] at this
    have hm1' := hm1
    rw [at0_of_lt _ _ hm1'] at this
    rw [this]
    have s0 : shiftCorr (wav.filters ([10, 10].map fun z : ℤ => (z : ℝ) / 10 ^ 1)).analysis.1 0 = 1 / 2 := by
      simp [shiftCorr, wav.filters, at0, sum_range_succ]; norm_num
    have s1 : shiftCorr (wav.filters ([10, 10].map fun z : ℤ => (z : ℝ) / 10 ^ 1)).analysis.1 1 = 0 := by
      simp [shiftCorr, wav.filters, at0]
    rw [s0]
    simp only [Icc_self, sum_singleton, s1]
    simp only [Nat.cast_one, sub_self, sub_zero, zext]
    rw [if_pos (by omega), Int.toNat_natCast, at0_of_lt _ _ hm]
    ring

/-- C47: Haar returns every real signal of one dimension exactly, for every count. -/
theorem C47_haar_vec (x : List ℝ) (count : ℕ) (hc : 0 < count) (hx : Acceptable x.length count) : ∃ w y, Wavelet.new (some .haar) 1 = .ok w ∧
    w.transform id (.vec x) count false = .ok (.vec y) ∧ w.transform id (.vec y) count true = .ok (.vec x) := by
  obtain ⟨w, hw, hu⟩ := wav_haar
  obtain ⟨n, rfl⟩ : ∃ n, count = n + 1 := ⟨count - 1, by omega⟩
  have hf : wav.Fits x.length (n + 1) := hx
  obtain ⟨y, z, h1, h2, h3⟩ := wav.undo id w.analysis w.synthesis hu n 1 x.length (fun _ j => x.getD j 0) (Or.inl rfl) hf
  have hp := hf.pos
  have hne : x ≠ [] := List.length_pos_iff.mp hp
  refine ⟨w, (List.range x.length).map fun j => y 0 j, hw, ?_, ?_⟩
  · unfold Wavelet.transform
    simp only [hne, if_false, Int.toNat_natCast, Bool.false_eq_true, h1]
  · unfold Wavelet.transform
    have hne' : ((List.range x.length).map fun j => y 0 j) ≠ [] := by simpa using hne
    simp only [hne', if_false, Int.toNat_natCast, if_true]
    obtain ⟨y', z', g1, g2, g3⟩ := wav.backward_congr id w.synthesis n 1 x.length (fun _ j => ((List.range x.length).map fun j => y 0 j).getD j 0) y
      (Or.inl rfl) hf (by
        intro i hi j hj
        have : i = 0 := by omega
        subst this
        simp [List.getD_eq_getElem?_getD, hj])
    simp only [List.length_map, List.length_range, g1]
    rw [h2] at g2
    simp only [Except.ok.injEq, Arr.mk.injEq, true_and] at g2
    congr 2
    rw [← wav_vec x]
    simp only [List.length_map, List.length_range]
    apply List.map_congr_left
    intro j hj
    have hj := List.mem_range.mp hj
    rw [g3 0 (by omega) j hj, ← g2, h3 0 (by omega) j hj]

/-- Twelve samples and two levels. -/
example := C47_haar_vec (List.replicate 12 3) 2 (by norm_num) (Or.inr ⟨by norm_num, 3, by norm_num⟩)

/-- C47: Haar returns every real array of two dimensions exactly, for every count. -/
theorem C47_haar_mat (x : Arr) (count : ℕ) (hc : 0 < count) (hr : Acceptable x.rows count) (hx : Acceptable x.cols count) :
    ∃ w y z, Wavelet.new (some .haar) 1 = .ok w ∧
      w.transform id (.mat x) count false = .ok (.mat y) ∧ w.transform id (.mat y) count true = .ok (.mat z) ∧ SameArray z x := by
  obtain ⟨w, hw, hu⟩ := wav_haar
  obtain ⟨n, rfl⟩ : ∃ n, count = n + 1 := ⟨count - 1, by omega⟩
  obtain ⟨r, c, v⟩ := x
  obtain ⟨y, z, h1, h2, h3⟩ := wav.undo id w.analysis w.synthesis hu n r c v hr hx
  refine ⟨w, ⟨r, c, y⟩, ⟨r, c, z⟩, hw, ?_, ?_, rfl, rfl, h3⟩
  · unfold Wavelet.transform
    simp only [Int.toNat_natCast, Bool.false_eq_true, if_false, h1]
  · unfold Wavelet.transform
    simp only [Int.toNat_natCast, if_true, h2]

example : Acceptable 24 3 ∧ Acceptable 1 3 ∧ ¬ Acceptable 12 3 := by
  refine ⟨Or.inr ⟨by norm_num, 3, by norm_num⟩, Or.inl rfl, ?_⟩
  rintro (h | ⟨_, q, h⟩) <;> omega

/-- C49: an acceptable array gives an array of the same shape, for analysis and for synthesis, whatever the wavelet and dtype. -/
theorem C49_shape (cast : ℝ → ℝ) (w : Wavelet) (x : Arr) (count : ℕ) (hc : 0 < count) (hr : Acceptable x.rows count) (hx : Acceptable x.cols count)
    (inverse : Bool) : ∃ y, w.transform cast (.mat x) count inverse = .ok (.mat y) ∧ y.rows = x.rows ∧ y.cols = x.cols := by
  obtain ⟨n, rfl⟩ : ∃ n, count = n + 1 := ⟨count - 1, by omega⟩
  obtain ⟨r, c, v⟩ := x
  unfold Wavelet.transform
  cases inverse
  · obtain ⟨y, h⟩ := wav.forward_ok cast w.analysis n r c v hr hx
    exact ⟨⟨r, c, y⟩, by simp only [Int.toNat_natCast, Bool.false_eq_true, if_false, h], rfl, rfl⟩
  · obtain ⟨y, h⟩ := wav.backward_ok cast w.synthesis n r c v hr hx
    exact ⟨⟨r, c, y⟩, by simp only [Int.toNat_natCast, if_true, h], rfl, rfl⟩

/-- An array of 12 rows and one column. -/
example (w : Wavelet) := C49_shape id w ⟨12, 1, fun i _ => i⟩ 2 (by norm_num) (Or.inr ⟨by norm_num, 3, by norm_num⟩) (Or.inl rfl) true

/-- C49: the same for one dimension. -/
theorem C49_shape_vec (cast : ℝ → ℝ) (w : Wavelet) (x : List ℝ) (count : ℕ) (hc : 0 < count) (hx : Acceptable x.length count) (inverse : Bool) :
    ∃ y, w.transform cast (.vec x) count inverse = .ok (.vec y) ∧ y.length = x.length := by
  obtain ⟨n, rfl⟩ : ∃ n, count = n + 1 := ⟨count - 1, by omega⟩
  have hne : x ≠ [] := List.length_pos_iff.mp (wav.Fits.pos hx)
  unfold Wavelet.transform
  simp only [hne, if_false, Int.toNat_natCast]
  cases inverse
  · obtain ⟨y, h⟩ := wav.forward_ok cast w.analysis n 1 x.length (fun _ j => x.getD j 0) (Or.inl rfl) hx
    simp only [Bool.false_eq_true, if_false, h]
    exact ⟨_, rfl, by simp⟩
  · obtain ⟨y, h⟩ := wav.backward_ok cast w.synthesis n 1 x.length (fun _ j => x.getD j 0) (Or.inl rfl) hx
    simp only [if_true, h]
    exact ⟨_, rfl, by simp⟩

/-- Twelve samples and two levels. -/
example (w : Wavelet) := C49_shape_vec id w (List.replicate 12 3) 2 (by norm_num) (Or.inr ⟨by norm_num, 3, by norm_num⟩) false

/-- C49: a count that is not positive is rejected for every argument. -/
theorem C49_count (cast : ℝ → ℝ) (w : Wavelet) (x : WaveArg) (count : ℤ) (hc : count ≤ 0) (inverse : Bool) :
    w.transform cast x count inverse = .error .valueError := by
  have h : count.toNat = 0 := by omega
  unfold Wavelet.transform
  rw [h]
  cases x <;> cases inverse <;> simp [wav.forward, wav.backward]

/-- A negative count. -/
example (w : Wavelet) := C49_count id w (.vec [1, 2]) (-1) (by norm_num) false

/-- C49: a length that is neither unity nor a multiple of `2 ** count` is rejected. -/
theorem C49_sizes (cast : ℝ → ℝ) (w : Wavelet) (x : Arr) (count : ℤ) (inverse : Bool)
    (h : (x.rows ≠ 1 ∧ ¬ 2 ^ count.toNat ∣ x.rows) ∨ (x.cols ≠ 1 ∧ ¬ 2 ^ count.toNat ∣ x.cols)) :
    w.transform cast (.mat x) count inverse = .error .valueError := by
  have hb : wav.bad x.rows x.cols count.toNat := by
    rcases h with ⟨h1, h2⟩ | ⟨h1, h2⟩
    · exact Or.inl ⟨h1, fun h => h2 (Nat.dvd_of_mod_eq_zero h)⟩
    · exact Or.inr ⟨h1, fun h => h2 (Nat.dvd_of_mod_eq_zero h)⟩
  unfold Wavelet.transform
  cases hn : count.toNat with
  | zero => cases inverse <;> simp [wav.forward, wav.backward]
  | succ n =>
    rw [hn] at hb
    cases inverse
    · simp only [Bool.false_eq_true, if_false]
      rw [wav.forward]
      split <;> simp_all
    · simp only [if_true]
      rw [wav.backward]
      split <;> simp_all

/-- Six rows are too few for two levels. -/
example (w : Wavelet) := C49_sizes id w ⟨6, 8, fun i j => i + j⟩ 2 false (.inl ⟨by norm_num, by simp⟩)

/-- C49: the same for one dimension. -/
theorem C49_sizes_vec (cast : ℝ → ℝ) (w : Wavelet) (x : List ℝ) (count : ℤ) (inverse : Bool) (h : x.length ≠ 1) (h' : ¬ 2 ^ count.toNat ∣ x.length) :
    w.transform cast (.vec x) count inverse = .error .valueError := by
  have hm := C49_sizes cast w ⟨1, x.length, fun _ j => x.getD j 0⟩ count inverse (Or.inr ⟨h, h'⟩)
  unfold Wavelet.transform at hm ⊢
  simp only at hm ⊢
  split
  · rfl
  · generalize hg : (if inverse = true then wav.backward cast w.synthesis else wav.forward cast w.analysis) count.toNat
      ⟨1, x.length, fun _ j => x.getD j 0⟩ = r at hm ⊢
    cases r with
    | error e => exact hm
    | ok y => simp at hm

/-- Six samples are too few for two levels. -/
example (w : Wavelet) := C49_sizes_vec id w (List.replicate 6 3) 2 false (by simp) (by simp)

/-- C49: empty arguments and more than two dimensions are rejected. -/
theorem C49_rejects (cast : ℝ → ℝ) (w : Wavelet) (count : ℤ) (inverse : Bool) (c : ℕ) (v : ℕ → ℕ → ℝ) :
    w.transform cast .other count inverse = .error .valueError ∧ w.transform cast (.vec []) count inverse = .error .valueError ∧
      w.transform cast (.mat ⟨0, c, v⟩) count inverse = .error .valueError := by
  refine ⟨rfl, rfl, ?_⟩
  unfold Wavelet.transform
  cases hn : count.toNat with
  | zero => cases inverse <;> simp [wav.forward, wav.backward]
  | succ n => cases inverse <;> simp [wav.forward, wav.backward]

/-- C49: whatever is not accepted raises ValueError. -/
theorem C49_new_error (style : Option WaveStyle) (order : ℤ) : (∃ w, Wavelet.new style order = .ok w) ∨ Wavelet.new style order = .error .valueError := by
  unfold Wavelet.new
  cases style with
  | none => exact Or.inr rfl
  | some style =>
    dsimp only
    cases Wavelet.table style order with
    | none => exact Or.inr rfl
    | some b => exact Or.inl ⟨_, rfl⟩

example : Wavelet.new none 1 = .error .valueError ∧ Wavelet.new (some .haar) 2 = .error .valueError := ⟨rfl, rfl⟩

/-- C49: an unknown style or order is rejected; the accepted orders are those documented. -/
theorem C49_new (style : Option WaveStyle) (order : ℤ) :
    (∃ w, Wavelet.new style order = .ok w) ↔
      (style = some .coiflet ∧ order ∈ [5, 11, 17, 23, 29]) ∨ (style = some .daubechies ∧ order ∈ [3, 5, 7, 9, 11, 13, 15, 17, 19]) ∨
      (style = some .haar ∧ order = 1) ∨ (style = some .symmlet ∧ order ∈ [7, 9, 11, 13, 15, 17, 19]) := by
  constructor
  · rintro ⟨w, h⟩
    cases style with
    | none => simp [Wavelet.new] at h
    | some style =>
      obtain ⟨p, hp, -⟩ := wav_new style order w h
      unfold Wavelet.digits at hp
      split at hp <;> first | (simp; done) | simp at hp
  · intro h
    simp only [List.mem_cons, List.not_mem_nil, or_false] at h
    rcases h with ⟨rfl, h⟩ | ⟨rfl, h⟩ | ⟨rfl, h⟩ | ⟨rfl, h⟩
    · rcases h with rfl | rfl | rfl | rfl | rfl <;> exact ⟨_, rfl⟩
    · rcases h with rfl | rfl | rfl | rfl | rfl | rfl | rfl | rfl | rfl <;> exact ⟨_, rfl⟩
    · subst h; exact ⟨_, rfl⟩
    · rcases h with rfl | rfl | rfl | rfl | rfl | rfl | rfl <;> exact ⟨_, rfl⟩

example : (∃ w, Wavelet.new (some .symmlet) 7 = .ok w) ∧ ¬ ∃ w, Wavelet.new (some .symmlet) 5 = .ok w := by
  rw [C49_new, C49_new]; simp

/-- C47: the restriction to real dtypes matters.  With integers numpy truncates the bands, and `[1, 2]` comes back as `[1, 1]`. -/
theorem C47_integers : ∃ w, Wavelet.new (some .haar) 1 = .ok w ∧ w.transform truncInt (.vec [1, 2]) 1 false = .ok (.vec [1, 0]) ∧
    w.transform truncInt (.vec [1, 0]) 1 true = .ok (.vec [1, 1]) := by
  have hb : (wav.filters ([10, 10].map fun z : ℤ => (z : ℝ) / 10 ^ 1)) = ⟨([1/2, 1/2], [1/2, -(1/2)]), ([1/2, 1/2], [-(1/2), 1/2])⟩ := by
    norm_num [wav.filters, wav.negate]
  have hfir : ∀ a b x y : ℝ, wav.fir [a, b] [x, y] = [a * x, a * y + b * x] := by
    intro a b x y
    obtain ⟨h1, h2⟩ := wav.fir_spec [a, b] [x, y] (by simp) (by simp)
    apply List.ext_getElem (by simpa using h1)
    intro i hi1 hi2
    have := h2 i (by simpa using hi2)
    rw [at0_of_lt _ _ hi1] at this
    rw [this]
    have : i < 2 := by simpa using hi2
    interval_cases i <;> simp [conv, sum_range_succ, at0]
  have t0 : truncInt (0 : ℝ) = 0 := by norm_num [truncInt]
  have t1 : truncInt (1 : ℝ) = 1 := by norm_num [truncInt]
  have t2 : truncInt (1 / 2 : ℝ) = 0 := by norm_num [truncInt]
  have t3 : truncInt (3 / 2 : ℝ) = 1 := by norm_num [truncInt]
  have hA : wav.analyse truncInt ([1/2, 1/2], [1/2, -(1/2)]) [1, 2] = [1, 0] := by
    simp only [wav.analyse, hfir, wav.odds]
    norm_num [List.range_succ, t2, t3]
  have hS : wav.synthesise truncInt ([1/2, 1/2], [-(1/2), 1/2]) [1, 0] = [1, 1] := by
    simp only [wav.synthesise, wav.up]
    norm_num [List.range_succ, hfir, t1]
  refine ⟨_, rfl, ?_, ?_⟩
  · have := wav_forward_vec truncInt ⟨([1/2, 1/2], [1/2, -(1/2)]), ([1/2, 1/2], [-(1/2), 1/2])⟩ [1, 2] 1 (by norm_num) rfl (by rw [hA]; rfl)
    rw [hA, ← hb] at this
    exact this
  · have := wav_backward_vec truncInt ⟨([1/2, 1/2], [1/2, -(1/2)]), ([1/2, 1/2], [-(1/2), 1/2])⟩ [1, 0] 1 (by norm_num) rfl (by rw [hS]; rfl)
    rw [hS, ← hb] at this
    exact this

end Verif.Props
