import Verif.Lemmas.IirState
import Verif.Props.Fir
import Mathlib.Tactic.NormNum
import Mathlib.Tactic.Positivity
import Mathlib.Data.Real.Basic

/-
Property C80: FirFilter (diamondback/filters/fir_filter.py) as a linear system.
-/

namespace Verif.Props

open Finset Spec

variable {R : Type*}

/-- The output list of a filter from its values. -/
theorem list_of_at0 [Zero R] (y : List R) (n : ℕ) (_ : y.length = n) (g : ℕ → R) (h : ∀ k < n, y[k]? = some (g k)) : ∀ k < n, at0 y k = g k := by
  intro k hk
  unfold at0
  rw [List.getD_eq_getElem?_getD, h k hk]; rfl

theorem list_ext_at0 [Zero R] (y z : List R) (hl : y.length = z.length) (h : ∀ k < y.length, at0 y k = at0 z k) : y = z := by
  apply List.ext_getElem hl
  intro k h1 h2
  have := h k h1
  rwa [at0_of_lt _ _ h1, at0_of_lt _ _ h2] at this

/-- C80.  The response to an impulse is `b`, then zero. -/
theorem C80_fir_impulse [Semiring R] (b : List R) (hb : b ≠ []) (k : ℕ) :
    ∃ f y f', Fir.new id b none = .ok f ∧ f.filter (1 :: List.replicate k 0) = (.ok y, f') ∧ y.length = k + 1 ∧ ∀ n < k + 1, at0 y n = at0 b n := by
  obtain ⟨f, y, f', h1, h2, h3, h4⟩ := C01_fir_convolution b (1 :: List.replicate k 0) hb (by simp)
  refine ⟨f, y, f', h1, h2, by simpa using h3, ?_⟩
  intro n hn
  rw [list_of_at0 y (k + 1) (by simpa using h3) _ (by simpa using h4) n hn, sum_range_succ, Nat.sub_self, at0_cons_zero, mul_one]
  rw [sum_eq_zero, zero_add]
  intro i hi
  have : n - i = (n - i - 1) + 1 := by have := mem_range.mp hi; omega
  rw [this, at0_cons_succ]
  have : at0 (List.replicate k (0 : R)) (n - i - 1) = 0 := by
    by_cases hk : n - i - 1 < k
    · rw [at0_of_lt _ _ (by simpa using hk)]; simp
    · rw [at0_of_le _ _ (by simpa using hk)]
  rw [this, mul_zero]

example := C80_fir_impulse [(1 : ℤ), 2, 3] (by simp) 5

/-- C80.  Leading zeros delay the output. -/
theorem C80_fir_time_invariant [Semiring R] (b : List R) (hb : b ≠ []) (x : List R) (hx : x ≠ []) (d : ℕ) :
    ∃ f y g g', Fir.new id b none = .ok f ∧ f.filter x = (.ok y, g) ∧ f.filter (List.replicate d 0 ++ x) = (.ok (List.replicate d 0 ++ y), g') := by
  obtain ⟨f, y, g, h1, h2, h3, h4⟩ := C01_fir_convolution b x hb hx
  obtain ⟨f2, z, g', k1, k2, k3, k4⟩ := C01_fir_convolution b (List.replicate d 0 ++ x) hb (by simp [hx])
  rw [h1] at k1
  cases k1
  refine ⟨f, y, g, g', h1, h2, ?_⟩
  rw [k2]
  congr 2
  have hy := list_of_at0 y x.length h3 _ h4
  have hz := list_of_at0 z (d + x.length) (by simpa using k3) _ (by simpa using k4)
  have happ : ∀ (l : List R) i, at0 (List.replicate d (0 : R) ++ l) i = if i < d then 0 else at0 l (i - d) := by
    intro l i
    unfold at0
    rw [List.getD_eq_getElem?_getD, List.getD_eq_getElem?_getD, List.getElem?_append]
    simp only [List.length_replicate]
    split_ifs with h
    · simp [h]
    · rfl
  apply list_ext_at0
  · simp [k3, h3]
  intro n hn
  rw [k3] at hn
  have hn' : n < d + x.length := by simpa using hn
  rw [hz n hn', happ]
  simp only [happ]
  split_ifs with h
  · apply sum_eq_zero
    intro i _
    rw [if_pos (by omega), mul_zero]
  · rw [hy (n - d) (by omega)]
    rw [← sum_subset (s₁ := range (n - d + 1)) (s₂ := range (n + 1))]
    · apply sum_congr rfl
      intro i hi
      have := mem_range.mp hi
      rw [if_neg (by omega)]
      congr 2; omega
    · intro i; simp; omega
    · intro i hi hi'
      rw [mem_range] at hi hi'
      rw [if_pos (by omega), mul_zero]

example := C80_fir_time_invariant [(1 : ℤ), 2, 3] (by simp) [4, 5] (by simp) 7

/-- C80.  Two filters in cascade are one filter whose coefficients are the convolution. -/
theorem C80_fir_cascade [CommRing R] (b c h : List R) (hb : b ≠ []) (hc : c ≠ []) (hh : h ≠ []) (hconv : ∀ n, at0 h n = conv b c n) (x : List R) (hx : x ≠ []) :
    ∃ f g e y z f' g' e', Fir.new id b none = .ok f ∧ Fir.new id c none = .ok g ∧ Fir.new id h none = .ok e ∧
      f.filter x = (.ok y, f') ∧ g.filter y = (.ok z, g') ∧ e.filter x = (.ok z, e') := by
  obtain ⟨f, y, f', h1, h2, h3, h4⟩ := C01_fir_convolution b x hb hx
  have hy : y ≠ [] := by intro q; rw [q] at h3; exact hx (List.length_eq_zero_iff.mp h3.symm)
  obtain ⟨g, z, g', k1, k2, k3, k4⟩ := C01_fir_convolution c y hc hy
  obtain ⟨e, w, e', l1, l2, l3, l4⟩ := C01_fir_convolution h x hh hx
  refine ⟨f, g, e, y, z, f', g', e', h1, k1, l1, h2, k2, ?_⟩
  rw [l2]
  congr 2
  have ey := list_of_at0 y x.length h3 _ h4
  have ez := list_of_at0 z x.length (k3.trans h3) _ (h3 ▸ k4)
  have ew := list_of_at0 w x.length l3 _ l4
  have hcoef : ∀ (u v : List R) n, PowerSeries.coeff n (ser u * ser v) = ∑ i ∈ range (n + 1), at0 u i * at0 v (n - i) := by
    intro u v n
    rw [PowerSeries.coeff_mul, Finset.Nat.sum_antidiagonal_eq_sum_range_succ_mk]; simp
  have hH : ser h = ser b * ser c := by
    ext n; rw [coeff_ser, hconv, hcoef]; rfl
  apply list_ext_at0
  · rw [l3, k3, h3]
  intro n hn
  rw [l3] at hn
  rw [ew n hn, ez n hn, ← hcoef, hH, mul_comm (ser b), mul_assoc, PowerSeries.coeff_mul, Finset.Nat.sum_antidiagonal_eq_sum_range_succ_mk]
  apply sum_congr rfl
  intro i hi
  simp only
  rw [coeff_ser, hcoef, ey (n - i) (by omega)]

/-- The coefficients `[1, 1]` twice are `[1, 2, 1]`. -/
example : ∀ n, at0 ([1, 2, 1] : List ℤ) n = conv [1, 1] [1, 1] n := by
  intro n
  rcases n with _ | _ | _ | n
  · rfl
  · rfl
  · rfl
  · rw [at0_of_le _ _ (by simp)]
    symm
    apply sum_eq_zero
    intro i hi
    by_cases h : i < 2
    · rw [at0_of_le _ (n + 1 + 1 + 1 - i) (by simp; omega), mul_zero]
    · rw [at0_of_le _ i (by simp; omega), zero_mul]

/-- C80.  The memory is finite: from any two states the outputs agree after `len(b) - 1` samples. -/
theorem C80_fir_forgets [Semiring R] (f : Fir R) (hc : f.cast = id) (s t : List R) (hs : s.length = f.b.length) (ht : t.length = f.b.length)
    (hb : 0 < f.b.length) (x : List R) (hx : x ≠ []) :
    ∃ y z g g', ({ f with s := s } : Fir R).filter x = (.ok y, g) ∧ ({ f with s := t } : Fir R).filter x = (.ok z, g') ∧ y.length = x.length ∧
      z.length = x.length ∧ ∀ n < x.length, f.b.length ≤ n + 1 → at0 y n = at0 z n := by
  obtain ⟨y, a1, a2, a3⟩ := Fir.filter_wf { f with s := s } ⟨hs.symm, hb⟩ x hx
  obtain ⟨z, b1, b2, b3⟩ := Fir.filter_wf { f with s := t } ⟨ht.symm, hb⟩ x hx
  refine ⟨y, z, _, _, a1, b1, a2, b2, ?_⟩
  intro n hn hbn
  rw [list_of_at0 y _ a2 _ a3 n hn, list_of_at0 z _ b2 _ b3 n hn]
  simp only [hc, List.map_id, id]
  rw [List.take_append_of_le_length (by simp; omega), List.take_append_of_le_length (by simp; omega)]

example := C80_fir_forgets (⟨id, [1, 2, 3], [0, 0, 0]⟩ : Fir ℤ) rfl [4, 5, 6] [7, 8, 9] rfl rfl (by simp) [1, 2, 3, 4] (by simp)

/-- The gain of a new filter on bounded signals: `∑ |b_i|`. -/
theorem C80_fir_gain (b : List ℝ) (hb : b ≠ []) (x : List ℝ) (hx : x ≠ []) (M : ℝ) (hM : ∀ v ∈ x, |v| ≤ M) :
    ∃ f y f', Fir.new id b none = .ok f ∧ f.filter x = (.ok y, f') ∧ ∀ v ∈ y, |v| ≤ (b.map (|·|)).sum * M := by
  obtain ⟨f, y, f', h1, h2, h3, h4⟩ := C01_fir_convolution b x hb hx
  refine ⟨f, y, f', h1, h2, ?_⟩
  intro v hv
  obtain ⟨n, hn, rfl⟩ := List.getElem_of_mem hv
  have hn' : n < x.length := h3 ▸ hn
  have := h4 n hn'
  rw [List.getElem?_eq_getElem hn, Option.some.injEq] at this
  have hM0 : 0 ≤ M := (abs_nonneg _).trans (hM _ (List.getElem_mem hn'))
  have hxM : ∀ i, |at0 x i| ≤ M := by
    intro i
    by_cases hi : i < x.length
    · rw [at0_of_lt _ _ hi]; exact hM _ (List.getElem_mem hi)
    · rw [at0_of_le _ _ (by omega), abs_zero]; exact hM0
  rw [this]
  have hsum : (b.map (|·|)).sum = ∑ i ∈ range b.length, |at0 b i| := by
    rw [Finset.sum_range, ← List.sum_ofFn]
    congr 1
    apply List.ext_getElem (by simp)
    intro i h1 h2
    have : i < b.length := by simpa using h1
    simp [at0_of_lt _ _ this]
  rw [hsum, sum_mul]
  refine (abs_sum_le_sum_abs _ _).trans ?_
  calc ∑ i ∈ range (n + 1), |at0 b i * at0 x (n - i)| ≤ ∑ i ∈ range (n + 1), |at0 b i| * M := by
        refine sum_le_sum fun i _ => ?_
        rw [abs_mul]; exact mul_le_mul_of_nonneg_left (hxM _) (abs_nonneg _)
    _ ≤ ∑ i ∈ range (max (n + 1) b.length), |at0 b i| * M := by
        apply sum_le_sum_of_subset_of_nonneg
        · intro i; simp; omega
        · intro i _ _; positivity
    _ = ∑ i ∈ range b.length, |at0 b i| * M := by
        symm
        apply sum_subset
        · intro i; simp; omega
        · intro i _ hi
          rw [at0_of_le _ _ (by simpa using hi), abs_zero, zero_mul]

example := C80_fir_gain [1, -2] (by simp) [1, -1] (by simp) 1 (by simp)

/-- C80.  The gain is attained: on the signs of the reversed coefficients the last output is `∑ |b_i|`. -/
theorem C80_fir_gain_attained (b : List ℝ) (hb : b ≠ []) :
    ∃ f y f', Fir.new id b none = .ok f ∧ f.filter (b.map fun v => if v < 0 then -1 else 1).reverse = (.ok y, f') ∧
      at0 y (b.length - 1) = (b.map (|·|)).sum := by
  obtain ⟨f, y, f', h1, h2, h3, h4⟩ := C01_fir_convolution b ((b.map fun v => if v < 0 then -1 else 1).reverse) hb (by simpa using hb)
  refine ⟨f, y, f', h1, h2, ?_⟩
  have hpos := List.length_pos_of_ne_nil hb
  rw [list_of_at0 y b.length (by simpa using h3) _ (by simpa using h4) _ (by omega)]
  have hsum : (b.map (|·|)).sum = ∑ i ∈ range b.length, |at0 b i| := by
    rw [Finset.sum_range, ← List.sum_ofFn]
    congr 1
    apply List.ext_getElem (by simp)
    intro i h1 h2
    have : i < b.length := by simpa using h1
    simp [at0_of_lt _ _ this]
  rw [hsum, show b.length - 1 + 1 = b.length by omega]
  apply sum_congr rfl
  intro i hi
  have hi' := mem_range.mp hi
  rw [at0_of_lt (List.reverse _) _ (by simp; omega), at0_of_lt b _ hi']
  simp only [List.getElem_map, List.getElem_reverse]
  simp only [List.length_map, show b.length - 1 - (b.length - 1 - i) = i by omega]
  split_ifs with h
  · rw [abs_of_neg h]; ring
  · rw [abs_of_nonneg (not_lt.mp h)]; ring

/-- A filter with coefficients of both signs. -/
example : (([1, -2] : List ℝ).map (fun v => if v < 0 then (-1 : ℝ) else 1)).reverse = [-1, 1] ∧ (([1, -2] : List ℝ).map (|·|)).sum = 3 := by
  constructor
  · norm_num
  · norm_num

/-- C80.  An IirFilter without recursion is the FirFilter. -/
theorem C80_iir_without_recursion [CommRing R] [DecidableEq R] (b : List R) (hb : b ≠ []) (x : List R) (hx : x ≠ []) :
    ∃ f g y f' g', Fir.new id b none = .ok f ∧ Iir.new id none (some b) none = .ok g ∧ f.filter x = (.ok y, f') ∧ g.filter x = (.ok y, g') := by
  obtain ⟨f, y, f', h1, h2, h3, h4⟩ := C01_fir_convolution b x hb hx
  obtain ⟨g, k1, kc, kfa, kfb, kfs⟩ := Iir.new_spec id [] b none (Or.inr hb) rfl
  have hpos := List.length_pos_of_ne_nil hb
  have kfb' : g.b = b := by rw [kfb]; simp [padTo]
  have kfs' : g.s = List.replicate b.length 0 := by rw [kfs]; simp [padTo]
  have kfa' : g.a = List.replicate b.length 0 := by rw [kfa]; simp [padTo]
  have ha : ∀ i, at0 g.a i = 0 := by
    intro i
    rw [kfa']
    by_cases h : i < b.length
    · rw [at0_of_lt _ _ (by simpa using h)]; simp
    · rw [at0_of_le _ _ (by simpa using h)]
  obtain ⟨z, g', q1, q2, q3⟩ := Iir.filter_series g ⟨by rw [kfa', kfb']; simp, by rw [kfb', kfs']; simp, by rw [kfb']; exact hpos⟩ kc (ha 0)
    (by rw [kfs']; intro v hv; exact List.eq_of_mem_replicate hv) x hx
  refine ⟨f, g, y, f', g', h1, ?_, h2, ?_⟩
  · rw [← k1]; rfl
  · rw [q1]
    congr 2
    have hr : recip g.a = 1 := by
      have h := mul_recip g.a (ha 0)
      have hz : ser g.a = 0 := by ext n; simp [ha]
      rw [hz] at h
      simpa using h
    apply list_ext_at0
    · rw [q2, h3]
    intro n hn
    rw [q2] at hn
    rw [list_of_at0 z _ q2 _ q3 n hn, list_of_at0 y _ h3 _ h4 n hn, hr, one_mul, kfb', PowerSeries.coeff_mul, Finset.Nat.sum_antidiagonal_eq_sum_range_succ_mk]
    simp

example := C80_iir_without_recursion [(1 : ℤ), 2, 3] (by simp) [4, 5] (by simp)

end Verif.Props
