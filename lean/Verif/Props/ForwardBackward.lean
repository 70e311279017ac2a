import Mathlib.Analysis.Complex.Norm
import Verif.Props.Fir
import Verif.Spec.Order

/-
Property C163 of FirFilter (diamondback/filters/fir_filter.py): filtering a signal, and then the reversed result with a filter in the same initial state.
-/

namespace Verif.Props

open Finset Spec

variable {R : Type*}

theorem at0_reverse [Zero R] (l : List R) (n : ℕ) (hn : n < l.length) : at0 l.reverse n = at0 l (l.length - 1 - n) := by
  simp only [at0, List.getD_eq_getElem?_getD]
  rw [List.getElem?_reverse hn]

/-- Filtering backwards in time: reverse, filter, reverse. -/
theorem fir_backward [CommSemiring R] (b w : List R) (hb : b ≠ []) (hw : w ≠ []) :
    ∃ f v f', Fir.new id b none = .ok f ∧ f.filter w.reverse = (.ok v, f') ∧ v.length = w.length ∧
      ∀ n < w.length, at0 v.reverse n = ∑ i ∈ range (w.length - n), at0 b i * at0 w (n + i) := by
  obtain ⟨f, v, f', h1, h2, h3, h4⟩ := C01_fir_convolution b w.reverse hb (by simpa using hw)
  rw [List.length_reverse] at h3 h4
  refine ⟨f, v, f', h1, h2, h3, fun n hn => ?_⟩
  have h5 : at0 v (w.length - 1 - n) = ∑ i ∈ range (w.length - 1 - n + 1), at0 b i * at0 w.reverse (w.length - 1 - n - i) := by
    rw [at0, List.getD_eq_getElem?_getD, h4 (w.length - 1 - n) (by omega), Option.getD_some]
  rw [at0_reverse v n (by omega), h3, h5, show w.length - 1 - n + 1 = w.length - n by omega]
  apply sum_congr rfl
  intro i hi
  have := mem_range.mp hi
  rw [at0_reverse w _ (by omega), show w.length - 1 - (w.length - 1 - n - i) = n + i by omega]

/-- C163.  Filtering backwards is the adjoint of filtering: against any other signal both give the same inner product. -/
theorem C163_adjoint [CommSemiring R] (b x w : List R) (hb : b ≠ []) (hx : x ≠ []) (hl : w.length = x.length) :
    ∃ f u f' v g', Fir.new id b none = .ok f ∧ f.filter x = (.ok u, f') ∧ f.filter w.reverse = (.ok v, g') ∧
      ∑ n ∈ range x.length, at0 u n * at0 w n = ∑ n ∈ range x.length, at0 x n * at0 v.reverse n := by
  have hw : w ≠ [] := by intro h; rw [h] at hl; exact hx (List.length_eq_zero_iff.mp hl.symm)
  obtain ⟨f, u, f', h1, h2, h3, h4⟩ := C01_fir_convolution b x hb hx
  obtain ⟨g, v, g', k1, k2, k3, k4⟩ := fir_backward b w hb hw
  rw [h1] at k1
  obtain rfl := Except.ok.inj k1
  refine ⟨f, u, f', v, g', h1, h2, k2, ?_⟩
  have e1 : ∀ n ∈ range x.length, at0 u n * at0 w n = ∑ i ∈ range (n + 1), at0 b i * at0 x (n - i) * at0 w n := by
    intro n hn
    rw [at0, List.getD_eq_getElem?_getD, h4 n (mem_range.mp hn), Option.getD_some, sum_mul]
  have e2 : ∀ n ∈ range x.length, at0 x n * at0 v.reverse n = ∑ i ∈ range (x.length - n), at0 b i * at0 x n * at0 w (n + i) := by
    intro n hn
    rw [k4 n (by rw [hl]; exact mem_range.mp hn), hl, mul_sum]
    exact sum_congr rfl fun i _ => by ring
  rw [sum_congr rfl e1, sum_congr rfl e2, sum_sigma', sum_sigma']
  refine sum_bij' (fun p _ => ⟨p.1 - p.2, p.2⟩) (fun p _ => ⟨p.1 + p.2, p.2⟩) ?_ ?_ ?_ ?_ ?_
  · rintro ⟨n, i⟩ h; simp only [mem_sigma, mem_range] at h ⊢; omega
  · rintro ⟨n, i⟩ h; simp only [mem_sigma, mem_range] at h ⊢; omega
  · rintro ⟨n, i⟩ h; simp only [mem_sigma, mem_range] at h ⊢; simp only [Sigma.mk.injEq, heq_eq_eq, and_true]; omega
  · rintro ⟨n, i⟩ h; simp only [mem_sigma, mem_range] at h ⊢; simp only [Sigma.mk.injEq, heq_eq_eq, and_true]; omega
  · rintro ⟨n, i⟩ h
    simp only [mem_sigma, mem_range] at h ⊢
    rw [show n - i + i = n by omega]

example := C163_adjoint [(1 : ℤ), 2] [3, 4, 5] [6, 7, 8] (by simp) (by simp) rfl

theorem twoSided_sub [Zero R] (l : List R) (n i : ℕ) (h : i ≤ n) : twoSided l ((n : ℤ) - i) = at0 l (n - i) := by
  rw [← Nat.cast_sub h]; simp [twoSided, at0]

/-- C163.  Forwards and backwards: every output is the input weighted by the autocorrelation of the coefficients, when the signal ends with at least as many
zeros as the filter remembers. -/
theorem C163_kernel [CommSemiring R] (b y : List R) (hb : b ≠ []) (hy : y ≠ []) (hend : ∀ k, y.length < k + b.length → at0 y k = 0) :
    ∃ f u f' v g', Fir.new id b none = .ok f ∧ f.filter y = (.ok u, f') ∧ f.filter u.reverse = (.ok v, g') ∧ v.length = y.length ∧
      ∀ n < y.length, at0 v.reverse n = ∑ j ∈ range b.length, ∑ i ∈ range b.length, at0 b j * at0 b i * twoSided y ((n : ℤ) + j - i) := by
  obtain ⟨f, u, f', h1, h2, h3, h4⟩ := C01_fir_convolution b y hb hy
  have hu : u ≠ [] := by intro h; rw [h] at h3; exact hy (List.length_eq_zero_iff.mp h3.symm)
  obtain ⟨g, v, g', k1, k2, k3, k4⟩ := fir_backward b u hb hu
  rw [h1] at k1
  obtain rfl := Except.ok.inj k1
  refine ⟨f, u, f', v, g', h1, h2, k2, by rw [k3, h3], fun n hn => ?_⟩
  have hfull : ∀ k, at0 u k = ∑ i ∈ range b.length, at0 b i * twoSided y ((k : ℤ) - i) := by
    intro k
    by_cases hk : k < y.length
    · rw [at0, List.getD_eq_getElem?_getD, h4 k hk, Option.getD_some]
      have a1 : ∑ i ∈ range (k + 1), at0 b i * at0 y (k - i) = ∑ i ∈ range (max (k + 1) b.length), at0 b i * twoSided y ((k : ℤ) - i) := by
        rw [← sum_subset (range_mono (le_max_left (k + 1) b.length)) (fun i _ hi => by
          have : k < i := by simpa using hi
          rw [twoSided, if_pos (by omega), mul_zero])]
        exact sum_congr rfl fun i hi => by rw [twoSided_sub y k i (by have := mem_range.mp hi; omega)]
      rw [a1]
      exact (sum_subset (range_mono (le_max_right (k + 1) b.length)) fun i _ hi => by
        rw [at0_of_le b i (by simpa using hi), zero_mul]).symm
    · rw [at0_of_le u k (by omega)]
      refine (sum_eq_zero fun i hi => ?_).symm
      have := mem_range.mp hi
      by_cases hik : i ≤ k
      · rw [twoSided_sub y k i hik, hend _ (by omega), mul_zero]
      · rw [twoSided, if_pos (by omega), mul_zero]
  rw [k4 n (by omega)]
  have a2 : ∑ i ∈ range (u.length - n), at0 b i * at0 u (n + i) = ∑ i ∈ range (max (u.length - n) b.length), at0 b i * at0 u (n + i) :=
    sum_subset (range_mono (le_max_left _ _)) fun i _ hi => by
      rw [at0_of_le u (n + i) (by have : u.length - n ≤ i := by simpa using hi
                                  omega), mul_zero]
  rw [a2, ← sum_subset (range_mono (le_max_right (u.length - n) b.length)) (fun i _ hi => by
    rw [at0_of_le b i (by simpa using hi), zero_mul])]
  apply sum_congr rfl
  intro j _
  rw [hfull, mul_sum]
  exact sum_congr rfl fun i _ => by rw [mul_assoc]; push_cast; rfl

/-- Two coefficients, and a signal whose last sample is zero. -/
example := C163_kernel [(1 : ℤ), 2] [3, 4, 0] (by simp) (by simp) (fun k hk => by
  have : 2 ≤ k := by simpa [Nat.lt_iff_add_one_le] using hk
  obtain ⟨j, rfl⟩ := Nat.exists_eq_add_of_le this
  rcases j with _ | j <;> simp [at0, Nat.add_comm 2])

/-- C163.  Filtering forwards and backwards commutes with the reversal of time, so it delays nothing: a signal which is symmetric stays symmetric about the same
point.  The signal has as many zeros at both ends as the filter remembers. -/
theorem C163_reversal [CommSemiring R] (b x : List R) (m : ℕ) (hb : b ≠ []) (hx : x ≠ []) (hm : b.length ≤ m + 1) :
    ∃ f u f' v g' r r' s s', Fir.new id b none = .ok f ∧
      f.filter (List.replicate m 0 ++ x ++ List.replicate m 0) = (.ok u, f') ∧ f.filter u.reverse = (.ok v, g') ∧
      f.filter (List.replicate m 0 ++ x.reverse ++ List.replicate m 0) = (.ok r, r') ∧ f.filter r.reverse = (.ok s, s') ∧
      s.reverse = v.reverse.reverse := by
  have hz : ∀ t : List R, ∀ k, (List.replicate m 0 ++ t ++ List.replicate m 0).length < k + b.length → at0 (List.replicate m 0 ++ t ++ List.replicate m 0) k = 0 := by
    intro t k hk
    simp only [List.length_append, List.length_replicate] at hk
    simp only [at0, List.getD_eq_getElem?_getD]
    rw [List.getElem?_append_right (by simp; omega), List.getElem?_replicate]
    split <;> rfl
  obtain ⟨f, u, f', v, g', h1, h2, h3, h4, h5⟩ := C163_kernel b (List.replicate m 0 ++ x ++ List.replicate m 0) hb (by simp [hx]) (hz x)
  obtain ⟨g, r, r', s, s', k1, k2, k3, k4, k5⟩ := C163_kernel b (List.replicate m 0 ++ x.reverse ++ List.replicate m 0) hb (by simp [hx]) (hz x.reverse)
  rw [h1] at k1
  obtain rfl := Except.ok.inj k1
  refine ⟨f, u, f', v, g', r, r', s, s', h1, h2, h3, k2, k3, ?_⟩
  set y := List.replicate m 0 ++ x ++ List.replicate m 0 with hy
  have hrev : List.replicate m 0 ++ x.reverse ++ List.replicate m 0 = y.reverse := by rw [hy]; simp
  rw [hrev] at k4 k5
  rw [List.length_reverse] at k4 k5
  have hflip : ∀ k : ℤ, twoSided y.reverse k = twoSided y ((y.length : ℤ) - 1 - k) := by
    intro k
    unfold twoSided
    change (if k < 0 then 0 else at0 y.reverse k.toNat) = if (y.length : ℤ) - 1 - k < 0 then 0 else at0 y ((y.length : ℤ) - 1 - k).toNat
    by_cases h0 : k < 0
    · rw [if_pos h0, if_neg (by omega), at0_of_le _ _ (by omega)]
    · by_cases h1 : k < y.length
      · rw [if_neg h0, if_neg (by omega), at0_reverse y _ (by omega)]
        congr 1
        omega
      · rw [if_neg h0, if_pos (by omega), at0_of_le _ _ (by rw [List.length_reverse]; omega)]
  have hext : ∀ p q : List R, p.length = q.length → (∀ n < p.length, at0 p n = at0 q n) → p = q := by
    intro p q hpq h
    apply List.ext_getElem hpq
    intro n h1 h2
    have := h n h1
    rwa [at0_of_lt p n h1, at0_of_lt q n h2] at this
  apply hext
  · simp [h4, k4]
  · intro n hn
    rw [List.length_reverse, k4] at hn
    rw [k5 n hn, at0_reverse v.reverse n (by simpa [h4] using hn), List.length_reverse, h4, h5 _ (by omega), sum_comm]
    apply sum_congr rfl
    intro i _
    apply sum_congr rfl
    intro j _
    rw [hflip, mul_comm (at0 b j)]
    congr 2
    have : ((y.length - 1 - n : ℕ) : ℤ) = (y.length : ℤ) - 1 - n := by omega
    rw [this]
    ring

example := C163_reversal [(1 : ℤ), 2] [3, 4, 5] 1 (by simp) (by simp) (by simp)

/-- C163.  A tone comes out of filtering forwards and backwards with the square of the gain of the filter and without any change of phase. -/
theorem C163_tone (b : List ℝ) (hb : b ≠ []) (N : ℕ) (hN : N ≠ 0) (c z : ℂ) (hz : ‖z‖ = 1) :
    ∃ f u f' v g', Fir.new id (b.map Complex.ofReal) none = .ok f ∧ f.filter ((List.range N).map fun n => c * z ^ n) = (.ok u, f') ∧
      f.filter u.reverse = (.ok v, g') ∧ ∀ n, b.length ≤ n + 1 → n + b.length ≤ N →
        at0 v.reverse n = ((‖∑ i ∈ range b.length, ((at0 b i : ℝ) : ℂ) * z⁻¹ ^ i‖ ^ 2 : ℝ) : ℂ) * (c * z ^ n) := by
  have hz0 : z ≠ 0 := by rintro rfl; simp at hz
  have hbm : ∀ i, at0 (b.map Complex.ofReal) i = ((at0 b i : ℝ) : ℂ) := by
    intro i
    simp only [at0, List.getD_eq_getElem?_getD, List.getElem?_map]
    cases b[i]? <;> simp
  have hx : ∀ k < N, at0 ((List.range N).map fun n => c * z ^ n) k = c * z ^ k := by
    intro k hk
    simp [at0, List.getD_eq_getElem?_getD, hk]
  obtain ⟨f, u, f', h1, h2, h3, h4⟩ := C01_fir_convolution (b.map Complex.ofReal) ((List.range N).map fun n => c * z ^ n) (by simpa using hb) (by simpa using hN)
  rw [List.length_map, List.length_range] at h3 h4
  have hu : u ≠ [] := by intro h; rw [h] at h3; exact hN h3.symm
  obtain ⟨g, v, g', k1, k2, k3, k4⟩ := fir_backward (b.map Complex.ofReal) u (by simpa using hb) hu
  rw [h1] at k1
  obtain rfl := Except.ok.inj k1
  refine ⟨f, u, f', v, g', h1, h2, k2, fun n hn1 hn2 => ?_⟩
  set H := ∑ i ∈ range b.length, ((at0 b i : ℝ) : ℂ) * z⁻¹ ^ i with hH
  have hpos : 0 < b.length := List.length_pos_iff.mpr hb
  have hshrink : ∀ (t : ℕ) (F : ℕ → ℂ), b.length ≤ t → ∑ i ∈ range t, at0 (b.map Complex.ofReal) i * F i = ∑ i ∈ range b.length, ((at0 b i : ℝ) : ℂ) * F i := by
    intro t F ht
    rw [← sum_subset (range_mono ht) fun i _ hi => by rw [hbm, at0_of_le b i (by simpa using hi), Complex.ofReal_zero, zero_mul]]
    exact sum_congr rfl fun i _ => by rw [hbm]
  have hforward : ∀ k, b.length ≤ k + 1 → k < N → at0 u k = c * z ^ k * H := by
    intro k hk1 hk2
    rw [at0, List.getD_eq_getElem?_getD, h4 k hk2, Option.getD_some, hshrink (k + 1) _ hk1, hH, mul_sum]
    apply sum_congr rfl
    intro i hi
    have := mem_range.mp hi
    rw [hx _ (by omega), inv_pow]
    have e : z ^ k = z ^ (k - i) * z ^ i := by rw [← pow_add]; congr 1; omega
    rw [e]
    have : z ^ i ≠ 0 := pow_ne_zero _ hz0
    field_simp
  rw [k4 n (by omega), hshrink (u.length - n) (fun i => at0 u (n + i)) (by omega)]
  have hconj : (starRingEnd ℂ) H = ∑ i ∈ range b.length, ((at0 b i : ℝ) : ℂ) * z ^ i := by
    rw [hH, map_sum]
    apply sum_congr rfl
    intro i _
    rw [map_mul, Complex.conj_ofReal, map_pow, map_inv₀, Complex.inv_def, Complex.normSq_eq_norm_sq, Complex.norm_conj, hz]
    simp
  have hsq : ((‖H‖ ^ 2 : ℝ) : ℂ) = H * (starRingEnd ℂ) H := by rw [Complex.mul_conj, Complex.normSq_eq_norm_sq]
  rw [hsq, hconj, mul_sum, sum_mul]
  apply sum_congr rfl
  intro i hi
  have := mem_range.mp hi
  rw [hforward (n + i) (by omega) (by omega), pow_add]
  ring

/-- A moving sum of two samples over a pulse: once gives a pulse half a sample late, forwards and backwards a pulse about the same sample. -/
example : ∃ f u f' v g', Fir.new id [(1 : ℤ), 1] none = .ok f ∧ f.filter [0, 0, 1, 0, 0] = (.ok u, f') ∧ f.filter u.reverse = (.ok v, g') ∧
    u = [0, 0, 1, 1, 0] ∧ v.reverse = [0, 1, 2, 1, 0] := by
  exact ⟨_, _, _, _, _, rfl, rfl, rfl, by decide, by decide⟩

/-- The hypotheses of `C163_kernel` hold: the signal of the example ends with as many zeros as the filter remembers. -/
example : ∀ k, [(0 : ℤ), 0, 1, 0, 0].length < k + [(1 : ℤ), 1].length → at0 [(0 : ℤ), 0, 1, 0, 0] k = 0 := by
  intro k hk
  simp only [List.length_cons, List.length_nil] at hk
  obtain ⟨j, rfl⟩ : ∃ j, k = j + 4 := ⟨k - 4, by omega⟩
  cases j <;> rfl

/-- The hypotheses of `C163_reversal` and `C163_tone` hold. -/
example : [(1 : ℝ), 1].length ≤ 3 + 1 ∧ 3 + [(1 : ℝ), 1].length ≤ 8 ∧ ‖Complex.I‖ = 1 := by simp

/-- C163.  The zeros are needed: without them the end of the first pass is lost and the result is not symmetric. -/
theorem C163_needs_zeros : ∃ f u f' v g', Fir.new id [(1 : ℤ), 1] none = .ok f ∧ f.filter [1, 1, 1] = (.ok u, f') ∧ f.filter u.reverse = (.ok v, g') ∧
    v.reverse ≠ v.reverse.reverse := by
  exact ⟨_, _, _, _, _, rfl, rfl, rfl, by decide⟩

end Verif.Props
