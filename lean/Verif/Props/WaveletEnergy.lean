import Verif.Props.WaveletLinear
import Mathlib.Topology.Algebra.InfiniteSum.Order
import Mathlib.Topology.Algebra.InfiniteSum.Real

/- Property C131: the energy of the coefficients and of the results of WaveletTransform (diamondback/transforms/wavelet_transform.py), for all wavelets of the table. -/

namespace Verif.Props

open Finset Spec

theorem summable_fin {f : ℤ → ℝ} (hf : f.support.Finite) : Summable f := summable_of_hasFiniteSupport hf

theorem tsum_parity (f : ℤ → ℝ) (hf : f.support.Finite) : ∑' m, f m = (∑' k : ℤ, f (2 * k)) + ∑' k : ℤ, f (2 * k + 1) := by
  have h0 : ∀ m, f m = (if m % 2 = 0 then f m else 0) + if m % 2 = 1 then f m else 0 := by
    intro m
    rcases Int.emod_two_eq_zero_or_one m with h | h <;> simp [h]
  have s0 : (fun m : ℤ => if m % 2 = 0 then f m else 0).support.Finite := hf.subset fun m hm => by
    simp only [Function.mem_support, ne_eq, ite_eq_right_iff, Classical.not_imp] at hm; exact hm.2
  have s1 : (fun m : ℤ => if m % 2 = 1 then f m else 0).support.Finite := hf.subset fun m hm => by
    simp only [Function.mem_support, ne_eq, ite_eq_right_iff, Classical.not_imp] at hm; exact hm.2
  rw [tsum_congr h0, (summable_fin s0).tsum_add (summable_fin s1)]
  congr 1
  · rw [← (show Function.Injective (fun k : ℤ => 2 * k) from fun a b h => by simp only at h; omega).tsum_eq]
    · apply tsum_congr
      intro k
      simp
    · intro m hm
      simp only [Function.mem_support, ne_eq, ite_eq_right_iff, Classical.not_imp] at hm
      exact ⟨m / 2, by simp only; omega⟩
  · rw [← (show Function.Injective (fun k : ℤ => 2 * k + 1) from fun a b h => by simp only at h; omega).tsum_eq]
    · apply tsum_congr
      intro k
      rw [if_pos (by omega)]
    · intro m hm
      simp only [Function.mem_support, ne_eq, ite_eq_right_iff, Classical.not_imp] at hm
      exact ⟨m / 2, by simp only; omega⟩

theorem tsum_step (f : ℤ → ℝ) (c d : ℤ) (h : (c - d) % 2 = 0) : ∑' k : ℤ, f (2 * k + c) = ∑' k : ℤ, f (2 * k + d) := by
  rw [← (Equiv.addRight ((c - d) / 2)).tsum_eq (fun k : ℤ => f (2 * k + d))]
  apply tsum_congr
  intro k
  congr 1
  simp only [Equiv.coe_addRight]
  omega

/-- The correlation of a signal with itself. -/
noncomputable def autoCorr (X : ℤ → ℝ) (t : ℤ) : ℝ := ∑' m : ℤ, X m * X (m + t)

theorem prod_support (X Y : ℤ → ℝ) (hX : X.support.Finite) : (fun m => X m * Y m).support.Finite := hX.subset fun m hm => by
  simp only [Function.mem_support, ne_eq, mul_eq_zero, not_or] at hm; exact hm.1

theorem affine_support (X : ℤ → ℝ) (hX : X.support.Finite) (c : ℤ) : (fun k : ℤ => X (2 * k + c)).support.Finite := by
  have : Function.Injective (fun k : ℤ => 2 * k + c) := fun a b h => by simp only at h; omega
  exact hX.preimage (f := fun k : ℤ => 2 * k + c) this.injOn

/-- The energy of both channels of an orthogonal bank, of all integer times. -/
theorem bank_energy (n : ℕ) (hn : n % 2 = 1) (β : ℕ → ℝ) (σ : ℝ) (hσ : σ * σ = 1) (X : ℤ → ℝ) (hX : X.support.Finite) :
    (∑' k : ℤ, (∑ i ∈ range (n + 1), β i * X (2 * k + 1 - i)) ^ 2) + ∑' k : ℤ, (∑ i ∈ range (n + 1), σ * -((-1) ^ i * β (n - i)) * X (2 * k + 1 - i)) ^ 2 =
      ∑ j ∈ range (n + 1), ∑ i ∈ range (n + 1), if j % 2 = i % 2 then β j * β i * autoCorr X (0 + j - i) else 0 := by
  have expand : ∀ γ : ℕ → ℝ, ∑' k : ℤ, (∑ i ∈ range (n + 1), γ i * X (2 * k + 1 - i)) ^ 2 =
      ∑ j ∈ range (n + 1), ∑ i ∈ range (n + 1), γ j * γ i * ∑' k : ℤ, X (2 * k + (1 - j)) * X (2 * k + (1 - j) + (j - i)) := by
    intro γ
    have e : ∀ k : ℤ, (∑ i ∈ range (n + 1), γ i * X (2 * k + 1 - i)) ^ 2 =
        ∑ j ∈ range (n + 1), ∑ i ∈ range (n + 1), γ j * γ i * (X (2 * k + (1 - j)) * X (2 * k + (1 - j) + (j - i))) := by
      intro k
      rw [sq, sum_mul_sum]
      apply sum_congr rfl
      intro j _
      apply sum_congr rfl
      intro i _
      rw [show 2 * k + (1 - (j : ℤ)) = 2 * k + 1 - j by ring, show 2 * k + 1 - (j : ℤ) + (j - i) = 2 * k + 1 - i by ring]
      ring
    have hs : ∀ j i : ℕ, Summable fun k : ℤ => X (2 * k + (1 - j)) * X (2 * k + (1 - j) + (j - i)) :=
      fun j i => summable_fin (prod_support _ _ (affine_support X hX _))
    rw [tsum_congr e, Summable.tsum_finsetSum fun j _ => summable_sum fun i _ => (hs j i).mul_left _]
    apply sum_congr rfl
    intro j _
    rw [Summable.tsum_finsetSum fun i _ => (hs j i).mul_left _]
    apply sum_congr rfl
    intro i _
    rw [tsum_mul_left]
  rw [expand, expand, ← sum_range_reflect (n := n + 1)
    (fun j => ∑ i ∈ range (n + 1), σ * -((-1) ^ j * β (n - j)) * (σ * -((-1) ^ i * β (n - i))) * ∑' k : ℤ, X (2 * k + (1 - (j : ℕ))) * X (2 * k + (1 - (j : ℕ)) + (j - i)))]
  rw [← sum_add_distrib]
  apply sum_congr rfl
  intro j hj
  have hj := mem_range.mp hj
  rw [← sum_range_reflect (fun i => σ * -((-1) ^ (n + 1 - 1 - j) * β (n - (n + 1 - 1 - j))) * (σ * -((-1) ^ i * β (n - i))) *
    ∑' k : ℤ, X (2 * k + (1 - ((n + 1 - 1 - j : ℕ) : ℤ))) * X (2 * k + (1 - ((n + 1 - 1 - j : ℕ) : ℤ)) + (((n + 1 - 1 - j : ℕ) : ℤ) - i))) (n + 1)]
  rw [← sum_add_distrib]
  apply sum_congr rfl
  intro i hi
  have hi := mem_range.mp hi
  simp only [Nat.add_sub_cancel]
  rw [show n - (n - j) = j by omega, show n - (n - i) = i by omega, Nat.cast_sub (by omega : j ≤ n), Nat.cast_sub (by omega : i ≤ n)]
  set g : ℤ → ℝ := fun m => X m * X (m + (j - i)) with hg
  have hgs : g.support.Finite := prod_support _ _ hX
  have e1 : ∑' k : ℤ, X (2 * k + (1 - j)) * X (2 * k + (1 - j) + (j - i)) = ∑' k : ℤ, g (2 * k + (1 - j)) := rfl
  have e2 : ∑' k : ℤ, X (2 * k + (1 - ((n : ℤ) - j))) * X (2 * k + (1 - ((n : ℤ) - j)) + (((n : ℤ) - j) - (n - i))) = ∑' k : ℤ, g (2 * k + (1 - n + i)) := by
    apply tsum_congr
    intro k
    rw [hg]
    simp only
    rw [show 2 * k + (1 - ((n : ℤ) - j)) + (((n : ℤ) - j) - (n - i)) = 2 * k + (1 - n + i) by ring, show 2 * k + (1 - (n : ℤ) + i) + (j - i) = 2 * k + (1 - ((n : ℤ) - j)) by ring]
    ring
  have e3 : autoCorr X (0 + j - i) = (∑' k : ℤ, g (2 * k + 0)) + ∑' k : ℤ, g (2 * k + 1) := by
    unfold autoCorr
    rw [show (0 : ℤ) + j - i = j - i by ring]
    have := tsum_parity g hgs
    simpa [hg] using this
  rw [e1, e2, e3]
  have hsg : (σ * -((-1) ^ (n - j) * β j)) * (σ * -((-1) ^ (n - i) * β i)) = (-1) ^ (n - j) * (-1) ^ (n - i) * (β j * β i) := by
    linear_combination ((-1) ^ (n - j) * (-1) ^ (n - i) * (β j * β i)) * hσ
  rw [hsg, ← pow_add]
  by_cases hp : j % 2 = i % 2
  · rw [if_pos hp, Even.neg_one_pow (by rw [Nat.even_iff]; omega)]
    by_cases hj0 : j % 2 = 0
    · rw [tsum_step g (1 - j) 1 (by omega), tsum_step g (1 - n + i) 0 (by omega)]
      ring
    · rw [tsum_step g (1 - j) 0 (by omega), tsum_step g (1 - n + i) 1 (by omega)]
      ring
  · rw [if_neg hp, Odd.neg_one_pow (by rw [Nat.odd_iff]; omega), tsum_step g (1 - j) (1 - n + i) (by omega)]
    ring

theorem autoCorr_le (X : ℤ → ℝ) (hX : X.support.Finite) (t : ℤ) : |autoCorr X t| ≤ ∑' m, X m ^ 2 := by
  have s2 : Summable fun m : ℤ => X m ^ 2 := by
    simp only [sq]
    exact summable_fin (prod_support _ _ hX)
  have st : Summable fun m : ℤ => X (m + t) ^ 2 := (Equiv.addRight t).summable_iff.mpr s2
  have et : ∑' m : ℤ, X (m + t) ^ 2 = ∑' m, X m ^ 2 := (Equiv.addRight t).tsum_eq fun m => X m ^ 2
  have sp : Summable fun m : ℤ => X m * X (m + t) := summable_fin (prod_support _ _ hX)
  have h2 : ∑' m, X m ^ 2 = ∑' m : ℤ, (X m ^ 2 / 2 + X (m + t) ^ 2 / 2) := by
    rw [(s2.div_const 2).tsum_add (st.div_const 2), tsum_div_const, tsum_div_const, et]
    ring
  rw [h2]
  unfold autoCorr
  rw [abs_le]
  constructor
  · rw [← tsum_neg]
    exact ((s2.div_const 2).add (st.div_const 2)).neg.tsum_le_tsum (fun m => by nlinarith [sq_nonneg (X m + X (m + t))]) sp
  · exact sp.tsum_le_tsum (fun m => by nlinarith [sq_nonneg (X m - X (m + t))]) ((s2.div_const 2).add (st.div_const 2))

/-- Both channels, of all times, have half the energy, but for the error of the bank. -/
theorem bank_bound (n : ℕ) (hn : n % 2 = 1) (b : List ℝ) (hb : b.length = n + 1) (σ : ℝ) (hσ : σ * σ = 1) (X : ℤ → ℝ) (hX : X.support.Finite) :
    |2 * ((∑' k : ℤ, (∑ i ∈ range (n + 1), at0 b i * X (2 * k + 1 - i)) ^ 2) + ∑' k : ℤ, (∑ i ∈ range (n + 1), σ * -((-1) ^ i * at0 b (n - i)) * X (2 * k + 1 - i)) ^ 2) -
      ∑' m, X m ^ 2| ≤ bankError b * ∑' m, X m ^ 2 := by
  rw [bank_energy n hn (fun i => at0 b i) σ hσ X hX, wav.group n (fun i => at0 b i) (fun i hi => at0_of_le _ _ (by omega)) (autoCorr X) 0]
  have h0 : autoCorr X 0 = ∑' m, X m ^ 2 := by
    unfold autoCorr
    exact tsum_congr fun m => by rw [add_zero, sq]
  have e0 : ∑ k ∈ range (n + 1), at0 b k * at0 b k = shiftCorr b 0 := by
    unfold shiftCorr
    rw [hb]
    simp
  have e : ∀ l, ∑ k ∈ range (n + 1), at0 b k * at0 b (k + 2 * l) = shiftCorr b l := by
    intro l
    unfold shiftCorr
    rw [hb]
  simp only [e0, e]
  rw [h0]
  set Q := ∑' m, X m ^ 2 with hQ
  have hb1 : b.length - 1 = n := by omega
  have key : 2 * (shiftCorr b 0 * Q + ∑ l ∈ Icc 1 n, shiftCorr b l * (autoCorr X (0 + 2 * l) + autoCorr X (0 - 2 * l))) - Q =
      (2 * shiftCorr b 0 - 1) * Q + ∑ l ∈ Icc 1 n, 2 * (shiftCorr b l * (autoCorr X (0 + 2 * l) + autoCorr X (0 - 2 * l))) := by
    rw [← mul_sum]; ring
  rw [key]
  have hQ0 : 0 ≤ Q := tsum_nonneg fun m => sq_nonneg _
  refine (abs_add_le _ _).trans ?_
  unfold bankError
  rw [add_mul, abs_mul, abs_of_nonneg hQ0, hb1, sum_mul]
  gcongr
  refine (abs_sum_le_sum_abs _ _).trans ?_
  apply sum_le_sum
  intro l _
  rw [abs_mul, abs_mul, abs_of_pos (by norm_num : (0 : ℝ) < 2)]
  have h1 := autoCorr_le X hX (0 + 2 * l)
  have h2 := autoCorr_le X hX (0 - 2 * l)
  have h3 := abs_add_le (autoCorr X (0 + 2 * l)) (autoCorr X (0 - 2 * l))
  have h4 := abs_nonneg (shiftCorr b l)
  nlinarith

theorem zext_support (l : List ℝ) : (zext l).support.Finite := by
  apply (Set.finite_Icc (0 : ℤ) l.length).subset
  intro t ht
  simp only [Function.mem_support, ne_eq] at ht
  unfold zext at ht
  by_cases h0 : 0 ≤ t
  · refine ⟨h0, ?_⟩
    by_contra h
    rw [if_pos h0, at0_of_le _ _ (by omega)] at ht
    exact ht rfl
  · simp [h0] at ht

theorem sum_cast_eq (f : ℤ → ℝ) (M : ℕ) (h : ∀ t, f t ≠ 0 → 0 ≤ t ∧ t < M) : ∑' t, f t = ∑ j ∈ range M, f j := by
  rw [tsum_eq_sum (s := (range M).map Nat.castEmbedding)]
  · simp
  · intro t ht
    by_contra h'
    obtain ⟨h1, h2⟩ := h t h'
    apply ht
    simp only [mem_map, mem_range, Nat.castEmbedding_apply]
    exact ⟨t.toNat, by omega, by omega⟩

theorem sum_cast_le (f : ℤ → ℝ) (hf : f.support.Finite) (h0 : ∀ t, 0 ≤ f t) (M : ℕ) : ∑ j ∈ range M, f j ≤ ∑' t, f t := by
  have := (summable_fin hf).sum_le_tsum ((range M).map Nat.castEmbedding) fun t _ => h0 t
  simpa using this

theorem sum_zext (l : List ℝ) (n : ℕ) (hl : l.length = n) : ∑' t, zext l t ^ 2 = ∑ j ∈ range n, at0 l j ^ 2 := by
  rw [sum_cast_eq _ n]
  · simp [zext]
  · intro t ht
    unfold zext at ht
    by_cases h : 0 ≤ t
    · refine ⟨h, ?_⟩
      by_contra h'
      rw [if_pos h, at0_of_le _ _ (by omega)] at ht
      exact ht (by norm_num)
    · simp [h] at ht

theorem square_support (γ : ℕ → ℝ) (n : ℕ) (X : ℤ → ℝ) (hX : X.support.Finite) : (fun k : ℤ => (∑ i ∈ range n, γ i * X (2 * k + 1 - i)) ^ 2).support.Finite := by
  have : (⋃ i ∈ range n, (fun k : ℤ => X (2 * k + (1 - i))).support).Finite := Set.Finite.biUnion (finite_toSet _) fun i _ => affine_support X hX _
  apply this.subset
  intro k hk
  simp only [Function.mem_support, ne_eq] at hk
  simp only [Set.mem_iUnion, Function.mem_support, ne_eq]
  by_contra h
  push Not at h
  apply hk
  rw [sum_eq_zero]
  · norm_num
  · intro i hi
    have := h i hi
    rw [show 2 * k + (1 - (i : ℤ)) = 2 * k + 1 - i by ring] at this
    rw [this, mul_zero]

/-- One level of analysis of one line. -/
theorem line_analysis (n : ℕ) (hn : n % 2 = 1) (b : List ℝ × List ℝ) (hb : b.1.length = n + 1) (hh : b.2.length = n + 1) (σ : ℝ) (hσ : σ * σ = 1)
    (he : ∀ i ≤ n, at0 b.2 i = σ * -((-1) ^ i * at0 b.1 (n - i))) (M : ℕ) (hM : 0 < M) (l : List ℝ) (hl : l.length = 2 * M) :
    2 * ∑ j ∈ range (2 * M), at0 (wav.analyse id b l) j ^ 2 ≤ (1 + bankError b.1) * ∑ j ∈ range (2 * M), at0 l j ^ 2 ∧
    ((∀ j < 2 * M, 2 * M < j + n → at0 l j = 0) → (1 - bankError b.1) * ∑ j ∈ range (2 * M), at0 l j ^ 2 ≤ 2 * ∑ j ∈ range (2 * M), at0 (wav.analyse id b l) j ^ 2) := by
  have hb1 : b.1 ≠ [] := by intro h; rw [h] at hb; simp at hb
  have hb2 : b.2 ≠ [] := by intro h; rw [h] at hh; simp at hh
  have hB := bank_bound n hn b.1 hb σ hσ (zext l) (zext_support l)
  rw [sum_zext l (2 * M) hl, abs_le] at hB
  set P : ℤ → ℝ := fun k => (∑ i ∈ range (n + 1), at0 b.1 i * zext l (2 * k + 1 - i)) ^ 2 with hP
  set Q : ℤ → ℝ := fun k => (∑ i ∈ range (n + 1), σ * -((-1) ^ i * at0 b.1 (n - i)) * zext l (2 * k + 1 - i)) ^ 2 with hQ
  have e : ∑ j ∈ range (2 * M), at0 (wav.analyse id b l) j ^ 2 = ∑ j ∈ range M, P j + ∑ j ∈ range M, Q j := by
    rw [sum_halves, ← sum_add_distrib]
    apply sum_congr rfl
    intro p hp
    have hp := mem_range.mp hp
    rw [wav.at0_analyse b hb1 hb2 l M hM hl p (by omega), wav.at0_analyse b hb1 hb2 l M hM hl (M + p) (by omega), if_pos hp, if_neg (by omega),
      show M + p - M = p by omega, conv_zext, conv_zext, hb, hh, hP, hQ]
    push_cast
    congr 2
    apply sum_congr rfl
    intro i hi
    rw [he i (by have := mem_range.mp hi; omega)]
  rw [e]
  have sP : P.support.Finite := square_support _ _ _ (zext_support l)
  have sQ : Q.support.Finite := square_support (fun i => σ * -((-1) ^ i * at0 b.1 (n - i))) _ _ (zext_support l)
  have gP := sum_cast_le P sP (fun t => sq_nonneg _) M
  have gQ := sum_cast_le Q sQ (fun t => sq_nonneg _) M
  refine ⟨by nlinarith [hB.2], fun hz => ?_⟩
  have zero : ∀ (γ : ℕ → ℝ) (t : ℤ), ∑ i ∈ range (n + 1), γ i * zext l (2 * t + 1 - i) ≠ 0 → 0 ≤ t ∧ t < M := by
    intro γ t ht
    obtain ⟨i, hi, h⟩ := exists_ne_zero_of_sum_ne_zero ht
    have hi := mem_range.mp hi
    have h := right_ne_zero_of_mul h
    unfold zext at h
    split at h
    · refine ⟨by omega, ?_⟩
      by_contra hM'
      apply h
      by_cases hlt : (2 * t + 1 - (i : ℤ)).toNat < 2 * M
      · exact hz _ hlt (by omega)
      · exact at0_of_le _ _ (by omega)
    · exact absurd rfl h
  have xP := sum_cast_eq P M fun t ht => zero _ t (by intro h; apply ht; rw [hP]; simp only; rw [h]; norm_num)
  have xQ := sum_cast_eq Q M fun t ht => zero (fun i => σ * -((-1) ^ i * at0 b.1 (n - i))) t (by intro h; apply ht; rw [hQ]; simp only; rw [h]; norm_num)
  rw [xP, xQ] at hB
  nlinarith [hB.1]

theorem bankError_nonneg (b : List ℝ) : 0 ≤ bankError b := add_nonneg (abs_nonneg _) (sum_nonneg fun _ _ => mul_nonneg (by norm_num) (abs_nonneg _))

theorem line_adjoint (z a : List ℝ) (M : ℕ) (hz : z.length = 2 * M) (n : ℕ) (γ : ℕ → ℝ) :
    ∑ m ∈ range (2 * M), at0 z m * ∑ j ∈ range (n + 1), γ j * zext (wav.up (2 * M) a) ((m : ℤ) - j) =
      ∑ k ∈ range M, at0 a k * ∑ i ∈ range (n + 1), γ (n - i) * zext z (2 * k + n - i) := by
  have one : ∀ j : ℕ, ∑ m ∈ range (2 * M), at0 z m * zext (wav.up (2 * M) a) ((m : ℤ) - j) = ∑ k ∈ range M, at0 a k * zext z (2 * k + j) := by
    intro j
    have hs := zext_support z
    have e1 : ∑ m ∈ range (2 * M), at0 z m * zext (wav.up (2 * M) a) ((m : ℤ) - j) = ∑' m : ℤ, zext z m * zext (wav.up (2 * M) a) (m - j) := by
      rw [sum_cast_eq _ (2 * M)]
      · simp [zext]
      · intro t ht
        have ht := left_ne_zero_of_mul ht
        unfold zext at ht
        split at ht
        · refine ⟨by omega, ?_⟩
          by_contra h
          exact ht (at0_of_le _ _ (by omega))
        · exact absurd rfl ht
    have e2 : ∑' m : ℤ, zext z m * zext (wav.up (2 * M) a) (m - j) = ∑' m : ℤ, zext z (m + j) * zext (wav.up (2 * M) a) m := by
      rw [← (Equiv.addRight (j : ℤ)).tsum_eq]
      apply tsum_congr
      intro m
      simp
    rw [e1, e2, tsum_parity]
    · have odd : ∀ k : ℤ, zext z (2 * k + 1 + j) * zext (wav.up (2 * M) a) (2 * k + 1) = 0 := by
        intro k
        rw [mul_eq_zero]
        right
        unfold zext
        split
        · by_cases h : (2 * k + 1).toNat < 2 * M
          · rw [wav.at0_up _ _ _ h, if_neg (by omega)]
          · exact at0_of_le _ _ (by rw [wav.up_length]; omega)
        · rfl
      simp only [odd, tsum_zero, add_zero]
      rw [sum_cast_eq _ M]
      · apply sum_congr rfl
        intro k hk
        have hk := mem_range.mp hk
        rw [mul_comm]
        congr 1
        rw [zext, if_pos (by omega), wav.at0_up _ _ _ (by omega), if_pos (by omega)]
        congr 1
        omega
      · intro t ht
        have ht := right_ne_zero_of_mul ht
        unfold zext at ht
        split at ht
        · refine ⟨by omega, ?_⟩
          by_contra h
          exact ht (at0_of_le _ _ (by rw [wav.up_length]; omega))
        · exact absurd rfl ht
    · exact (zext_support (wav.up (2 * M) a)).subset fun m hm => right_ne_zero_of_mul hm
  simp only [mul_sum]
  rw [sum_comm, sum_comm (s := range M)]
  rw [← sum_range_reflect]
  apply sum_congr rfl
  intro i hi
  have hi := mem_range.mp hi
  have := one (n - i)
  simp only [Nat.add_sub_cancel]
  rw [show ∑ m ∈ range (2 * M), at0 z m * (γ (n - i) * zext (wav.up (2 * M) a) ((m : ℤ) - (n - i : ℕ))) =
    γ (n - i) * ∑ m ∈ range (2 * M), at0 z m * zext (wav.up (2 * M) a) ((m : ℤ) - (n - i : ℕ)) by rw [mul_sum]; apply sum_congr rfl; intro m _; ring, this, mul_sum]
  apply sum_congr rfl
  intro k _
  rw [Nat.cast_sub (by omega), show 2 * (k : ℤ) + (n - i) = 2 * k + n - i by ring]
  ring

/-- One level of synthesis of one line. -/
theorem line_synthesis (n : ℕ) (hn : n % 2 = 1) (b : List ℝ) (hb : b.length = n + 1) (d : List ℝ × List ℝ) (hv : d.1.length = n + 1) (hg : d.2.length = n + 1) (σ : ℝ) (hσ : σ * σ = 1)
    (ev : ∀ j ≤ n, at0 d.1 j = at0 b (n - j)) (eg : ∀ j ≤ n, at0 d.2 j = σ * ((-1) ^ j * at0 b j)) (M : ℕ) (hM : 0 < M) (l : List ℝ) (hl : l.length = 2 * M) :
    ∑ j ∈ range (2 * M), at0 (wav.synthesise id d l) j ^ 2 ≤ 2 * (1 + bankError b) * ∑ j ∈ range (2 * M), at0 l j ^ 2 := by
  have hd1 : d.1 ≠ [] := by intro h; rw [h] at hv; simp at hv
  have hd2 : d.2 ≠ [] := by intro h; rw [h] at hg; simp at hg
  have hne : l ≠ [] := by intro h; rw [h] at hl; simp at hl; omega
  obtain ⟨q, hq⟩ : ∃ q, n = 2 * q + 1 := ⟨n / 2, by omega⟩
  set z := wav.synthesise id d l with hz
  have hzl : z.length = 2 * M := by rw [hz, wav.synthesise_length d hd1 hd2 id l hne, hl]
  have hB := bank_bound n hn b hb σ hσ (zext z) (zext_support z)
  rw [sum_zext z (2 * M) hzl, abs_le] at hB
  set p : ℤ → ℝ := fun k => ∑ i ∈ range (n + 1), at0 b i * zext z (2 * k + 1 - i) with hp
  set r : ℤ → ℝ := fun k => ∑ i ∈ range (n + 1), σ * -((-1) ^ i * at0 b (n - i)) * zext z (2 * k + 1 - i) with hr
  have a1 := line_adjoint z (l.take M) M hzl n (fun j => at0 d.1 j)
  have a2 := line_adjoint z (l.drop M) M hzl n (fun j => at0 d.2 j)
  have f1 : ∀ k ∈ range M, at0 (l.take M) k * ∑ i ∈ range (n + 1), at0 d.1 (n - i) * zext z (2 * k + n - i) = at0 l k * p (k + q) := by
    intro k hk
    have hk := mem_range.mp hk
    have e : at0 (l.take M) k = at0 l k := by simp only [at0, List.getD_eq_getElem?_getD, List.getElem?_take, if_pos hk]
    rw [e, hp]
    simp only
    congr 1
    apply sum_congr rfl
    intro i hi
    have hi := mem_range.mp hi
    rw [ev _ (by omega), show n - (n - i) = i by omega]
    congr 2
    rw [hq]; push_cast; ring
  have f2 : ∀ k ∈ range M, at0 (l.drop M) k * ∑ i ∈ range (n + 1), at0 d.2 (n - i) * zext z (2 * k + n - i) = at0 l (M + k) * r (k + q) := by
    intro k _
    have e : at0 (l.drop M) k = at0 l (M + k) := by simp only [at0, List.getD_eq_getElem?_getD, List.getElem?_drop]
    rw [e, hr]
    simp only
    congr 1
    apply sum_congr rfl
    intro i hi
    have hi := mem_range.mp hi
    rw [eg _ (by omega)]
    have hs : (-1 : ℝ) ^ (n - i) = -(-1) ^ i := by
      have h1 : (-1 : ℝ) ^ (n - i) * (-1) ^ i = -1 := by rw [← pow_add, show n - i + i = n by omega, Odd.neg_one_pow (Nat.odd_iff.mpr hn)]
      have h2 : (-1 : ℝ) ^ i * (-1) ^ i = 1 := by rw [← pow_add, Even.neg_one_pow ⟨i, rfl⟩]
      linear_combination (-1 : ℝ) ^ i * h1 - (-1 : ℝ) ^ (n - i) * h2
    rw [hs, show 2 * (k : ℤ) + n - i = 2 * (k + q) + 1 - i by rw [hq]; push_cast; ring]
    ring
  rw [sum_congr rfl f1] at a1
  rw [sum_congr rfl f2] at a2
  have total : ∑ j ∈ range (2 * M), at0 z j ^ 2 = 2 * ∑ k ∈ range M, at0 l k * p (k + q) + 2 * ∑ k ∈ range M, at0 l (M + k) * r (k + q) := by
    rw [← a1, ← a2, mul_sum, mul_sum, ← sum_add_distrib]
    apply sum_congr rfl
    intro m hm
    have hm := mem_range.mp hm
    have e := wav.at0_synthesise d hd1 hd2 l hne m (by omega)
    rw [← hz, conv_zext, conv_zext, hv, hg, hl, show 2 * M / 2 = M by omega] at e
    rw [sq]
    nth_rw 2 [e]
    ring
  have sp : (fun k => p k ^ 2).support.Finite := square_support _ _ _ (zext_support z)
  have sr : (fun k => r k ^ 2).support.Finite := square_support (fun i => σ * -((-1) ^ i * at0 b (n - i))) _ _ (zext_support z)
  have shift : ∀ f : ℤ → ℝ, (fun k => f k ^ 2).support.Finite → ∑ k ∈ range M, f (k + q) ^ 2 ≤ ∑' k, f k ^ 2 := by
    intro f hf
    rw [← (Equiv.addRight (q : ℤ)).tsum_eq]
    refine sum_cast_le (fun k => f (k + q) ^ 2) ?_ (fun t => sq_nonneg _) M
    exact hf.preimage (f := fun k : ℤ => k + q) (fun a _ b _ h => by simpa using h)
  have g1 := shift p sp
  have g2 := shift r sr
  set E := 1 + bankError b with hE
  have hE1 : 1 ≤ E := by have := bankError_nonneg b; linarith
  have young : ∀ x y : ℝ, 2 * (x * y) ≤ E * x ^ 2 + y ^ 2 / E := by
    intro x y
    have : E * x ^ 2 + y ^ 2 / E - 2 * (x * y) = (E * x - y) ^ 2 / E := by field_simp; ring
    have h2 : 0 ≤ (E * x - y) ^ 2 / E := by positivity
    linarith
  have y1 : 2 * ∑ k ∈ range M, at0 l k * p (k + q) ≤ E * ∑ k ∈ range M, at0 l k ^ 2 + (∑ k ∈ range M, p (k + q) ^ 2) / E := by
    rw [mul_sum, mul_sum, sum_div, ← sum_add_distrib]
    exact sum_le_sum fun k _ => young _ _
  have y2 : 2 * ∑ k ∈ range M, at0 l (M + k) * r (k + q) ≤ E * ∑ k ∈ range M, at0 l (M + k) ^ 2 + (∑ k ∈ range M, r (k + q) ^ 2) / E := by
    rw [mul_sum, mul_sum, sum_div, ← sum_add_distrib]
    exact sum_le_sum fun k _ => young _ _
  have hsum : ∑ j ∈ range (2 * M), at0 l j ^ 2 = ∑ k ∈ range M, at0 l k ^ 2 + ∑ k ∈ range M, at0 l (M + k) ^ 2 := by rw [sum_halves, sum_add_distrib]
  have hpr : (∑ k ∈ range M, p (k + q) ^ 2) / E + (∑ k ∈ range M, r (k + q) ^ 2) / E ≤ (∑ j ∈ range (2 * M), at0 z j ^ 2) / 2 := by
    rw [← add_div, div_le_iff₀ (by linarith)]
    have := hB.2
    nlinarith
  rw [hsum]
  nlinarith

/-- A map of lines of length `n` whose values have at most `κ` times the energy. -/
def wav.EnergyLe (A : List ℝ → List ℝ) (n : ℕ) (κ : ℝ) : Prop := ∀ x : ℕ → ℝ, ∑ j ∈ range n, at0 (A ((List.range n).map x)) j ^ 2 ≤ κ * ∑ j ∈ range n, x j ^ 2

theorem wav.mapRows_le (A : List ℝ → List ℝ) (r c : ℕ) (κ : ℝ) (hA : wav.EnergyLe A c κ) (u : ℕ → ℕ → ℝ) :
    ∑ i ∈ range r, ∑ j ∈ range c, wav.mapRows A r c u i j ^ 2 ≤ κ * ∑ i ∈ range r, ∑ j ∈ range c, u i j ^ 2 := by
  rw [mul_sum]
  apply sum_le_sum
  intro i hi
  refine le_trans (le_of_eq ?_) (hA (fun j => u i j))
  apply sum_congr rfl
  intro j hj
  unfold wav.mapRows
  rw [if_pos ⟨mem_range.mp hi, mem_range.mp hj⟩]
  rfl

theorem wav.mapCols_le (A : List ℝ → List ℝ) (r c : ℕ) (κ : ℝ) (hA : wav.EnergyLe A r κ) (u : ℕ → ℕ → ℝ) :
    ∑ i ∈ range r, ∑ j ∈ range c, wav.mapCols A r c u i j ^ 2 ≤ κ * ∑ i ∈ range r, ∑ j ∈ range c, u i j ^ 2 := by
  rw [sum_comm, sum_comm (s := range r) (t := range c) (f := fun i j => u i j ^ 2), mul_sum]
  apply sum_le_sum
  intro j hj
  refine le_trans (le_of_eq ?_) (hA (fun i => u i j))
  apply sum_congr rfl
  intro i hi
  unfold wav.mapCols
  rw [if_pos ⟨mem_range.mp hi, mem_range.mp hj⟩]
  rfl

/-- The factor of the errors of one level. -/
noncomputable def wav.excess (E : ℝ) (r c : ℕ) : ℝ := (if r > 1 then E else 1) * (if c > 1 then E else 1)

theorem wav.excess_half (E : ℝ) (hE : 1 ≤ E) (r c : ℕ) : wav.excess E (max (r / 2) 1) (max (c / 2) 1) ≤ wav.excess E r c := by
  unfold wav.excess
  have : ∀ d : ℕ, (if max (d / 2) 1 > 1 then E else 1) ≤ (if d > 1 then E else 1) ∧ (0 : ℝ) ≤ (if d > 1 then E else 1) := by
    intro d
    by_cases h : d > 1
    · rw [if_pos h]; split <;> constructor <;> linarith
    · rw [if_neg h, if_neg (by omega)]; norm_num
  exact mul_le_mul (this r).1 (this c).1 (by split <;> linarith) (this r).2

theorem wav.fstep_le (A : List ℝ → List ℝ) (E : ℝ) (hE : 1 ≤ E) (hA : ∀ M, 0 < M → wav.EnergyLe A (2 * M) (E / 2)) (r c count : ℕ) (hr : wav.Fits r (count + 1)) (hc : wav.Fits c (count + 1))
    (u : ℕ → ℕ → ℝ) : wav.gain r c * ∑ i ∈ range r, ∑ j ∈ range c, wav.fstep A r c u i j ^ 2 ≤ wav.excess E r c * ∑ i ∈ range r, ∑ j ∈ range c, u i j ^ 2 := by
  have h1 : c > 1 → wav.EnergyLe A c (E / 2) := by
    intro h; obtain ⟨M, hM, e⟩ := hc.even h; rw [e]; exact hA M hM
  have h2 : r > 1 → wav.EnergyLe A r (E / 2) := by
    intro h; obtain ⟨M, hM, e⟩ := hr.even h; rw [e]; exact hA M hM
  unfold wav.fstep wav.gain wav.excess
  by_cases hc1 : c > 1 <;> by_cases hr1 : r > 1 <;> simp only [hc1, hr1, if_true, if_false]
  · have a := wav.mapCols_le A r c _ (h2 hr1) (wav.mapRows A r c u)
    have b := wav.mapRows_le A r c _ (h1 hc1) u
    nlinarith
  · have b := wav.mapRows_le A r c _ (h1 hc1) u
    linarith
  · have a := wav.mapCols_le A r c _ (h2 hr1) u
    linarith
  · linarith

theorem wav.bstep_le (S : List ℝ → List ℝ) (E : ℝ) (hE : 1 ≤ E) (hS : ∀ M, 0 < M → wav.EnergyLe S (2 * M) (2 * E)) (r c count : ℕ) (hr : wav.Fits r (count + 1)) (hc : wav.Fits c (count + 1))
    (u : ℕ → ℕ → ℝ) : ∑ i ∈ range r, ∑ j ∈ range c, wav.bstep S r c u i j ^ 2 ≤ wav.excess E r c * (wav.gain r c * ∑ i ∈ range r, ∑ j ∈ range c, u i j ^ 2) := by
  have h1 : c > 1 → wav.EnergyLe S c (2 * E) := by
    intro h; obtain ⟨M, hM, e⟩ := hc.even h; rw [e]; exact hS M hM
  have h2 : r > 1 → wav.EnergyLe S r (2 * E) := by
    intro h; obtain ⟨M, hM, e⟩ := hr.even h; rw [e]; exact hS M hM
  unfold wav.bstep wav.gain wav.excess
  by_cases hc1 : c > 1 <;> by_cases hr1 : r > 1 <;> simp only [hc1, hr1, if_true, if_false]
  · have a := wav.mapCols_le S r c _ (h2 hr1) u
    have b := wav.mapRows_le S r c _ (h1 hc1) (wav.mapCols S r c u)
    nlinarith
  · have b := wav.mapRows_le S r c _ (h1 hc1) u
    linarith
  · have a := wav.mapCols_le S r c _ (h2 hr1) u
    linarith
  · linarith

theorem block_le (r c a b : ℕ) (ha : a ≤ r) (hb : b ≤ c) (v : ℕ → ℕ → ℝ) : ∑ i ∈ range a, ∑ j ∈ range b, v i j ^ 2 ≤ ∑ i ∈ range r, ∑ j ∈ range c, v i j ^ 2 := by
  rw [← sum_block r c a b ha hb]
  refine sum_le_sum fun i _ => sum_le_sum fun j _ => ?_
  split
  · exact le_rfl
  · exact sq_nonneg _

theorem gain_pos (r c : ℕ) : 1 ≤ wav.gain r c := by
  unfold wav.gain
  split <;> split <;> norm_num

theorem wav.forward_le (b : List ℝ × List ℝ) (E K : ℝ) (hE : 1 ≤ E) (hK : 1 ≤ K) (hb : ∀ M, 0 < M → wav.EnergyLe (wav.analyse id b) (2 * M) (E / 2)) (count : ℕ) :
    ∀ (r c : ℕ) (u : ℕ → ℕ → ℝ), wav.excess E r c ≤ K → wav.Fits r (count + 1) → wav.Fits c (count + 1) → ∃ y, wav.forward id b (count + 1) ⟨r, c, u⟩ = .ok ⟨r, c, y⟩ ∧
      ∑ i ∈ range r, ∑ j ∈ range c, wav.weight (count + 1) r c i j * y i j ^ 2 ≤ K ^ (count + 1) * ∑ i ∈ range r, ∑ j ∈ range c, u i j ^ 2 := by
  induction count with
  | zero =>
    intro r c u hx hr hc
    rw [wav.forward_eq _ _ _ _ _ _ hr hc, if_pos rfl]
    refine ⟨_, rfl, ?_⟩
    have := wav.fstep_le _ E hE hb r c 0 hr hc u
    have hu : 0 ≤ ∑ i ∈ range r, ∑ j ∈ range c, u i j ^ 2 := sum_nonneg fun _ _ => sum_nonneg fun _ _ => sq_nonneg _
    have e : ∀ i j, wav.weight (0 + 1) r c i j = wav.gain r c := by intro i j; simp [wav.weight]
    simp only [e, ← mul_sum]
    refine this.trans ?_
    rw [zero_add, pow_one]
    exact mul_le_mul_of_nonneg_right hx hu
  | succ n ih =>
    intro r c u hx hr hc
    obtain ⟨q, h1, h2⟩ := ih _ _ (wav.fstep (wav.analyse id b) r c u) ((wav.excess_half E hE r c).trans hx) hr.half.1 hc.half.1
    rw [wav.forward_eq _ _ _ _ _ _ hr hc, if_neg (by omega), h1]
    refine ⟨_, rfl, ?_⟩
    have hs := wav.fstep_le _ E hE hb r c (n + 1) hr hc u
    generalize wav.fstep (wav.analyse id b) r c u = v at *
    have e : ∀ i j, wav.weight (n + 1 + 1) r c i j * wav.patch (max (r / 2) 1) (max (c / 2) 1) q v i j ^ 2 = wav.gain r c * (v i j ^ 2 +
        if i < max (r / 2) 1 ∧ j < max (c / 2) 1 then wav.weight (n + 1) (max (r / 2) 1) (max (c / 2) 1) i j * q i j ^ 2 - v i j ^ 2 else 0) := by
      intro i j
      rw [wav.weight]
      unfold wav.patch
      by_cases h : i < max (r / 2) 1 ∧ j < max (c / 2) 1
      · simp only [if_pos h]; ring
      · simp only [if_neg h]; ring
    simp only [e, ← mul_sum, sum_add_distrib]
    rw [sum_block r c _ _ hr.half.2 hc.half.2]
    simp only [sum_sub_distrib]
    have hbl := block_le r c _ _ hr.half.2 hc.half.2 v
    have hu : 0 ≤ ∑ i ∈ range r, ∑ j ∈ range c, u i j ^ 2 := sum_nonneg fun _ _ => sum_nonneg fun _ _ => sq_nonneg _
    have hg := gain_pos r c
    have hp : 1 ≤ K ^ (n + 1) := one_le_pow₀ hK
    have t1 : ∑ i ∈ range r, ∑ j ∈ range c, v i j ^ 2 + (∑ i ∈ range (max (r / 2) 1), ∑ j ∈ range (max (c / 2) 1), wav.weight (n + 1) (max (r / 2) 1) (max (c / 2) 1) i j * q i j ^ 2 -
        ∑ i ∈ range (max (r / 2) 1), ∑ j ∈ range (max (c / 2) 1), v i j ^ 2) ≤ K ^ (n + 1) * ∑ i ∈ range r, ∑ j ∈ range c, v i j ^ 2 := by
      nlinarith [mul_le_mul_of_nonneg_left hbl (sub_nonneg.mpr hp)]
    calc _ ≤ wav.gain r c * (K ^ (n + 1) * ∑ i ∈ range r, ∑ j ∈ range c, v i j ^ 2) := mul_le_mul_of_nonneg_left t1 (by linarith)
      _ = K ^ (n + 1) * (wav.gain r c * ∑ i ∈ range r, ∑ j ∈ range c, v i j ^ 2) := by ring
      _ ≤ K ^ (n + 1) * (wav.excess E r c * ∑ i ∈ range r, ∑ j ∈ range c, u i j ^ 2) := mul_le_mul_of_nonneg_left hs (by linarith)
      _ ≤ K ^ (n + 1) * (K * ∑ i ∈ range r, ∑ j ∈ range c, u i j ^ 2) := mul_le_mul_of_nonneg_left (mul_le_mul_of_nonneg_right hx hu) (by linarith)
      _ = _ := by ring

theorem wav.weight_pos (count : ℕ) : ∀ r c i j, 0 ≤ wav.weight count r c i j := by
  induction count with
  | zero => intro r c i j; rw [wav.weight]; norm_num
  | succ n ih =>
    intro r c i j
    rw [wav.weight]
    have := gain_pos r c
    split
    · exact mul_nonneg (by linarith) (ih _ _ _ _)
    · linarith

theorem wav.backward_le (d : List ℝ × List ℝ) (E K : ℝ) (hE : 1 ≤ E) (hK : 1 ≤ K) (hd : ∀ M, 0 < M → wav.EnergyLe (wav.synthesise id d) (2 * M) (2 * E)) (count : ℕ) :
    ∀ (r c : ℕ) (u : ℕ → ℕ → ℝ), wav.excess E r c ≤ K → wav.Fits r (count + 1) → wav.Fits c (count + 1) → ∃ y, wav.backward id d (count + 1) ⟨r, c, u⟩ = .ok ⟨r, c, y⟩ ∧
      ∑ i ∈ range r, ∑ j ∈ range c, y i j ^ 2 ≤ K ^ (count + 1) * ∑ i ∈ range r, ∑ j ∈ range c, wav.weight (count + 1) r c i j * u i j ^ 2 := by
  induction count with
  | zero =>
    intro r c u hx hr hc
    rw [wav.backward_eq _ _ _ _ _ _ hr hc, if_pos rfl]
    refine ⟨_, rfl, ?_⟩
    have := wav.bstep_le _ E hE hd r c 0 hr hc u
    have hu : 0 ≤ ∑ i ∈ range r, ∑ j ∈ range c, u i j ^ 2 := sum_nonneg fun _ _ => sum_nonneg fun _ _ => sq_nonneg _
    have e : ∀ i j, wav.weight (0 + 1) r c i j = wav.gain r c := by intro i j; simp [wav.weight]
    simp only [e, ← mul_sum]
    refine this.trans ?_
    rw [zero_add, pow_one]
    exact mul_le_mul_of_nonneg_right hx (mul_nonneg (by linarith [gain_pos r c]) hu)
  | succ n ih =>
    intro r c u hx hr hc
    obtain ⟨q, h1, h2⟩ := ih _ _ u ((wav.excess_half E hE r c).trans hx) hr.half.1 hc.half.1
    rw [wav.backward_eq _ _ _ _ _ _ hr hc, if_neg (by omega), h1]
    refine ⟨_, rfl, ?_⟩
    have hs := wav.bstep_le _ E hE hd r c (n + 1) hr hc (wav.patch (max (r / 2) 1) (max (c / 2) 1) q u)
    refine hs.trans ?_
    have e0 : ∀ i j, wav.patch (max (r / 2) 1) (max (c / 2) 1) q u i j ^ 2 = u i j ^ 2 +
        if i < max (r / 2) 1 ∧ j < max (c / 2) 1 then q i j ^ 2 - u i j ^ 2 else 0 := by
      intro i j
      unfold wav.patch
      by_cases h : i < max (r / 2) 1 ∧ j < max (c / 2) 1
      · simp only [if_pos h]; ring
      · simp only [if_neg h]; ring
    have e : ∀ i j, wav.weight (n + 1 + 1) r c i j * u i j ^ 2 = wav.gain r c * (u i j ^ 2 +
        if i < max (r / 2) 1 ∧ j < max (c / 2) 1 then wav.weight (n + 1) (max (r / 2) 1) (max (c / 2) 1) i j * u i j ^ 2 - u i j ^ 2 else 0) := by
      intro i j
      rw [wav.weight]
      by_cases h : i < max (r / 2) 1 ∧ j < max (c / 2) 1
      · simp only [if_pos h]; ring
      · simp only [if_neg h]; ring
    simp only [e, e0, ← mul_sum, sum_add_distrib]
    rw [sum_block r c _ _ hr.half.2 hc.half.2, sum_block r c _ _ hr.half.2 hc.half.2]
    simp only [sum_sub_distrib]
    have hbl := block_le r c _ _ hr.half.2 hc.half.2 u
    have hg := gain_pos r c
    have hp : 1 ≤ K ^ (n + 1) := one_le_pow₀ hK
    set W := ∑ i ∈ range (max (r / 2) 1), ∑ j ∈ range (max (c / 2) 1), wav.weight (n + 1) (max (r / 2) 1) (max (c / 2) 1) i j * u i j ^ 2
    set B := ∑ i ∈ range (max (r / 2) 1), ∑ j ∈ range (max (c / 2) 1), u i j ^ 2
    set T := ∑ i ∈ range r, ∑ j ∈ range c, u i j ^ 2
    have hW : 0 ≤ W := sum_nonneg fun _ _ => sum_nonneg fun _ _ => mul_nonneg (wav.weight_pos _ _ _ _ _) (sq_nonneg _)
    have t1 : T + (∑ i ∈ range (max (r / 2) 1), ∑ j ∈ range (max (c / 2) 1), q i j ^ 2 - B) ≤ K ^ (n + 1) * (T + (W - B)) := by
      nlinarith [mul_nonneg (sub_nonneg.mpr hp) (sub_nonneg.mpr hbl)]
    have t2 : 0 ≤ T + (W - B) := by linarith
    calc _ ≤ wav.excess E r c * (wav.gain r c * (K ^ (n + 1) * (T + (W - B)))) := by
          refine mul_le_mul_of_nonneg_left (mul_le_mul_of_nonneg_left t1 (by linarith)) ?_
          unfold wav.excess
          split <;> split <;> nlinarith
      _ ≤ K * (wav.gain r c * (K ^ (n + 1) * (T + (W - B)))) :=
          mul_le_mul_of_nonneg_right hx (mul_nonneg (by linarith) (mul_nonneg (by linarith) t2))
      _ = _ := by ring

/-- The filters of a wavelet, from its low pass filter of analysis. -/
theorem wav_bank (style : WaveStyle) (order : ℤ) (w : Wavelet) (h : Wavelet.new (some style) order = .ok w) :
    ∃ (n : ℕ) (σ : ℝ), (n : ℤ) = order ∧ n % 2 = 1 ∧ σ * σ = 1 ∧ w.analysis.1.length = n + 1 ∧ w.analysis.2.length = n + 1 ∧ w.synthesis.1.length = n + 1 ∧ w.synthesis.2.length = n + 1 ∧
      (∀ i ≤ n, at0 w.analysis.2 i = σ * -((-1) ^ i * at0 w.analysis.1 (n - i))) ∧ (∀ j ≤ n, at0 w.synthesis.1 j = at0 w.analysis.1 (n - j)) ∧
      (∀ j ≤ n, at0 w.synthesis.2 j = σ * ((-1) ^ j * at0 w.analysis.1 j)) := by
  obtain ⟨p, hp, rfl⟩ := wav_new style order w h
  obtain ⟨o1, o2, o3, o4⟩ := C48_orders_odd style order p hp
  obtain ⟨n, rfl⟩ : ∃ n : ℕ, order = n := ⟨order.toNat, by omega⟩
  set c := p.1.map fun z : ℤ => (z : ℝ) / 10 ^ p.2 with hc
  have hcl : c.length = n + 1 := by rw [hc, List.length_map]; omega
  obtain ⟨σ, f1, f2, f3, f4, f5, f6, f7, f8⟩ := wav.filters_spec c n hcl (by omega) (by
    intro h1 i j hi hj
    have e := o4 (by omega)
    have : ∀ i, i ≤ 1 → at0 c i = 10 / 10 ^ p.2 := by
      intro i hi
      rw [hc, e]
      interval_cases i <;> simp [at0]
    rw [this i hi, this j hj])
  exact ⟨n, σ, rfl, by omega, f1, by rw [f2, List.length_map, hcl], f3, by rw [f4]; simp [hcl], f5, by rw [f2]; exact f6, by rw [f2]; exact f7, by rw [f2]; exact f8⟩

theorem wav_analysis_le (style : WaveStyle) (order : ℤ) (w : Wavelet) (h : Wavelet.new (some style) order = .ok w) (M : ℕ) (hM : 0 < M) :
    wav.EnergyLe (wav.analyse id w.analysis) (2 * M) ((1 + bankError w.analysis.1) / 2) := by
  obtain ⟨n, σ, -, hn, hσ, l1, l2, -, -, e1, -, -⟩ := wav_bank style order w h
  intro x
  have := (line_analysis n hn w.analysis l1 l2 σ hσ e1 M hM ((List.range (2 * M)).map x) (by simp)).1
  have e : ∑ j ∈ range (2 * M), at0 ((List.range (2 * M)).map x) j ^ 2 = ∑ j ∈ range (2 * M), x j ^ 2 := by
    apply sum_congr rfl
    intro j hj
    rw [at0_range_map, if_pos (mem_range.mp hj)]
  rw [e] at this
  linarith

theorem wav_synthesis_le (style : WaveStyle) (order : ℤ) (w : Wavelet) (h : Wavelet.new (some style) order = .ok w) (M : ℕ) (hM : 0 < M) :
    wav.EnergyLe (wav.synthesise id w.synthesis) (2 * M) (2 * (1 + bankError w.analysis.1)) := by
  obtain ⟨n, σ, -, hn, hσ, l1, l2, l3, l4, -, e2, e3⟩ := wav_bank style order w h
  intro x
  have := line_synthesis n hn w.analysis.1 l1 w.synthesis l3 l4 σ hσ e2 e3 M hM ((List.range (2 * M)).map x) (by simp)
  have e : ∑ j ∈ range (2 * M), at0 ((List.range (2 * M)).map x) j ^ 2 = ∑ j ∈ range (2 * M), x j ^ 2 := by
    apply sum_congr rfl
    intro j hj
    rw [at0_range_map, if_pos (mem_range.mp hj)]
  rw [e] at this
  exact this

/-- C131.  The factor of the bounds: one, but for the error of the coefficients of the table. -/
theorem C131_factor (style : WaveStyle) (order : ℤ) (w : Wavelet) (h : Wavelet.new (some style) order = .ok w) :
    1 ≤ 1 + bankError w.analysis.1 ∧ 1 + bankError w.analysis.1 ≤ 1.000105 ∧ (¬ (style = .coiflet ∧ order = 5) → ¬ (style = .daubechies ∧ order = 11) → 1 + bankError w.analysis.1 ≤ 1.000000033) ∧ (style = .haar → 1 + bankError w.analysis.1 = 1) := by
  obtain ⟨h1, -, h3, h4⟩ := C48_table style order w h
  refine ⟨by have := bankError_nonneg w.analysis.1; linarith, by norm_num at h1 ⊢; linarith, fun a b => ?_, fun a => by rw [h4 a]; norm_num⟩
  have := h3 a b
  norm_num at this ⊢
  linarith

example : (∃ w, Wavelet.new (some .coiflet) 5 = .ok w) ∧ (∃ w, Wavelet.new (some .symmlet) 7 = .ok w) ∧ ∃ w, Wavelet.new (some .haar) 1 = .ok w := ⟨⟨_, rfl⟩, ⟨_, rfl⟩, ⟨_, rfl⟩⟩

/-- C131.  Analysis of an array does not amplify: an element which is the result of `k` levels, of rows and columns, counts `4 ^ k` times. -/
theorem C131_analysis_mat (style : WaveStyle) (order : ℤ) (w : Wavelet) (h : Wavelet.new (some style) order = .ok w) (r c count : ℕ) (u : ℕ → ℕ → ℝ) (hcount : 0 < count)
    (hr : 0 < r) (hc : 0 < c) (hr' : 2 ^ count ∣ r) (hc' : 2 ^ count ∣ c) :
    ∃ y, w.transform id (.mat ⟨r, c, u⟩) count false = .ok (.mat ⟨r, c, y⟩) ∧
      ∑ i ∈ range r, ∑ j ∈ range c, 4 ^ levels count r c i j * y i j ^ 2 ≤ (1 + bankError w.analysis.1) ^ (2 * count) * ∑ i ∈ range r, ∑ j ∈ range c, u i j ^ 2 := by
  obtain ⟨n, rfl⟩ : ∃ n, count = n + 1 := ⟨count - 1, by omega⟩
  have hE : 1 ≤ 1 + bankError w.analysis.1 := by have := bankError_nonneg w.analysis.1; linarith
  have hx : wav.excess (1 + bankError w.analysis.1) r c ≤ (1 + bankError w.analysis.1) ^ 2 := by
    unfold wav.excess
    split <;> split <;> nlinarith
  obtain ⟨y, h1, h2⟩ := wav.forward_le w.analysis _ _ hE (one_le_pow₀ hE) (wav_analysis_le style order w h) n r c u hx (Or.inr ⟨hr, hr'⟩) (Or.inr ⟨hc, hc'⟩)
  refine ⟨y, ?_, ?_⟩
  · unfold Wavelet.transform
    simp only [Int.toNat_natCast, Bool.false_eq_true, if_false, h1]
  · rw [← pow_mul] at h2
    refine le_trans (le_of_eq ?_) h2
    apply sum_congr rfl
    intro i hi
    apply sum_congr rfl
    intro j hj
    rw [weight_mat _ r c i j hr hc hr' hc' (mem_range.mp hi) (mem_range.mp hj)]

/-- An array of 12 rows and 8 columns and two levels. -/
example := C131_analysis_mat .coiflet 5 _ rfl 12 8 2 (fun i j => i + j) (by norm_num) (by norm_num) (by norm_num) (by norm_num) (by norm_num)

/-- C131.  Synthesis of an array does not amplify. -/
theorem C131_synthesis_mat (style : WaveStyle) (order : ℤ) (w : Wavelet) (h : Wavelet.new (some style) order = .ok w) (r c count : ℕ) (u : ℕ → ℕ → ℝ) (hcount : 0 < count)
    (hr : 0 < r) (hc : 0 < c) (hr' : 2 ^ count ∣ r) (hc' : 2 ^ count ∣ c) :
    ∃ z, w.transform id (.mat ⟨r, c, u⟩) count true = .ok (.mat ⟨r, c, z⟩) ∧
      ∑ i ∈ range r, ∑ j ∈ range c, z i j ^ 2 ≤ (1 + bankError w.analysis.1) ^ (2 * count) * ∑ i ∈ range r, ∑ j ∈ range c, 4 ^ levels count r c i j * u i j ^ 2 := by
  obtain ⟨n, rfl⟩ : ∃ n, count = n + 1 := ⟨count - 1, by omega⟩
  have hE : 1 ≤ 1 + bankError w.analysis.1 := by have := bankError_nonneg w.analysis.1; linarith
  have hx : wav.excess (1 + bankError w.analysis.1) r c ≤ (1 + bankError w.analysis.1) ^ 2 := by
    unfold wav.excess
    split <;> split <;> nlinarith
  obtain ⟨y, h1, h2⟩ := wav.backward_le w.synthesis _ _ hE (one_le_pow₀ hE) (wav_synthesis_le style order w h) n r c u hx (Or.inr ⟨hr, hr'⟩) (Or.inr ⟨hc, hc'⟩)
  refine ⟨y, ?_, ?_⟩
  · unfold Wavelet.transform
    simp only [Int.toNat_natCast, if_true, h1]
  · rw [← pow_mul] at h2
    refine le_trans h2 (le_of_eq ?_)
    congr 1
    apply sum_congr rfl
    intro i hi
    apply sum_congr rfl
    intro j hj
    rw [weight_mat _ r c i j hr hc hr' hc' (mem_range.mp hi) (mem_range.mp hj)]

example : (∃ w, Wavelet.new (some .coiflet) 5 = .ok w) ∧ 2 ^ 2 ∣ 12 ∧ 2 ^ 2 ∣ 8 ∧ levels 2 12 8 2 1 = 2 ∧ levels 2 12 8 7 1 = 1 := ⟨⟨_, rfl⟩, by norm_num, by norm_num, by decide, by decide⟩

/-- C131.  Analysis of a signal does not amplify: an element which is the result of `k` levels counts `2 ^ k` times. -/
theorem C131_analysis_vec (style : WaveStyle) (order : ℤ) (w : Wavelet) (h : Wavelet.new (some style) order = .ok w) (x : List ℝ) (count : ℕ) (hcount : 0 < count)
    (hx : 0 < x.length) (hx' : 2 ^ count ∣ x.length) : ∃ y, w.transform id (.vec x) count false = .ok (.vec y) ∧ y.length = x.length ∧
      ∑ j ∈ range x.length, 2 ^ lineLevels count x.length j * at0 y j ^ 2 ≤ (1 + bankError w.analysis.1) ^ count * ∑ j ∈ range x.length, at0 x j ^ 2 := by
  obtain ⟨n, rfl⟩ : ∃ n, count = n + 1 := ⟨count - 1, by omega⟩
  have hE : 1 ≤ 1 + bankError w.analysis.1 := by have := bankError_nonneg w.analysis.1; linarith
  have hxs : wav.excess (1 + bankError w.analysis.1) 1 x.length ≤ 1 + bankError w.analysis.1 := by
    unfold wav.excess
    rw [if_neg (by norm_num)]
    split <;> linarith
  obtain ⟨y, h1, h2⟩ := wav.forward_le w.analysis _ _ hE hE (wav_analysis_le style order w h) n 1 x.length (fun _ j => x.getD j 0) hxs (Or.inl rfl) (Or.inr ⟨hx, hx'⟩)
  refine ⟨(List.range x.length).map fun j => y 0 j, ?_, by simp, ?_⟩
  · unfold Wavelet.transform
    simp only [List.length_pos_iff.mp hx, Int.toNat_natCast, Bool.false_eq_true, if_false, h1]
  · rw [sum_range_one, sum_range_one] at h2
    refine le_trans (le_of_eq ?_) h2
    apply sum_congr rfl
    intro j hj
    have hj := mem_range.mp hj
    rw [weight_vec _ _ j hx hx' hj, at0_range_map, if_pos hj]

/-- Twelve samples and two levels. -/
example := C131_analysis_vec .coiflet 5 _ rfl (List.replicate 12 3) 2 (by norm_num) (by simp) (by simp)

/-- C131.  Synthesis of a signal does not amplify. -/
theorem C131_synthesis_vec (style : WaveStyle) (order : ℤ) (w : Wavelet) (h : Wavelet.new (some style) order = .ok w) (y : List ℝ) (count : ℕ) (hcount : 0 < count)
    (hy : 0 < y.length) (hy' : 2 ^ count ∣ y.length) : ∃ z, w.transform id (.vec y) count true = .ok (.vec z) ∧ z.length = y.length ∧
      ∑ j ∈ range y.length, at0 z j ^ 2 ≤ (1 + bankError w.analysis.1) ^ count * ∑ j ∈ range y.length, 2 ^ lineLevels count y.length j * at0 y j ^ 2 := by
  obtain ⟨n, rfl⟩ : ∃ n, count = n + 1 := ⟨count - 1, by omega⟩
  have hE : 1 ≤ 1 + bankError w.analysis.1 := by have := bankError_nonneg w.analysis.1; linarith
  have hxs : wav.excess (1 + bankError w.analysis.1) 1 y.length ≤ 1 + bankError w.analysis.1 := by
    unfold wav.excess
    rw [if_neg (by norm_num)]
    split <;> linarith
  obtain ⟨z, h1, h2⟩ := wav.backward_le w.synthesis _ _ hE hE (wav_synthesis_le style order w h) n 1 y.length (fun _ j => y.getD j 0) hxs (Or.inl rfl) (Or.inr ⟨hy, hy'⟩)
  refine ⟨(List.range y.length).map fun j => z 0 j, ?_, by simp, ?_⟩
  · unfold Wavelet.transform
    simp only [List.length_pos_iff.mp hy, Int.toNat_natCast, if_false, if_true, h1]
  · rw [sum_range_one, sum_range_one] at h2
    refine le_trans (le_of_eq ?_) (h2.trans (le_of_eq ?_))
    · apply sum_congr rfl
      intro j hj
      rw [at0_range_map, if_pos (mem_range.mp hj)]
    · congr 1
      apply sum_congr rfl
      intro j hj
      rw [weight_vec _ _ j hy hy' (mem_range.mp hj)]
      rfl

example : (∃ w, Wavelet.new (some .symmlet) 7 = .ok w) ∧ 2 ^ 3 ∣ 24 ∧ lineLevels 3 24 2 = 3 ∧ lineLevels 3 24 8 = 2 ∧ lineLevels 3 24 20 = 1 :=
  ⟨⟨_, rfl⟩, by norm_num, by decide, by decide, by decide⟩

/-- C131.  A signal which ends in zeros, as many as the order, less one, keeps its energy in one level of analysis. -/
theorem C131_kept (style : WaveStyle) (order : ℤ) (w : Wavelet) (h : Wavelet.new (some style) order = .ok w) (x : List ℝ) (M : ℕ) (hM : 0 < M) (hx : x.length = 2 * M)
    (hz : ∀ j < x.length, (x.length : ℤ) < j + order → at0 x j = 0) : ∃ y, w.transform id (.vec x) 1 false = .ok (.vec y) ∧ y.length = x.length ∧
      |2 * ∑ j ∈ range x.length, at0 y j ^ 2 - ∑ j ∈ range x.length, at0 x j ^ 2| ≤ bankError w.analysis.1 * ∑ j ∈ range x.length, at0 x j ^ 2 := by
  obtain ⟨n, σ, ho, hn, hσ, l1, l2, l3, l4, e1, e2, e3⟩ := wav_bank style order w h
  obtain ⟨n1, n2, n3, n4⟩ := wav_new_ne style order w h
  have a1 := wav.analyse_length w.analysis n1 n2 id x M hM hx
  refine ⟨_, wav_forward_vec id w x M hM hx a1, a1, ?_⟩
  obtain ⟨p, q⟩ := line_analysis n hn w.analysis l1 l2 σ hσ e1 M hM x hx
  have q := q fun j hj hj' => hz j (by omega) (by omega)
  rw [hx, abs_le]
  constructor <;> linarith

example : (∃ w, Wavelet.new (some .daubechies) 3 = .ok w) ∧ ∀ j < [4, -1, 2, 7, 0, (0 : ℝ)].length, (([4, -1, 2, 7, 0, (0 : ℝ)].length : ℕ) : ℤ) < j + 3 → at0 [4, -1, 2, 7, 0, (0 : ℝ)] j = 0 := by
  refine ⟨⟨_, rfl⟩, ?_⟩
  intro j hj h
  simp only [List.length] at hj h
  have : j = 4 ∨ j = 5 := by omega
  rcases this with rfl | rfl <;> simp [at0]

/-- C131.  Without the zeros energy is lost: three quarters of that of an impulse at the end, by Daubechies 3. -/
theorem C131_lost : ∃ w y, Wavelet.new (some .daubechies) 3 = .ok w ∧ w.transform id (.vec [0, 1]) 1 false = .ok (.vec y) ∧
    2 * ∑ j ∈ range 2, at0 y j ^ 2 < 0.26 := by
  have hw : ∃ w, Wavelet.new (some .daubechies) 3 = .ok w := ⟨_, rfl⟩
  obtain ⟨w, hw⟩ := hw
  have hf : w = wav.filters ([4829629131445341, 8365163037378077, 2241438680420134, -1294095225512603].map fun z : ℤ => (z : ℝ) / 10 ^ 16) := by
    have : Wavelet.new (some .daubechies) 3 = .ok (wav.filters ([4829629131445341, 8365163037378077, 2241438680420134, -1294095225512603].map fun z : ℤ => (z : ℝ) / 10 ^ 16)) := rfl
    rw [hw] at this
    exact Except.ok.inj this
  have ha : w.analysis = ([4829629131445341 / 14142135623730949, 8365163037378077 / 14142135623730949, 2241438680420134 / 14142135623730949, -1294095225512603 / 14142135623730949],
      [1294095225512603 / 14142135623730949, 2241438680420134 / 14142135623730949, -8365163037378077 / 14142135623730949, 4829629131445341 / 14142135623730949]) := by
    rw [hf]
    simp only [wav.filters, wav.negate, List.map, List.zipIdx, List.sum_cons, List.sum_nil, List.length]
    norm_num
  obtain ⟨n1, n2, n3, n4⟩ := wav_new_ne _ _ w hw
  have a1 := wav.analyse_length w.analysis n1 n2 id [0, 1] 1 (by norm_num) rfl
  refine ⟨w, _, hw, wav_forward_vec id w [0, 1] 1 (by norm_num) rfl a1, ?_⟩
  rw [sum_range_succ, sum_range_one, wav.at0_analyse w.analysis n1 n2 _ 1 (by norm_num) rfl 0 (by norm_num), wav.at0_analyse w.analysis n1 n2 _ 1 (by norm_num) rfl 1 (by norm_num), ha]
  simp [conv, sum_range_succ, at0]
  norm_num

end Verif.Props
