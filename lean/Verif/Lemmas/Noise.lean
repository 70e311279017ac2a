import Verif.Spec.Noise
import Verif.Spec.Signal

/-
Mean and correlation of linear combinations of noisy samples.
-/

namespace Verif.Spec

open MeasureTheory ComplexConjugate Finset

variable {Ω K : Type*} [MeasurableSpace Ω] [RCLike K] {μ : Measure Ω} {x : ℕ → Ω → K} {N : ℕ} {σ : ℝ}

theorem White.integrable [IsProbabilityMeasure μ] (h : White μ x N σ) (i : ℕ) (hi : i < N) : Integrable (x i) μ :=
  (h.square i hi).integrable (by norm_num)

theorem White.integrable_mul (h : White μ x N σ) (i j : ℕ) (hi : i < N) (hj : j < N) :
    Integrable (fun ω => x i ω * conj (x j ω)) μ :=
  (h.square i hi).integrable_mul (h.square j hj).star

theorem White.corr (h : White μ x N σ) (i j : ℕ) (hi : i < N) (hj : j < N) :
    ∫ ω, x i ω * conj (x j ω) ∂μ = if i = j then ((σ ^ 2 : ℝ) : K) else 0 := by
  split_ifs with hij
  · subst hij
    rw [← h.power i hi, ← integral_ofReal]
    refine integral_congr_ae (.of_forall fun ω => ?_)
    simp only [RCLike.mul_conj]
    push_cast
    rfl
  · exact h.uncorrelated i hi j hj hij

/-- The mean of a linear combination is that of the signal without noise. -/
theorem White.mean_linear [IsProbabilityMeasure μ] (h : White μ x N σ) (c d : ℕ → K) :
    ∫ ω, ∑ i ∈ range N, c i * (d i + x i ω) ∂μ = ∑ i ∈ range N, c i * d i := by
  have hint : ∀ i ∈ range N, Integrable (fun ω => d i + x i ω) μ := fun i hi =>
    (integrable_const _).add (h.integrable i (mem_range.1 hi))
  rw [integral_finsetSum _ fun i hi => (hint i hi).const_mul _]
  refine sum_congr rfl fun i hi => ?_
  rw [integral_const_mul, integral_add (integrable_const _) (h.integrable i (mem_range.1 hi)), h.mean i (mem_range.1 hi)]
  simp

/-- The correlation of two linear combinations of noise. -/
theorem White.corr_linear (h : White μ x N σ) (c e : ℕ → K) :
    ∫ ω, (∑ i ∈ range N, c i * x i ω) * conj (∑ i ∈ range N, e i * x i ω) ∂μ = ((σ ^ 2 : ℝ) : K) * ∑ i ∈ range N, c i * conj (e i) := by
  have h1 : (fun ω => (∑ i ∈ range N, c i * x i ω) * conj (∑ i ∈ range N, e i * x i ω)) =
      fun ω => ∑ i ∈ range N, ∑ j ∈ range N, (c i * conj (e j)) * (x i ω * conj (x j ω)) := by
    funext ω
    rw [map_sum, sum_mul_sum]
    refine sum_congr rfl fun i _ => sum_congr rfl fun j _ => ?_
    rw [map_mul]
    ring
  have hint : ∀ i ∈ range N, ∀ j ∈ range N, Integrable (fun ω => (c i * conj (e j)) * (x i ω * conj (x j ω))) μ := fun i hi j hj =>
    (h.integrable_mul i j (mem_range.1 hi) (mem_range.1 hj)).const_mul _
  rw [h1, integral_finsetSum _ fun i hi => integrable_finsetSum _ fun j hj => hint i hi j hj, mul_sum]
  refine sum_congr rfl fun i hi => ?_
  rw [integral_finsetSum _ fun j hj => hint i hi j hj]
  rw [sum_eq_single i]
  · rw [integral_const_mul, h.corr i i (mem_range.1 hi) (mem_range.1 hi), if_pos rfl, mul_comm]
  · intro j hj hji
    rw [integral_const_mul, h.corr i j (mem_range.1 hi) (mem_range.1 hj), if_neg (Ne.symm hji), mul_zero]
  · intro hn; exact absurd hi hn

/-- The power of a linear combination of noise. -/
theorem White.power_linear (h : White μ x N σ) (c : ℕ → K) :
    ∫ ω, ‖∑ i ∈ range N, c i * x i ω‖ ^ 2 ∂μ = σ ^ 2 * ∑ i ∈ range N, ‖c i‖ ^ 2 := by
  have h1 := h.corr_linear c c
  simp only [RCLike.mul_conj] at h1
  have h2 : ((∫ ω, ‖∑ i ∈ range N, c i * x i ω‖ ^ 2 ∂μ : ℝ) : K) = ((σ ^ 2 * ∑ i ∈ range N, ‖c i‖ ^ 2 : ℝ) : K) := by
    rw [← integral_ofReal]
    push_cast
    push_cast at h1
    exact h1
  exact_mod_cast h2

/-- Signal and noise add in power. -/
theorem White.power_noisy [IsProbabilityMeasure μ] (h : White μ x N σ) (c d : ℕ → K) :
    ∫ ω, ‖∑ i ∈ range N, c i * (d i + x i ω)‖ ^ 2 ∂μ = ‖∑ i ∈ range N, c i * d i‖ ^ 2 + σ ^ 2 * ∑ i ∈ range N, ‖c i‖ ^ 2 := by
  obtain ⟨m, hm⟩ : ∃ m, m = ∑ i ∈ range N, c i * d i := ⟨_, rfl⟩
  obtain ⟨v, hv⟩ : ∃ v : Ω → K, v = fun ω => ∑ i ∈ range N, c i * x i ω := ⟨_, rfl⟩
  have hvL : MemLp v 2 μ := by
    rw [hv]
    exact memLp_finsetSum _ fun i hi => (h.square i (mem_range.1 hi)).const_mul _
  have hvi : Integrable v μ := hvL.integrable (by norm_num)
  have hv0 : ∫ ω, v ω ∂μ = 0 := by
    have := h.mean_linear c fun _ => 0
    simpa [hv] using this
  have hsplit : (fun ω => ‖∑ i ∈ range N, c i * (d i + x i ω)‖ ^ 2) = fun ω => ‖m‖ ^ 2 + 2 * RCLike.re (v ω * conj m) + ‖v ω‖ ^ 2 := by
    funext ω
    have : ∑ i ∈ range N, c i * (d i + x i ω) = m + v ω := by
      rw [hm, hv, ← sum_add_distrib]
      exact sum_congr rfl fun i _ => by ring
    rw [this, @norm_add_sq K K]
    simp [RCLike.inner_apply]
  have hi2 : Integrable (fun ω => ‖v ω‖ ^ 2) μ := hvL.integrable_norm_pow (by norm_num)
  have hi1 : Integrable (fun ω => 2 * RCLike.re (v ω * conj m)) μ := ((hvi.mul_const _).re).const_mul _
  have hi0 : Integrable (fun ω => ‖m‖ ^ 2 + 2 * RCLike.re (v ω * conj m)) μ := (integrable_const _).add hi1
  rw [hsplit, integral_add hi0 hi2, integral_add (integrable_const _) hi1, integral_const_mul, ← hm]
  have h3 : ∫ ω, RCLike.re (v ω * conj m) ∂μ = 0 := by
    rw [integral_re (hvi.mul_const _), integral_mul_const, hv0]
    simp
  rw [h3, hv, h.power_linear c]
  simp

theorem at0_noisy (d : ℕ → K) (x : ℕ → Ω → K) (N : ℕ) (ω : Ω) (i : ℕ) (hi : i < N) : at0 (noisy d x N ω) i = d i + x i ω := by
  simp [at0, noisy, hi]

@[simp] theorem length_noisy (d : ℕ → K) (x : ℕ → Ω → K) (N : ℕ) (ω : Ω) : (noisy d x N ω).length = N := by simp [noisy]

/-- A causal convolution as a combination of all samples. -/
theorem conv_eq_range (h z : ℕ → K) (n : ℕ) (hn : n < N) :
    ∑ i ∈ range (n + 1), h i * z (n - i) = ∑ j ∈ range N, (if j ≤ n then h (n - j) else 0) * z j := by
  rw [← sum_range_reflect]
  have h1 : ∑ j ∈ range N, (if j ≤ n then h (n - j) else 0) * z j = ∑ j ∈ range (n + 1), (if j ≤ n then h (n - j) else 0) * z j := by
    symm
    apply sum_subset (range_subset_range.2 (by omega))
    intro j _ hj
    rw [if_neg (by simp at hj; omega), zero_mul]
  rw [h1]
  refine sum_congr rfl fun j hj => ?_
  have := mem_range.1 hj
  rw [if_pos (by omega), show n + 1 - 1 - j = n - j by omega, show n - (n - j) = j by omega]

/-- Noise through a causal convolution, with a deterministic offset `s`. -/
theorem White.conv_noise [IsProbabilityMeasure μ] (hw : White μ x N σ) (d h s : ℕ → K) (y : Ω → ℕ → K)
    (hy : ∀ ω, ∀ n < N, y ω n = ∑ i ∈ range (n + 1), h i * (d (n - i) + x (n - i) ω) + s n) :
    (∀ n < N, ∫ ω, y ω n ∂μ = ∑ i ∈ range (n + 1), h i * d (n - i) + s n) ∧
    (∀ n k, n + k < N → ∫ ω, (y ω (n + k) - ∫ ω, y ω (n + k) ∂μ) * conj (y ω n - ∫ ω, y ω n ∂μ) ∂μ =
      ((σ ^ 2 : ℝ) : K) * ∑ i ∈ range (n + 1), h (i + k) * conj (h i)) ∧
    ∀ n < N, ∫ ω, ‖y ω n - ∫ ω, y ω n ∂μ‖ ^ 2 ∂μ = σ ^ 2 * ∑ i ∈ range (n + 1), ‖h i‖ ^ 2 := by
  have hy' : ∀ ω, ∀ n < N, y ω n = ∑ j ∈ range N, (if j ≤ n then h (n - j) else 0) * (d j + x j ω) + s n := fun ω n hn => by
    rw [hy ω n hn, conv_eq_range h (fun j => d j + x j ω) n hn]
  have hmean : ∀ n < N, ∫ ω, y ω n ∂μ = ∑ i ∈ range (n + 1), h i * d (n - i) + s n := fun n hn => by
    rw [integral_congr_ae (.of_forall fun ω => hy' ω n hn), integral_add ?_ (integrable_const _), hw.mean_linear, conv_eq_range h d n hn]
    · simp
    · exact integrable_finsetSum _ fun i hi => ((integrable_const _).add (hw.integrable i (mem_range.1 hi))).const_mul _
  have hdev : ∀ n < N, ∀ ω, y ω n - ∫ ω, y ω n ∂μ = ∑ j ∈ range N, (if j ≤ n then h (n - j) else 0) * x j ω := fun n hn ω => by
    rw [hmean n hn, hy' ω n hn, conv_eq_range h d n hn, add_sub_add_right_eq_sub, ← sum_sub_distrib]
    exact sum_congr rfl fun j _ => by ring
  refine ⟨hmean, fun n k hnk => ?_, fun n hn => ?_⟩
  · rw [integral_congr_ae (.of_forall fun ω => by simp only [hdev (n + k) hnk ω, hdev n (by omega) ω]; rfl), hw.corr_linear]
    congr 1
    have : ∀ j, (if j ≤ n + k then h (n + k - j) else 0) * conj (if j ≤ n then h (n - j) else 0) =
        (if j ≤ n then (fun i => h (i + k) * conj (h i)) (n - j) else 0) * 1 := by
      intro j
      by_cases hj : j ≤ n
      · rw [if_pos (by omega), if_pos hj, if_pos hj, show n + k - j = n - j + k by omega, mul_one]
      · rw [if_neg hj, if_neg hj]; simp
    rw [sum_congr rfl fun j _ => this j, ← conv_eq_range (fun i => h (i + k) * conj (h i)) (fun _ => 1) n (by omega)]
    simp
  · rw [integral_congr_ae (.of_forall fun ω => by simp only [hdev n hn ω]; rfl), hw.power_linear]
    congr 1
    have : ∀ j, ‖(if j ≤ n then h (n - j) else 0 : K)‖ ^ 2 = (if j ≤ n then (fun i => ‖h i‖ ^ 2) (n - j) else 0) * 1 := by
      intro j
      by_cases hj : j ≤ n
      · rw [if_pos hj, if_pos hj, mul_one]
      · rw [if_neg hj, if_neg hj]; simp
    rw [sum_congr rfl fun j _ => this j, ← conv_eq_range (fun i => ‖h i‖ ^ 2) (fun _ => (1 : ℝ)) n hn]
    simp

theorem White.coloured [IsProbabilityMeasure μ] (hw : White μ x N σ) (d h s m : ℕ → K) (y : Ω → ℕ → K)
    (hy : ∀ ω, ∀ n < N, y ω n = ∑ i ∈ range (n + 1), h i * (d (n - i) + x (n - i) ω) + s n)
    (hm : ∀ n < N, m n = ∑ i ∈ range (n + 1), h i * d (n - i) + s n) : ColouredNoise μ y N m h σ := by
  obtain ⟨a, b, c⟩ := hw.conv_noise d h s y hy
  have hm' : ∀ n < N, ∫ ω, y ω n ∂μ = m n := fun n hn => (a n hn).trans (hm n hn).symm
  exact ⟨hm', fun n k hnk => by rw [← b n k hnk, hm' _ hnk, hm' n (by omega)], fun n hn => by rw [← c n hn, hm' n hn]⟩

theorem White.integrable_noisy [IsProbabilityMeasure μ] (h : White μ x N σ) (c d : ℕ → K) :
    Integrable (fun ω => ‖∑ i ∈ range N, c i * (d i + x i ω)‖ ^ 2) μ := by
  have hL : MemLp (fun ω => ∑ i ∈ range N, c i * (d i + x i ω)) 2 μ := by
    refine memLp_finsetSum _ fun i hi => ?_
    have h1 : MemLp (fun _ : Ω => d i) 2 μ := memLp_const (d i)
    have h2 : MemLp (fun ω => d i + x i ω) 2 μ := h1.add (h.square i (mem_range.1 hi))
    exact h2.const_mul (c i)
  exact hL.integrable_norm_pow (by norm_num)

theorem White.shift (h : White μ x N σ) (o M : ℕ) (ho : o + M ≤ N) : White μ (fun n => x (o + n)) M σ :=
  ⟨fun n hn => h.square _ (by omega), fun n hn => h.mean _ (by omega), fun n hn => h.power _ (by omega),
    fun n hn m hm hne => h.uncorrelated _ (by omega) _ (by omega) (by omega)⟩

end Verif.Spec
