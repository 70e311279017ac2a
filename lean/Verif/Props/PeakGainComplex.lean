import Verif.Props.PeakGain

/- C178 of filters with complex coefficients: the largest amplification of bounded complex signals. -/

namespace Verif.Props

open Finset Spec

section

variable {K : Type*} [RCLike K]

/-- The phases of a sequence, reversed in time. -/
private noncomputable def worst (h : ℕ → K) (n : ℕ) : List K := (List.range (n + 1)).map fun m => (starRingEnd K) (h (n - m)) / ((‖h (n - m)‖ : ℝ) : K)

private theorem worst_le (h : ℕ → K) (n : ℕ) (v : K) (hv : v ∈ worst h n) : ‖v‖ ≤ 1 := by
  obtain ⟨m, -, rfl⟩ := List.mem_map.mp hv
  rw [norm_div, RCLike.norm_conj, RCLike.norm_ofReal, abs_norm]
  exact div_self_le_one _

private theorem worst_sum (h : ℕ → K) (n : ℕ) : ∑ i ∈ range (n + 1), h i * at0 (worst h n) (n - i) = ((∑ i ∈ range (n + 1), ‖h i‖ : ℝ) : K) := by
  push_cast
  refine sum_congr rfl fun i hi => ?_
  have := mem_range.mp hi
  unfold worst
  rw [at0_sampled _ _ _ (by omega), show n - (n - i) = i by omega]
  by_cases hz : h i = 0
  · rw [hz]; simp
  · have hn : ((‖h i‖ : ℝ) : K) ≠ 0 := by exact_mod_cast norm_ne_zero_iff.mpr hz
    rw [mul_div_assoc', RCLike.mul_conj, div_eq_iff hn, sq]

private theorem conv_le (h : ℕ → K) (x : List K) (M : ℝ) (hx : x ≠ []) (hM : ∀ v ∈ x, ‖v‖ ≤ M) (n : ℕ) :
    ‖∑ i ∈ range (n + 1), h i * at0 x (n - i)‖ ≤ (∑ i ∈ range (n + 1), ‖h i‖) * M := by
  have hM0 : 0 ≤ M := by
    obtain ⟨w, hw⟩ := List.exists_mem_of_ne_nil x hx
    exact (norm_nonneg w).trans (hM w hw)
  have hat : ∀ k, ‖at0 x k‖ ≤ M := by
    intro k
    by_cases hk : k < x.length
    · rw [at0_of_lt _ _ hk]; exact hM _ (List.getElem_mem hk)
    · rw [at0_of_le _ _ (by omega)]; simpa using hM0
  rw [sum_mul]
  exact (norm_sum_le _ _).trans (sum_le_sum fun i _ => by rw [norm_mul]; exact mul_le_mul_of_nonneg_left (hat _) (norm_nonneg _))

end

/-- C178.  A stable IirFilter with complex coefficients and without a past. -/
theorem C178_iir_complex (g : Iir ℂ) (hc : g.cast = id) (hwf : g.WF) (hz : ∀ v ∈ g.s, v = 0) (h0 : at0 g.a 0 = 0) (hst : StableC g.a) : ∃ (h : ℕ → ℂ) (G : ℝ),
    (∀ n, ∃ y g', g.filter (1 :: List.replicate n 0) = (.ok y, g') ∧ at0 y n = h n) ∧ HasSum (fun n => ‖h n‖) G ∧
    (∀ (x : List ℂ) (M : ℝ), x ≠ [] → (∀ v ∈ x, ‖v‖ ≤ M) → ∃ y g', g.filter x = (.ok y, g') ∧ y.length = x.length ∧ ∀ v ∈ y, ‖v‖ ≤ G * M) ∧
    (∀ r < G, ∃ x : List ℂ, x ≠ [] ∧ (∀ v ∈ x, ‖v‖ ≤ 1) ∧ ∃ y g', g.filter x = (.ok y, g') ∧ ∃ v ∈ y, r < ‖v‖) ∧
    ∀ u, ‖freqRespC g.a g.b u‖ ≤ G := by
  have hga := wf_ne hwf
  obtain ⟨K, hK⟩ := stableC_impulse g.a g.b h0 hga hst
  have hsum := hK.summable
  have hlim := fun u => (impulse_sumC g.a g.b h0 hga hst u).2
  have hconv := filter_conv g hwf hc h0 hz
  generalize ser g.b * recip g.a = φ at *
  refine ⟨fun n => PowerSeries.coeff n φ, ∑' n, ‖PowerSeries.coeff n φ‖, fun n => ?_, hsum.hasSum, fun x M hx hM => ?_, fun r hr => ?_, fun u => ?_⟩
  · obtain ⟨y, g', h1, h2, h3⟩ := hconv (1 :: List.replicate n 0) (by simp)
    refine ⟨y, g', h1, ?_⟩
    rw [h3 n (by simp), sum_range_succ, sum_eq_zero, zero_add, Nat.sub_self]
    · simp [at0]
    · intro i hi
      have := mem_range.mp hi
      obtain ⟨m, hm⟩ : ∃ m, n - i = m + 1 := ⟨n - i - 1, by omega⟩
      rw [hm]
      by_cases hmn : m < n <;> simp [at0, hmn]
  · obtain ⟨y, g', h1, h2, h3⟩ := hconv x hx
    refine ⟨y, g', h1, h2, fun v hv => ?_⟩
    obtain ⟨n, hn, rfl⟩ := List.getElem_of_mem hv
    have hM0 : 0 ≤ M := by
      obtain ⟨w, hw⟩ := List.exists_mem_of_ne_nil x hx
      exact (norm_nonneg w).trans (hM w hw)
    rw [← at0_of_lt _ _ hn, h3 n (by omega)]
    exact (conv_le _ x M hx hM n).trans (mul_le_mul_of_nonneg_right (hsum.sum_le_tsum _ fun _ _ => norm_nonneg _) hM0)
  · obtain ⟨n, hn⟩ := (hsum.hasSum.tendsto_sum_nat.eventually (lt_mem_nhds hr)).exists
    have hl : (worst (fun i => PowerSeries.coeff i φ) n).length = n + 1 := by simp [worst]
    have hx : worst (fun i => PowerSeries.coeff i φ) n ≠ [] := List.ne_nil_of_length_pos (by omega)
    obtain ⟨y, g', h1, h2, h3⟩ := hconv _ hx
    refine ⟨_, hx, worst_le _ n, y, g', h1, at0 y n, ?_, ?_⟩
    · rw [at0_of_lt _ _ (by omega)]; exact List.getElem_mem _
    · rw [h3 n (by omega), worst_sum (fun i => PowerSeries.coeff i φ) n, RCLike.norm_ofReal, abs_of_nonneg (sum_nonneg fun _ _ => norm_nonneg _), sum_range_succ]
      linarith [norm_nonneg (PowerSeries.coeff n φ)]
  · refine le_of_tendsto ((continuous_norm.tendsto _).comp (hlim u)) (Filter.Eventually.of_forall fun n => ?_)
    refine (norm_sum_le _ _).trans (le_trans (le_of_eq (sum_congr rfl fun i _ => ?_)) (hsum.sum_le_tsum (range n) fun _ _ => norm_nonneg _))
    rw [norm_mul, show -(Complex.I * Real.pi * u * i) = ((-(Real.pi * u * i) : ℝ) : ℂ) * Complex.I by push_cast; ring, Complex.norm_exp_ofReal_mul_I, mul_one]

/-- C178.  A new FirFilter with real or complex coefficients: the factor is the sum of their magnitudes, and is attained. -/
theorem C178_fir {K : Type*} [RCLike K] (b : List K) (hb : b ≠ []) : ∃ g, Fir.new id b none = .ok g ∧
    (∀ (x : List K) (M : ℝ), x ≠ [] → (∀ v ∈ x, ‖v‖ ≤ M) → ∃ y g', g.filter x = (.ok y, g') ∧ y.length = x.length ∧ ∀ v ∈ y, ‖v‖ ≤ (b.map fun v => ‖v‖).sum * M) ∧
    ∃ x : List K, x ≠ [] ∧ (∀ v ∈ x, ‖v‖ ≤ 1) ∧ ∃ y g', g.filter x = (.ok y, g') ∧ ∃ v ∈ y, v = (((b.map fun v => ‖v‖).sum : ℝ) : K) := by
  have hbl := List.length_pos_of_ne_nil hb
  have hout : ∀ x : List K, x ≠ [] → ∃ g y g', Fir.new id b none = .ok g ∧ g.filter x = (.ok y, g') ∧ y.length = x.length ∧
      ∀ k < x.length, at0 y k = ∑ i ∈ range (k + 1), at0 b i * at0 x (k - i) := by
    intro x hx
    obtain ⟨g, y, g', h1, h2, h3, h4⟩ := C01_fir_difference_equation b none x hb hx
    refine ⟨g, y, g', h1, h2, h3, fun k hk => ?_⟩
    have := h4 k hk
    have ht : tail b ((none : Option (List K)).getD []) k = 0 := by
      unfold tail
      refine sum_eq_zero fun i _ => ?_
      split <;> simp [at0]
    rw [ht, add_zero, conv] at this
    simp [at0, List.getD, this]
  have hsum : ∀ n, b.length ≤ n + 1 → ∑ i ∈ range (n + 1), ‖at0 b i‖ = (b.map fun v => ‖v‖).sum := by
    intro n hn
    have : (b.map fun v => ‖v‖).sum = ∑ i ∈ range b.length, ‖at0 b i‖ := by
      clear hout hbl hb hn
      induction b with
      | nil => simp
      | cons v b ih => rw [List.map_cons, List.sum_cons, ih, List.length_cons, sum_range_succ', add_comm]; rfl
    rw [this]
    symm
    apply sum_subset (range_subset_range.mpr hn)
    intro i _ hi
    rw [at0_of_le _ _ (by simpa using hi), norm_zero]
  have hpart : ∀ n, ∑ i ∈ range (n + 1), ‖at0 b i‖ ≤ (b.map fun v => ‖v‖).sum := by
    intro n
    rw [← hsum (n + b.length) (by omega)]
    exact sum_le_sum_of_subset_of_nonneg (range_subset_range.mpr (by omega)) fun _ _ _ => norm_nonneg _
  have hl : (worst (at0 b) (b.length - 1)).length = b.length - 1 + 1 := by simp [worst]
  have hx : worst (at0 b) (b.length - 1) ≠ [] := List.ne_nil_of_length_pos (by omega)
  obtain ⟨g, y, g', h1, h2, h3, h4⟩ := hout _ hx
  refine ⟨g, h1, fun x M hx hM => ?_, _, hx, worst_le _ _, y, g', h2, at0 y (b.length - 1), ?_, ?_⟩
  · obtain ⟨g2, y, g', k1, k2, k3, k4⟩ := hout x hx
    rw [h1] at k1
    cases k1
    refine ⟨y, g', k2, k3, fun v hv => ?_⟩
    obtain ⟨n, hn, rfl⟩ := List.getElem_of_mem hv
    have hM0 : 0 ≤ M := by
      obtain ⟨w, hw⟩ := List.exists_mem_of_ne_nil x hx
      exact (norm_nonneg w).trans (hM w hw)
    rw [← at0_of_lt _ _ hn, k4 n (by omega)]
    exact (conv_le _ x M hx hM n).trans (mul_le_mul_of_nonneg_right (hpart n) hM0)
  · rw [at0_of_lt _ _ (by omega)]; exact List.getElem_mem _
  · rw [h4 _ (by omega), worst_sum, hsum _ (by omega)]

/-- A pole at half the imaginary unit. -/
example := C178_iir_complex (⟨id, [0, Complex.I / 2], [1, 0], [0, 0]⟩ : Iir ℂ) rfl ⟨rfl, rfl, by simp⟩ (by simp) rfl (by
  intro z hz
  have h : z = Complex.I / 2 := by
    simp [poleValue, at0] at hz
    linear_combination hz
  rw [h]
  norm_num)

example := C178_fir [1, Complex.I, -2] (by simp)

/-- C178.  With real coefficients the factor is the magnitude of the gain of constant signals exactly if no two coefficients have different signs. -/
theorem C178_fir_sign (b : List ℝ) : (b.map fun v => ‖v‖).sum = |b.sum| ↔ (∀ v ∈ b, 0 ≤ v) ∨ ∀ v ∈ b, v ≤ 0 := by
  have key : ∀ c : List ℝ, c.sum ≤ (c.map fun v => ‖v‖).sum ∧ (c.sum = (c.map fun v => ‖v‖).sum ↔ ∀ v ∈ c, 0 ≤ v) := by
    intro c
    induction c with
    | nil => simp
    | cons v c ih =>
      simp only [List.map_cons, List.sum_cons, List.mem_cons, forall_eq_or_imp, Real.norm_eq_abs] at ih ⊢
      refine ⟨by linarith [le_abs_self v, ih.1], fun h => ?_, fun h => ?_⟩
      · have h1 : v = |v| := le_antisymm (le_abs_self v) (by linarith [ih.1])
        exact ⟨by rw [h1]; exact abs_nonneg v, ih.2.mp (by linarith)⟩
      · rw [abs_of_nonneg h.1, ih.2.mpr h.2]
  have hneg : (b.map fun v => -v).sum = -b.sum := by
    induction b with
    | nil => simp
    | cons v b ih => simp only [List.map_cons, List.sum_cons, ih]; ring
  have k1 := key b
  have k2 := key (b.map fun v => -v)
  rw [List.map_map, hneg] at k2
  simp only [Function.comp_def, norm_neg, List.mem_map, forall_exists_index, and_imp, forall_apply_eq_imp_iff₂, neg_nonneg] at k2
  constructor
  · intro h
    rcases abs_choice b.sum with e | e
    · exact .inl (k1.2.mp (by rw [h, e]))
    · exact .inr (k2.2.mp (by rw [h, e]))
  · rintro (h | h)
    · have := k1.2.mpr h
      refine le_antisymm (this ▸ le_abs_self _) (abs_le.mpr ⟨by linarith [k2.1], k1.1⟩)
    · have := k2.2.mpr h
      refine le_antisymm (this ▸ neg_le_abs _) (abs_le.mpr ⟨by linarith [k2.1], k1.1⟩)

/-- A difference has no gain for constant signals, but doubles some others. -/
example : (([1, -1] : List ℝ).map fun v => ‖v‖).sum = 2 ∧ |([1, -1] : List ℝ).sum| = 0 := by norm_num

end Verif.Props
