import Verif.Props.Fourier

/-
Property C42 of PsdTransform (diamondback/transforms/psd_transform.py).
-/

namespace Verif.Props

open Complex Finset Spec

theorem at0_map_real (y : List ℂ) (g : ℂ → ℝ) (k : ℕ) (hk : k < y.length) : at0 (y.map g) k = g (at0 y k) := by
  rw [at0_of_lt _ _ (by simpa using hk), at0_of_lt _ _ hk]; simp

theorem psdFrame_spec (x b : List ℂ) (index i : ℕ) (hlen : i * index + b.length ≤ x.length) :
    psdFrame x b (i * index) = (List.range (b.length / 2)).map (framePower x b index i) := by
  have hz : (List.zipWith (· * ·) ((x.drop (i * index)).take b.length) b).length = b.length := by
    simp; omega
  have hl : (psdFrame x b (i * index)).length = b.length / 2 := by
    simp only [psdFrame, List.length_map, List.length_take, fft_length, hz]; omega
  apply List.ext_getElem
  · simp [hl]
  · intro k hk hk'
    rw [hl] at hk
    have hkN : k < b.length := by omega
    have hN : (b.length : ℂ) ≠ 0 := by exact_mod_cast (by omega : b.length ≠ 0)
    rw [← at0_of_lt _ _ (by rw [hl]; exact hk)]
    unfold psdFrame
    rw [at0_map_real _ _ _ (by simp only [List.length_take, fft_length, hz]; omega), at0_take _ _ _ hk,
      at0_fft _ _ (by rw [hz]; exact hkN), hz]
    simp only [List.getElem_map, List.getElem_range, framePower, spectrumAt]
    congr 3
    apply sum_congr rfl
    intro n hn
    have hn' := mem_range.mp hn
    rw [at0_zipWith_mul _ _ _ (by simp; omega), at0_take _ _ _ hn', ← turn_phasor,
      mul_comm (at0 (List.drop (i * index) x) n)]
    congr 1
    · congr 1
      simp [at0, List.getD, List.getElem?_drop]
    · congr 1
      push_cast
      field_simp

theorem stride_spec (M N index : ℕ) (hi : 0 < index) (h : N ≤ M) :
    stride (M - N + 1) index = (List.range ((M - N) / index + 1)).map (· * index) := by
  unfold stride
  congr 2
  rw [show M - N + 1 + index - 1 = M - N + index by omega, Nat.add_div_right _ hi]

theorem psd_frames (x b : List ℂ) (index : ℕ) (hi : 0 < index) (hlen : b.length ≤ x.length) :
    (stride (x.length - b.length + 1) index).map (psdFrame x b) =
      (List.range ((x.length - b.length) / index + 1)).map fun i => (List.range (b.length / 2)).map (framePower x b index i) := by
  rw [stride_spec _ _ _ hi hlen, List.map_map]
  apply List.map_congr_left
  intro i hi'
  rw [Function.comp_apply, psdFrame_spec]
  have h1 : i ≤ (x.length - b.length) / index := by
    have := List.mem_range.mp hi'; omega
  have h2 := Nat.div_mul_le_self (x.length - b.length) index
  have h3 := Nat.mul_le_mul_right index h1
  omega

theorem list_sum_range (n : ℕ) (g : ℕ → ℝ) : ((List.range n).map g).sum = ∑ i ∈ range n, g i := by
  induction n with
  | zero => simp
  | succ n ih => rw [List.range_succ, List.map_append, List.sum_append, ih, sum_range_succ]; simp

/-- C42.  Spectrogram: `⌊(len(x) - len(b)) / index⌋ + 1` rows of `len(b)//2` values, row `i`, column `k` being the power of the
windowed frame starting at sample `i·index`, at frequency `2k/N`. -/
theorem C42_psd_spectrogram (x b : List ℂ) (index : ℕ) (hi : 0 < index) (hlen : b.length ≤ x.length)
    (hb : ∃ v ∈ b, 1e-8 < ‖v‖) :
    ∃ y f, psd x b index true = .ok (.spectrogram y, f) ∧ y.length = (x.length - b.length) / index + 1 ∧
      ∀ i, i < (x.length - b.length) / index + 1 → ∃ r, y[i]? = some r ∧ r.length = b.length / 2 ∧
        ∀ k, k < b.length / 2 → r[k]? = some (framePower x b index i k) := by
  obtain ⟨v, hv, hv1⟩ := hb
  have hb' : ¬ (b.length = 0 ∨ ∀ v ∈ b, isClose0 v) := by
    have := List.length_pos_of_mem hv
    rintro (h | h)
    · omega
    · exact absurd (h v hv) (not_le.mpr hv1)
  have hpos : 0 < b.length := List.length_pos_of_mem hv
  have hx : ¬ x.length = 0 := by omega
  have hi' : ¬ index = 0 := by omega
  refine ⟨_, _, by simp only [psd, hx, hb', not_lt.mpr hlen, hi', if_false, if_true]; rfl, ?_, fun i hi2 => ?_⟩
  · rw [psd_frames x b index hi hlen]; simp
  · rw [psd_frames x b index hi hlen]
    refine ⟨_, by rw [List.getElem?_map, List.getElem?_range hi2]; rfl, by simp, fun k hk => ?_⟩
    simp [hk]

/-- Two frames of four samples. -/
example := C42_psd_spectrogram [1, I, -1, -I, 1] [1, 1, 1, 1] 1 (by norm_num) (by simp) ⟨1, by simp, by rw [norm_one]; norm_num⟩

/-- C42.  The power spectral density is the mean of those rows, and nonnegative; the axis has the same number of entries. -/
theorem C42_psd_mean (x b : List ℂ) (index : ℕ) (hi : 0 < index) (hlen : b.length ≤ x.length)
    (hb : ∃ v ∈ b, 1e-8 < ‖v‖) :
    ∃ y f, psd x b index false = .ok (.mean y, f) ∧ y.length = b.length / 2 ∧ f.length = b.length / 2 ∧
      ∀ k, k < b.length / 2 → ∃ p, y[k]? = some p ∧ 0 ≤ p ∧
        p = (∑ i ∈ range ((x.length - b.length) / index + 1), framePower x b index i k) /
          ((((x.length - b.length) / index + 1 : ℕ)) : ℝ) := by
  obtain ⟨v, hv, hv1⟩ := hb
  have hb' : ¬ (b.length = 0 ∨ ∀ v ∈ b, isClose0 v) := by
    have := List.length_pos_of_mem hv
    rintro (h | h)
    · omega
    · exact absurd (h v hv) (not_le.mpr hv1)
  have hpos : 0 < b.length := List.length_pos_of_mem hv
  have hx : ¬ x.length = 0 := by omega
  have hi' : ¬ index = 0 := by omega
  refine ⟨_, _, by simp only [psd, hx, hb', not_lt.mpr hlen, hi', if_false, Bool.false_eq_true]; rfl, ?_, ?_, fun k hk => ?_⟩
  · simp [columnSums]
  · simp [linspace]
  · rw [psd_frames x b index hi hlen]
    refine ⟨_, by rw [List.getElem?_map, columnSums, List.getElem?_map, List.getElem?_range hk]; rfl, ?_, ?_⟩
    · apply div_nonneg _ (Nat.cast_nonneg _)
      apply List.sum_nonneg
      intro p hp
      simp only [List.map_map, List.mem_map, Function.comp_apply] at hp
      obtain ⟨i, _, rfl⟩ := hp
      rw [at0_of_lt _ _ (by simpa using hk)]
      simp only [List.getElem_map, framePower]
      positivity
    · simp only
      rw [List.map_map, ← list_sum_range]
      congr 1
      · congr 1
        apply List.map_congr_left
        intro i _
        rw [Function.comp_apply, at0_of_lt _ _ (by simpa using hk)]
        simp
      · simp

/-- C42.  Even window length: entry `k` of the returned axis is the frequency `2k/N` at which the power is evaluated. -/
theorem C42_psd_axis_even (x b : List ℂ) (index : ℕ) (spectrogram : Bool) (out : PsdOut) (f : List ℝ)
    (h : psd x b index spectrogram = .ok (out, f)) (heven : Even b.length) (k : ℕ) (hk : k < b.length / 2) :
    f[k]? = some (2 * (k : ℝ) / b.length) := by
  have hf : f = linspace 0 (1 - 2 / (b.length : ℝ)) (b.length / 2) := by
    unfold psd at h
    split at h
    · cases h
    · split at h
      · cases h
      · split at h
        · cases h
        · split at h
          · cases h
          · simp only at h
            split at h <;> cases h <;> rfl
  rw [hf, linspace, List.getElem?_map, List.getElem?_range hk]
  simp only [Option.map_some]
  congr 1
  obtain ⟨m, hm⟩ := heven
  have hm2 : b.length / 2 = m := by omega
  have hbl : (b.length : ℝ) = 2 * m := by rw [hm]; push_cast; ring
  rw [hm2, hbl]
  rcases Nat.lt_or_ge m 2 with h1 | h1
  · have : k = 0 := by omega
    subst this; simp
  · have h2 : (2 : ℝ) ≤ m := by exact_mod_cast h1
    have h3 : (m : ℝ) ≠ 0 := by linarith
    have h4 : (m : ℝ) - 1 ≠ 0 := by linarith
    field_simp
    ring

/-- Two frames of four samples: the second frequency is half of the limit. -/
example : ∃ out f, psd [1, I, -1, -I, 1] [1, 1, 1, 1] 1 true = .ok (out, f) ∧ f[1]? = some (1 / 2) := by
  obtain ⟨y, f, h, -⟩ := C42_psd_spectrogram [1, I, -1, -I, 1] [1, 1, 1, 1] 1 (by norm_num) (by simp) ⟨1, by simp, by rw [norm_one]; norm_num⟩
  refine ⟨_, f, h, (C42_psd_axis_even _ _ _ _ _ _ h ⟨2, rfl⟩ 1 (by simp)).trans ?_⟩
  norm_num

/-- C42.  Odd window length: the axis is not `2k/N`, e.g. for five coefficients its second entry is `3/5` while the power is
evaluated at `2/5` (recorded in DESIGN.md). -/
theorem C42_psd_axis_odd_witness : ∃ x out f, psd x [1, 1, 1, 1, 1] 1 false = .ok (out, f) ∧ f[1]? = some (3 / 5) ∧
    f[1]? ≠ some (2 * ((1 : ℕ) : ℝ) / ([1, 1, 1, 1, 1] : List ℂ).length) := by
  have hc : ¬ isClose0 1 := by simp [isClose0]; norm_num
  have h1 : ∃ out, psd [1, 1, 1, 1, 1] [1, 1, 1, 1, 1] 1 false = .ok (out, linspace 0 (1 - 2 / (5 : ℕ)) 2) := by
    simp only [psd, List.length_cons, List.length_nil]
    rw [if_neg (by norm_num), if_neg (by simp [hc]), if_neg (by norm_num), if_neg (by norm_num)]
    exact ⟨_, rfl⟩
  obtain ⟨out, h1⟩ := h1
  have h2 : (linspace 0 (1 - 2 / (5 : ℕ)) 2)[1]? = some (3 / 5 : ℝ) := by
    simp [linspace]; norm_num
  refine ⟨_, _, _, h1, h2, ?_⟩
  rw [h2]
  simp

/-- C42.  Scaling the signal by `c` scales every frame, and so the mean, by `|c|²`. -/
theorem C42_psd_scaling (x b : List ℂ) (c : ℂ) (index i k : ℕ) :
    framePower (x.map (c * ·)) b index i k = ‖c‖ ^ 2 * framePower x b index i k := by
  have h : ∀ m, at0 (x.map (c * ·)) m = c * at0 x m := by
    intro m
    simp only [at0, List.getD, List.getElem?_map]
    cases x[m]? <;> simp
  unfold framePower spectrumAt
  rw [← mul_pow, ← norm_mul]
  congr 2
  rw [mul_div_assoc', mul_sum]
  congr 1
  apply sum_congr rfl
  intro n _
  simp only [h]; ring

example := C42_psd_scaling [1, 2, 3, 4] [1, 1] Complex.I 1 2 0

/-- C42, scaling of the returned mean. -/
theorem C42_psd_mean_scaling (x b : List ℂ) (c : ℂ) (index : ℕ) (hi : 0 < index) (hlen : b.length ≤ x.length)
    (hb : ∃ v ∈ b, 1e-8 < ‖v‖) :
    ∃ y z f g, psd x b index false = .ok (.mean y, f) ∧ psd (x.map (c * ·)) b index false = .ok (.mean z, g) ∧
      z = y.map (‖c‖ ^ 2 * ·) := by
  obtain ⟨y, f, h1, h2, _, h3⟩ := C42_psd_mean x b index hi hlen hb
  obtain ⟨z, g, g1, g2, _, g3⟩ := C42_psd_mean (x.map (c * ·)) b index hi (by simpa using hlen) hb
  refine ⟨y, z, f, g, h1, g1, ?_⟩
  apply List.ext_getElem?
  intro k
  by_cases hk : k < b.length / 2
  · obtain ⟨p, p1, _, p2⟩ := h3 k hk
    obtain ⟨q, q1, _, q2⟩ := g3 k hk
    rw [q1, List.getElem?_map, p1, Option.map_some, q2, p2]
    simp only [C42_psd_scaling, List.length_map]
    rw [← mul_sum, mul_div_assoc]
  · rw [List.getElem?_eq_none (by omega), List.getElem?_eq_none (by simp; omega)]

example : ∃ y f, psd [1, I, -1, -I, 1] [1, 1, 1, 1] 1 false = .ok (.mean y, f) ∧ y.length = 2 := by
  obtain ⟨y, f, h1, h2, _⟩ := C42_psd_mean [1, I, -1, -I, 1] [1, 1, 1, 1] 1 (by norm_num) (by simp)
    ⟨1, by simp, by rw [norm_one]; norm_num⟩
  exact ⟨y, f, h1, h2⟩

end Verif.Props
