import Verif.Lemmas.IirDelay

/- Properties of the delay methods (C71): the samples are the group delay of the frequency response. -/

namespace Verif.Props

open Finset Spec Complex

/-- The group delay of the specification is minus the derivative of the phase by the angular frequency, for every differentiable choice
of magnitude and phase. -/
theorem C71_phase (H : ℝ → ℂ) (r φ : ℝ → ℝ) (r' φ' f : ℝ) (hH : ∀ t, H t = (r t : ℂ) * cexp (I * φ t)) (hr : HasDerivAt r r' f)
    (hφ : HasDerivAt φ φ' f) (h0 : r f ≠ 0) : groupDelay H f = -φ' / Real.pi := by
  have h1 : HasDerivAt (fun t => (r t : ℂ) * cexp (I * φ t)) ((r' : ℂ) * cexp (I * φ f) + r f * (cexp (I * φ f) * (I * φ'))) f :=
    hr.ofReal_comp.mul ((hφ.ofReal_comp.const_mul I).cexp)
  have e : H = fun t => (r t : ℂ) * cexp (I * φ t) := funext hH
  unfold groupDelay
  rw [e, h1.deriv]
  have hc : (r f : ℂ) ≠ 0 := by exact_mod_cast h0
  have q : ((r' : ℂ) * cexp (I * φ f) + r f * (cexp (I * φ f) * (I * φ'))) / ((r f : ℂ) * cexp (I * φ f)) = ((r' / r f : ℝ) : ℂ) + I * (φ' : ℂ) := by
    have := exp_ne_zero (I * (φ f : ℂ))
    push_cast
    field_simp
  rw [q, add_im, ofReal_im, I_mul_im, ofReal_re, zero_add]

/-- The untreated samples. -/
noncomputable def rawDelay (g : Iir ℝ) (N : ℕ) (count : ℤ) : List ℝ :=
  (np.rotate (np.groupDelay2 g.b (1 :: g.a.tail.map (- ·)) N)).map (· * (count : ℝ))

theorem rawDelay_length (g : Iir ℝ) (N : ℕ) (count : ℤ) : (rawDelay g N count).length = N := by
  simp [rawDelay, np.rotate, np.groupDelay2]; omega

theorem rawDelay_getElem (g : Iir ℝ) (ha : g.a ≠ []) (h0 : at0 g.a 0 = 0) (hb : g.b ≠ []) (N : ℕ) (hN : 0 < N) (he : Even N) (count : ℤ) (k : ℕ)
    (hk : k < N) (h1 : dtft g.b (axis N k) ≠ 0) (h2 : 1 - dtft g.a (axis N k) ≠ 0) :
    (rawDelay g N count)[k]? = some (groupDelay (freqResp g.a g.b) (axis N k) * count) := by
  unfold rawDelay
  have e : (fun f => dtft g.b f / dtft (1 :: g.a.tail.map (- ·)) f) = freqResp g.a g.b := by
    funext f
    rw [dtft_one_sub g.a ha h0, freqResp]
  rw [List.getElem?_map, groupDelay2_getElem g.b _ hb (by simp) N hN he k hk h1 (by rw [dtft_one_sub g.a ha h0]; exact h2), e]
  rfl

theorem delay_eq (g : Iir ℝ) (N : ℕ) (hN : 0 < N) (count : ℤ) (hc : 0 < count) :
    g.delay N count = .ok (if 6 < N then
      let y := Iir.edge ((rawDelay g N count).take 6) ++ (rawDelay g N count).drop 6
      y.take (y.length - 6) ++ Iir.edge (y.drop (y.length - 6)) else rawDelay g N count, (List.range N).map (axis N)) := by
  unfold Iir.delay
  rw [if_neg (by omega), if_neg (by omega)]
  simp only [Int.toNat_natCast]
  rw [linspace_axis N hN]
  by_cases h : 6 < N
  · rw [if_pos h, if_pos (by omega)]; rfl
  · rw [if_neg h, if_neg (by omega)]; rfl

/-- The samples of the result in terms of the untreated ones. -/
theorem delay_samples (g : Iir ℝ) (N : ℕ) (hN : 0 < N) (count : ℤ) (hc : 0 < count) :
    ∃ y, g.delay N count = .ok (y, (List.range N).map (axis N)) ∧ y.length = N ∧
      (∀ k < N, (N ≤ 6 ∨ 6 ≤ k ∧ k + 6 < N) → y[k]? = (rawDelay g N count)[k]?) ∧
      (∀ k < N, ∀ v, (rawDelay g N count)[k]? = some v → ∃ t, 0 ≤ t ∧ t ≤ 1 ∧ y[k]? = some (t * v)) ∧
      (12 ≤ N → y.take 6 = Iir.edge ((rawDelay g N count).take 6) ∧ y.drop (N - 6) = Iir.edge ((rawDelay g N count).drop (N - 6))) := by
  have hl := rawDelay_length g N count
  set w := rawDelay g N count with hw
  rw [delay_eq g N hN count hc, ← hw]
  by_cases h : 6 < N
  · rw [if_pos h]
    set z := Iir.edge (w.take 6) ++ w.drop 6 with hz
    have hel : (Iir.edge (w.take 6)).length = 6 := by rw [edge_length, List.length_take, hl]; omega
    have hzl : z.length = N := by rw [hz, List.length_append, hel, List.length_drop, hl]; omega
    have hz1 : ∀ k, 6 ≤ k → z[k]? = w[k]? := by
      intro k hk
      rw [hz, List.getElem?_append_right (by omega), hel, List.getElem?_drop]
      congr 1; omega
    have hz2 : ∀ k < 6, z[k]? = (Iir.edge (w.take 6))[k]? := by
      intro k hk
      rw [hz, List.getElem?_append_left (by omega)]
    have hzs : ∀ k < N, ∀ v, w[k]? = some v → ∃ t, 0 ≤ t ∧ t ≤ 1 ∧ z[k]? = some (t * v) := by
      intro k hk v hv
      by_cases h6 : k < 6
      · rw [hz2 k h6]
        exact edge_shrinks _ k v (by rw [List.getElem?_take, if_pos h6, hv])
      · exact ⟨1, by norm_num, by norm_num, by rw [hz1 k (by omega), hv]; simp⟩
    have htl : (z.take (z.length - 6)).length = N - 6 := by rw [List.length_take, hzl]; omega
    refine ⟨_, rfl, ?_, ?_, ?_, ?_⟩
    · rw [List.length_append, htl, edge_length, List.length_drop, hzl]; omega
    · intro k hk hk'
      rw [List.getElem?_append_left (by omega), List.getElem?_take, if_pos (by omega), hz1 k (by omega)]
    · intro k hk v hv
      obtain ⟨t, ht0, ht1, ht⟩ := hzs k hk v hv
      by_cases h6 : k < N - 6
      · refine ⟨t, ht0, ht1, ?_⟩
        rw [List.getElem?_append_left (by omega), List.getElem?_take, if_pos (by omega), ht]
      · rw [List.getElem?_append_right (by omega), htl]
        obtain ⟨s, hs0, hs1, hs⟩ := edge_shrinks (z.drop (z.length - 6)) (k - (N - 6)) (t * v) (by
          rw [List.getElem?_drop, hzl, show N - 6 + (k - (N - 6)) = k by omega, ht])
        exact ⟨s * t, mul_nonneg hs0 ht0, mul_le_one₀ hs1 ht0 ht1, by rw [hs, mul_assoc]⟩
    · intro h12
      constructor
      · rw [List.take_append_of_le_length (by omega), List.take_take, hzl, min_eq_left (by omega), hz, List.take_append_of_le_length (by omega),
          List.take_of_length_le (by omega)]
      · rw [List.drop_append_of_le_length (by omega), List.drop_of_length_le (by omega), List.nil_append, hzl, hz,
          List.drop_append, List.drop_of_length_le (by omega), List.nil_append, hel, List.drop_drop]
        congr 2
        omega
  · rw [if_neg h]
    exact ⟨w, rfl, hl, fun _ _ _ => rfl, fun k _ v hv => ⟨1, by norm_num, by norm_num, by simpa using hv⟩, fun h12 => absurd h12 (by omega)⟩

/-- C71.  For even length IirFilter.delay reports `count` times the group delay of the frequency response, at each frequency of the axis at
which the response exists and is not zero, except that the six samples at either end may be shrunk towards zero, keeping their sign.  If
the magnitudes of six such samples are within a factor of ten they are not changed, and afterwards they always are (from length 12). -/
theorem C71_iir_delay (g : Iir ℝ) (ha : g.a ≠ []) (h0 : at0 g.a 0 = 0) (hb : g.b ≠ []) (length count : ℤ) (hl : 0 < length) (he : Even length)
    (hc : 0 < count) :
    ∃ y f, g.delay length count = .ok (y, f) ∧ y.length = length.toNat ∧ f.length = length.toNat ∧
      (∀ k < length.toNat, f[k]? = some (axis length k)) ∧
      (∀ k < length.toNat, dtft g.b (axis length k) ≠ 0 → 1 - dtft g.a (axis length k) ≠ 0 →
        DifferentiableAt ℝ (freqResp g.a g.b) (axis length k) ∧
        (length ≤ 6 ∨ 6 ≤ k ∧ (k : ℤ) + 6 < length → y[k]? = some (count * groupDelay (freqResp g.a g.b) (axis length k))) ∧
        ∃ t : ℝ, 0 ≤ t ∧ t ≤ 1 ∧ y[k]? = some (t * (count * groupDelay (freqResp g.a g.b) (axis length k)))) ∧
      (12 ≤ length → ∀ m, m = 0 ∨ m = length.toNat - 6 →
        (∀ i < 6, ∀ j < 6, |at0 y (m + i)| ≤ 10 * |at0 y (m + j)|) ∧
        ((∀ i < 6, dtft g.b (axis length (m + i)) ≠ 0 ∧ 1 - dtft g.a (axis length (m + i)) ≠ 0) →
          (∀ i < 6, ∀ j < 6, |groupDelay (freqResp g.a g.b) (axis length (m + i))| ≤ 10 * |groupDelay (freqResp g.a g.b) (axis length (m + j))|) →
          ∀ i < 6, y[m + i]? = some (count * groupDelay (freqResp g.a g.b) (axis length (m + i))))) := by
  obtain ⟨N, rfl⟩ : ∃ N : ℕ, length = N := ⟨length.toNat, by omega⟩
  have hN : 0 < N := by exact_mod_cast hl
  have heN : Even N := by exact_mod_cast he
  obtain ⟨y, h1, h2, h3, h4, h5⟩ := delay_samples g N hN count hc
  have hraw := rawDelay_getElem g ha h0 hb N hN heN count
  have hrl := rawDelay_length g N count
  refine ⟨y, _, h1, h2, by simp, fun k hk => by simp only [Int.toNat_natCast] at hk; simp [hk], ?_, ?_⟩
  · intro k hk hB hA
    simp only [Int.toNat_natCast] at hk
    have hv := hraw k hk hB hA
    refine ⟨?_, ?_, ?_⟩
    · have e : freqResp g.a g.b = fun f => dtft g.b f / dtft (1 :: g.a.tail.map (- ·)) f := by
        funext f
        rw [dtft_one_sub g.a ha h0, freqResp]
      rw [e]
      exact ((hasDerivAt_dtft _ _).fun_div (hasDerivAt_dtft _ _) (by rw [dtft_one_sub g.a ha h0]; exact hA)).differentiableAt
    · intro hk'
      rw [h3 k hk (by omega), hv, mul_comm]
    · obtain ⟨t, ht0, ht1, ht⟩ := h4 k hk _ hv
      exact ⟨t, ht0, ht1, by rw [ht, mul_comm (count : ℝ)]⟩
  · intro h12 m hm
    have h12 : 12 ≤ N := by exact_mod_cast h12
    simp only [Int.toNat_natCast] at hm
    -- the six samples as a list
    have hedge : (y.drop m).take 6 = Iir.edge (((rawDelay g N count).drop m).take 6) := by
      rcases hm with rfl | rfl
      · simpa using (h5 h12).1
      · rw [List.take_of_length_le (by rw [List.length_drop]; omega), List.take_of_length_le (by rw [List.length_drop]; omega)]
        exact (h5 h12).2
    have hmN : m + 6 ≤ N := by omega
    have hget : ∀ i < 6, y[m + i]? = ((y.drop m).take 6)[i]? := by
      intro i hi
      rw [List.getElem?_take, if_pos hi, List.getElem?_drop]
    constructor
    · intro i hi j hj
      have hmem : ∀ i < 6, at0 y (m + i) ∈ Iir.edge (((rawDelay g N count).drop m).take 6) := by
        intro i hi
        rw [← hedge]
        apply List.mem_of_getElem? (i := i)
        rw [← hget i hi, at0_of_lt _ _ (by omega), List.getElem?_eq_getElem]
      exact edge_spread _ _ _ (hmem i hi) (hmem j hj)
    · intro hne hten i hi
      have hval : ∀ i < 6, (((rawDelay g N count).drop m).take 6)[i]? = some (groupDelay (freqResp g.a g.b) (axis N (m + i : ℕ)) * count) := by
        intro i hi
        rw [List.getElem?_take, if_pos hi, List.getElem?_drop]
        exact hraw (m + i) (by omega) (hne i hi).1 (hne i hi).2
      rw [hget i hi, hedge, edge_id, hval i hi, mul_comm]
      · intro q
        have := congrArg List.length q
        simp [hrl] at this
        omega
      · intro u hu v hv
        obtain ⟨p, hp⟩ := List.mem_iff_getElem?.mp hu
        obtain ⟨q, hq⟩ := List.mem_iff_getElem?.mp hv
        have lt6 : ∀ p, ∀ u : ℝ, (((rawDelay g N count).drop m).take 6)[p]? = some u → p < 6 := by
          intro p u h
          have := (List.getElem?_eq_some_iff.mp h).1
          rw [List.length_take] at this
          omega
        have hp6 := lt6 p u hp
        have hq6 := lt6 q v hq
        rw [hval p hp6, Option.some.injEq] at hp
        rw [hval q hq6, Option.some.injEq] at hq
        rw [← hp, ← hq, abs_mul, abs_mul, ← mul_assoc]
        exact mul_le_mul_of_nonneg_right (hten p hp6 q hq6) (abs_nonneg _)

/-- A first order filter. -/
example := C71_iir_delay { a := [0, 1 / 2], b := [1 / 2, 0], s := [0, 0], cast := id } (by simp) rfl (by simp) 64 2 (by norm_num) (by decide) (by norm_num)

/-- C71.  Where the forward coefficients have a zero on the axis, or the denominator has, the delay reported is zero. -/
theorem C71_null (g : Iir ℝ) (ha : g.a ≠ []) (h0 : at0 g.a 0 = 0) (hb : g.b ≠ []) (length count : ℤ) (hl : 0 < length) (he : Even length) (hc : 0 < count)
    (k : ℕ) (hk : k < length.toNat) (hz : dtft g.b (axis length k) = 0 ∨ 1 - dtft g.a (axis length k) = 0) :
    ∃ y f, g.delay length count = .ok (y, f) ∧ y[k]? = some 0 := by
  obtain ⟨N, rfl⟩ : ∃ N : ℕ, length = N := ⟨length.toNat, by omega⟩
  have hN : 0 < N := by exact_mod_cast hl
  have heN : Even N := by exact_mod_cast he
  simp only [Int.toNat_natCast] at hk
  obtain ⟨y, h1, -, -, h4, -⟩ := delay_samples g N hN count hc
  have hraw : (rawDelay g N count)[k]? = some 0 := by
    classical
    have hA : (1 :: g.a.tail.map (- ·) : List ℝ) ≠ [] := by simp
    have hgl : (np.groupDelay2 g.b (1 :: g.a.tail.map (- ·)) N).length = N := by simp [np.groupDelay2]
    unfold rawDelay
    rw [List.getElem?_map, rotate_getElem? _ _ (by rw [hgl]; exact hk), hgl]
    unfold np.groupDelay2
    rw [List.getElem?_map, List.getElem?_range (Nat.mod_lt _ hN)]
    simp only [Option.map_some]
    rw [grid_point N hN heN k hk, polyval_reverse, polyval_ramp]
    have e : dtft (np.convolve g.b (1 :: g.a.tail.map (- ·)).reverse) (axis N k) = 0 := by
      rw [dtft_convolve _ _ hb (by simp), dtft_reverse _ hA, dtft_one_sub g.a ha h0]
      rcases hz with hz | hz
      · rw [hz, zero_mul]
      · rw [hz, map_zero, mul_zero, mul_zero]
    rw [if_pos e, zero_mul]
  obtain ⟨t, -, -, ht⟩ := h4 k hk 0 hraw
  exact ⟨y, _, h1, by rw [ht, mul_zero]⟩

/-- The difference of two samples has a zero at frequency zero, in the middle of the axis. -/
example : ∃ y f, (Iir.delay { a := [0], b := [1, -1], s := [0, 0], cast := id } 2 1) = .ok (y, f) ∧ y[1]? = some 0 := by
  refine C71_null _ (by simp) (by simp [at0]) (by simp) 2 1 (by norm_num) (by decide) (by norm_num) 1 (by decide) (Or.inl ?_)
  norm_num [dtft, axis, Finset.sum_range_succ, at0]

/-- C71.  A nonpositive length or count is rejected. -/
theorem C71_rejects (g : Iir ℝ) (q : Fir ℝ) (length count : ℤ) (h : length ≤ 0 ∨ count ≤ 0) :
    g.delay length count = .error .valueError ∧ q.delay length count = .error .valueError := by
  unfold Iir.delay Fir.delay
  by_cases h1 : length ≤ 0
  · simp [h1]
  · simp [h1, h.resolve_left h1]

/-- No length. -/
example (g : Iir ℝ) (q : Fir ℝ) := C71_rejects g q 0 1 (.inl (by norm_num))

/-- C71, FIR.  For even length FirFilter.delay reports `count` times the group delay at each frequency but the first at which the response
is not zero; the first sample continues the next two linearly. -/
theorem C71_fir_delay (g : Fir ℝ) (length count : ℤ) (hl : 0 < length) (he : Even length) (hc : 0 < count) :
    ∃ y f, g.delay length count = .ok (y, f) ∧ y.length = length.toNat ∧ f.length = length.toNat ∧
      (∀ k < length.toNat, f[k]? = some (axis length k)) ∧
      (∀ k < length.toNat, (length ≤ 2 ∨ 0 < k) → dtft g.b (axis length k) ≠ 0 →
        y[k]? = some (count * groupDelay (freqResp [] g.b) (axis length k))) ∧
      (2 < length → at0 y 0 + at0 y 2 = 2 * at0 y 1) := by
  classical
  obtain ⟨N, rfl⟩ : ∃ N : ℕ, length = N := ⟨length.toNat, by omega⟩
  have hN : 0 < N := by exact_mod_cast hl
  have heN : Even N := by exact_mod_cast he
  set y0 := (np.rotate (np.groupDelay g.b N)).map (· * (count : ℝ)) with hy0
  have hlen0 : y0.length = N := by simp [hy0, np.rotate, np.groupDelay]; omega
  have hresp : freqResp [] g.b = fun f => dtft g.b f / dtft [1] f := by
    funext f
    simp [freqResp, dtft, at0]
  have hval : ∀ k < N, dtft g.b (axis N k) ≠ 0 → y0[k]? = some (count * groupDelay (freqResp [] g.b) (axis N k)) := by
    intro k hk hne
    have hgl : (np.groupDelay g.b N).length = N := by simp [np.groupDelay]
    rw [hy0, List.getElem?_map, rotate_getElem? _ _ (by rw [hgl]; exact hk), hgl]
    unfold np.groupDelay
    rw [List.getElem?_map, List.getElem?_range (Nat.mod_lt _ hN)]
    simp only [Option.map_some]
    rw [grid_point N hN heN k hk, polyval_reverse, polyval_ramp, if_neg hne, hresp,
      groupDelay_quotient _ _ _ _ _ (hasDerivAt_dtft _ _) (hasDerivAt_dtft _ _) hne (by simp [dtft, at0]), mul_comm]
    simp [dtftRamp]
  by_cases h2 : 2 < N
  · refine ⟨y0.set 0 (at0 y0 1 * 2 - at0 y0 2), (List.range N).map (axis N), ?_, by rw [List.length_set, hlen0]; simp, by simp,
      fun k hk => by simp only [Int.toNat_natCast] at hk; simp [hk], ?_, ?_⟩
    · unfold Fir.delay
      rw [if_neg (by omega), if_neg (by omega)]
      simp only [Int.toNat_natCast]
      rw [linspace_axis N hN, ← hy0, if_pos (by omega)]
      rfl
    · intro k hk h0 hne
      rw [List.getElem?_set_ne (by omega)]
      exact hval k (by simpa using hk) hne
    · intro _
      have e1 : ∀ i, 0 < i → at0 (y0.set 0 (at0 y0 1 * 2 - at0 y0 2)) i = at0 y0 i := by
        intro i hi
        simp only [at0, List.getD_eq_getElem?_getD]
        rw [List.getElem?_set_ne (by omega)]
      rw [e1 1 (by omega), e1 2 (by omega)]
      have : at0 (y0.set 0 (at0 y0 1 * 2 - at0 y0 2)) 0 = at0 y0 1 * 2 - at0 y0 2 := by
        unfold at0
        rw [List.getD_eq_getElem?_getD, List.getElem?_set_self (by omega)]
        rfl
      rw [this]
      ring
  · refine ⟨y0, (List.range N).map (axis N), ?_, by rw [hlen0]; simp, by simp, fun k hk => by simp only [Int.toNat_natCast] at hk; simp [hk], ?_, ?_⟩
    · unfold Fir.delay
      rw [if_neg (by omega), if_neg (by omega)]
      simp only [Int.toNat_natCast]
      rw [linspace_axis N hN, ← hy0, if_neg (by omega)]
    · intro k hk _ hne
      exact hval k (by simpa using hk) hne
    · intro h; exact absurd h (by omega)

/-- A delay of two samples: the response is `e^{-2jπf}`, and the group delay 2 at every frequency. -/
example (f : ℝ) : groupDelay (freqResp [] [0, 0, 1]) f = 2 := by
  have h := C71_phase (freqResp [] [0, 0, 1]) (fun _ => 1) (fun t => -(2 * Real.pi) * t) 0 (-(2 * Real.pi)) f (by
    intro t
    simp [freqResp, dtft, sum_range_succ, at0]
    congr 1
    ring) (hasDerivAt_const _ _) (by simpa using (hasDerivAt_id f).const_mul (-(2 * Real.pi))) one_ne_zero
  rw [h]
  field_simp

/-- A first order filter `y_n = y_{n-1}/2 + x_n/2` meets the hypotheses at every frequency. -/
example (f : ℝ) : at0 ([0, 1/2] : List ℝ) 0 = 0 ∧ dtft [1/2, 0] f ≠ 0 ∧ 1 - dtft [0, 1/2] f ≠ 0 := by
  refine ⟨rfl, by simp [dtft, sum_range_succ, at0], ?_⟩
  simp only [dtft, sum_range_succ, at0, List.length_cons, List.length_nil]
  simp only [zero_add, range_zero, sum_empty, List.getD_cons_zero, List.getD_cons_succ, ofReal_zero, zero_mul, Nat.cast_one, mul_one]
  intro h
  have h1 : (1 : ℂ) = ((1 / 2 : ℝ) : ℂ) * cexp (-(I * Real.pi * f)) := sub_eq_zero.mp h
  have h2 := congrArg norm h1
  rw [norm_mul, show -(I * Real.pi * f) = ((-(Real.pi * f) : ℝ) : ℂ) * I by push_cast; ring, norm_exp_ofReal_mul_I] at h2
  norm_num at h2

end Verif.Props
