import Verif.Props.Int64
import Verif.Props.IirState
import Verif.Props.Response
import Mathlib.RingTheory.PowerSeries.Basic
import Mathlib.Tactic.LinearCombination

/-!
Property C148: a new IirFilter answers every bounded signal with a bounded one exactly when the poles reported by `roots` which no reported zero
cancels are inside the unit circle (diamondback/filters/iir_filter.py:192-205, 288-312 and 356-373).
-/

namespace Verif.Props

open Finset Spec

/-- `∑_{i ≤ n} c_i w_{n-i}`. -/
private def mix {R : Type*} [Semiring R] (c : ℕ → R) (w : ℕ → R) (n : ℕ) : R := ∑ i ∈ range (n + 1), c i * w (n - i)

private theorem mix_coeff {R : Type*} [CommRing R] (c w : ℕ → R) : PowerSeries.mk c * PowerSeries.mk w = PowerSeries.mk (mix c w) := by
  ext n
  rw [PowerSeries.coeff_mul, Finset.Nat.sum_antidiagonal_eq_sum_range_succ_mk]
  simp [mix]

private theorem mix_recursion {R : Type*} [CommRing R] (a b w : ℕ → R) (h0 : a 0 = 0) (n : ℕ) :
    mix b w n = (∑ i ∈ Icc 1 n, a i * mix b w (n - i)) + ∑ i ∈ range (n + 1), b i * (w (n - i) - mix a w (n - i)) := by
  have h1 : ∑ i ∈ Icc 1 n, a i * mix b w (n - i) = mix a (mix b w) n := by
    refine sum_subset (fun i hi => ?_) (fun i hi hi' => ?_)
    · rw [mem_Icc] at hi; rw [mem_range]; omega
    · rw [mem_range] at hi
      rw [mem_Icc] at hi'
      have : i = 0 := by omega
      rw [this, h0, zero_mul]
  have h2 : ∑ i ∈ range (n + 1), b i * (w (n - i) - mix a w (n - i)) = mix b w n - mix b (mix a w) n := by
    simp only [mul_sub, sum_sub_distrib]
    rfl
  have h3 : mix a (mix b w) = mix b (mix a w) := by
    have : PowerSeries.mk (mix a (mix b w)) = PowerSeries.mk (mix b (mix a w)) := by
      rw [← mix_coeff, ← mix_coeff, ← mix_coeff, ← mix_coeff]
      ring
    funext n
    simpa using congrArg (PowerSeries.coeff n) this
  rw [h1, h2, h3]
  ring

private theorem at0_prefix (x : ℕ → ℝ) (N n : ℕ) (h : n < N) : at0 ((List.range N).map x) n = x n := by
  simp [at0, h]

/-- What a filter answers to the signal made from `w`. -/
private theorem run_mix (a b : List ℝ) (hab : a ≠ [] ∨ b ≠ []) (h0 : at0 a 0 = 0) (w : ℕ → ℝ) (N : ℕ) :
    ∃ g g', Iir.new id (some a) (some b) none = .ok g ∧
      g.filter ((List.range (N + 1)).map fun n => w n - mix (at0 a) w n) = (.ok ((List.range (N + 1)).map (mix (at0 b) w)), g') := by
  obtain ⟨g, y, g', h1, h2, h3⟩ := C07_iir_difference_equation a b ((List.range (N + 1)).map fun n => w n - mix (at0 a) w n) hab h0 (by simp)
  have h4 : Recursion a b ((List.range (N + 1)).map fun n => w n - mix (at0 a) w n) ((List.range (N + 1)).map (mix (at0 b) w)) := by
    refine ⟨by simp, fun n hn => ?_⟩
    have hn' : n < N + 1 := by simpa using hn
    rw [at0_prefix _ _ _ hn', mix_recursion (at0 a) (at0 b) w h0 n]
    congr 1
    · exact sum_congr rfl fun i _ => by rw [at0_prefix _ _ _ (by omega)]
    · exact sum_congr rfl fun i _ => by rw [at0_prefix _ _ _ (by omega)]
  rw [Recursion.unique h3 h4] at h2
  exact ⟨g, g', h1, h2⟩

private theorem mix_late (c : List ℝ) (W : ℕ → ℂ) (n : ℕ) (h : c.length ≤ n) :
    mix (fun i => ((at0 c i : ℝ) : ℂ)) W n = ∑ i ∈ range c.length, ((at0 c i : ℝ) : ℂ) * W (n - i) := by
  symm
  refine sum_subset (fun i hi => ?_) (fun i _ hi => ?_)
  · rw [mem_range] at hi ⊢; omega
  · rw [mem_range, not_lt] at hi
    rw [at0_of_le _ _ hi]; simp

private theorem bounded_of_late (u : ℕ → ℂ) (L : ℕ) (C : ℝ) (h : ∀ n, L ≤ n → ‖u n‖ ≤ C) : ∃ M, ∀ n, ‖u n‖ ≤ M := by
  refine ⟨C + ∑ i ∈ range L, ‖u i‖ + |C|, fun n => ?_⟩
  have hs : 0 ≤ ∑ i ∈ range L, ‖u i‖ := sum_nonneg fun i _ => norm_nonneg _
  by_cases hn : L ≤ n
  · have := h n hn
    have := abs_nonneg C
    linarith
  · have : ‖u n‖ ≤ ∑ i ∈ range L, ‖u i‖ := single_le_sum (f := fun i => ‖u i‖) (fun i _ => norm_nonneg _) (mem_range.mpr (by omega))
    have := neg_abs_le C
    linarith

private theorem pole_sum (a : List ℝ) (h0 : at0 a 0 = 0) (z : ℂ) (hz : z ≠ 0) :
    Pole a z ↔ ∑ i ∈ range a.length, ((at0 a i : ℝ) : ℂ) * z⁻¹ ^ i = 1 := by
  unfold Pole
  rcases hl : a.length with _ | L
  · simp
  have h1 : ∑ i ∈ range (L + 1), ((at0 a i : ℝ) : ℂ) * z⁻¹ ^ i = z⁻¹ ^ L * ∑ i ∈ Icc 1 L, ((at0 a i : ℝ) : ℂ) * z ^ (L - i) := by
    rw [mul_sum]
    symm
    have h2 : ∑ i ∈ Icc 1 L, z⁻¹ ^ L * (((at0 a i : ℝ) : ℂ) * z ^ (L - i)) = ∑ i ∈ Icc 1 L, ((at0 a i : ℝ) : ℂ) * z⁻¹ ^ i := by
      refine sum_congr rfl fun i hi => ?_
      rw [mem_Icc] at hi
      have : z⁻¹ ^ L * z ^ (L - i) = z⁻¹ ^ i := by
        conv_lhs => rw [← Nat.sub_add_cancel hi.2, pow_add, Nat.sub_add_cancel hi.2]
        rw [mul_right_comm, ← mul_pow, inv_mul_cancel₀ hz, one_pow, one_mul]
      rw [← this]; ring
    rw [h2]
    refine sum_subset (fun i hi => ?_) (fun i hi hi' => ?_)
    · rw [mem_Icc] at hi; rw [mem_range]; omega
    · rw [mem_range] at hi
      rw [mem_Icc] at hi'
      have : i = 0 := by omega
      rw [this, h0]; simp
  simp only [Nat.add_sub_cancel]
  rw [h1, inv_pow, inv_mul_eq_one₀ (pow_ne_zero _ hz)]

private theorem growth (a b : List ℝ) (h0 : at0 a 0 = 0) (z : ℂ) (hz : 1 ≤ ‖z‖) (hp : Pole a z)
    (hb : ∑ i ∈ range b.length, ((at0 b i : ℝ) : ℂ) * z⁻¹ ^ i ≠ 0) :
    ∃ W : ℕ → ℂ, (∃ M, ∀ n, ‖W n - mix (fun i => ((at0 a i : ℝ) : ℂ)) W n‖ ≤ M) ∧ ∀ K, ∃ n, K < ‖mix (fun i => ((at0 b i : ℝ) : ℂ)) W n‖ := by
  have hz0 : z ≠ 0 := by intro h; rw [h, norm_zero] at hz; linarith
  have ha := (pole_sum a h0 z hz0).mp hp
  have hpow : ∀ n i : ℕ, i ≤ n → z ^ (n - i) = z ^ n * z⁻¹ ^ i := by
    intro n i h
    rw [inv_pow, eq_mul_inv_iff_mul_eq₀ (pow_ne_zero _ hz0), ← pow_add, Nat.sub_add_cancel h]
  set B := ∑ i ∈ range b.length, ((at0 b i : ℝ) : ℂ) * z⁻¹ ^ i with hB
  have hBp : 0 < ‖B‖ := norm_pos_iff.mpr hb
  rcases lt_or_eq_of_le hz with h1 | h1
  · refine ⟨fun n => z ^ n, bounded_of_late _ a.length 0 fun n hn => ?_, fun K => ?_⟩
    · rw [mix_late a _ n hn]
      have : ∑ i ∈ range a.length, ((at0 a i : ℝ) : ℂ) * z ^ (n - i) = z ^ n * ∑ i ∈ range a.length, ((at0 a i : ℝ) : ℂ) * z⁻¹ ^ i := by
        rw [mul_sum]
        refine sum_congr rfl fun i hi => ?_
        rw [mem_range] at hi
        rw [hpow n i (by omega)]; ring
      rw [this, ha]; simp
    · obtain ⟨n, hn⟩ := pow_unbounded_of_one_lt (K / ‖B‖) h1
      refine ⟨n + b.length, ?_⟩
      rw [mix_late b _ _ (by omega)]
      have : ∑ i ∈ range b.length, ((at0 b i : ℝ) : ℂ) * z ^ (n + b.length - i) = z ^ (n + b.length) * B := by
        rw [hB, mul_sum]
        refine sum_congr rfl fun i hi => ?_
        rw [mem_range] at hi
        rw [hpow _ i (by omega)]; ring
      rw [this, norm_mul, norm_pow]
      rw [div_lt_iff₀ hBp] at hn
      refine hn.trans_le (mul_le_mul_of_nonneg_right ?_ hBp.le)
      exact pow_le_pow_right₀ h1.le (by omega)
  · have hn1 : ∀ n : ℕ, ‖z ^ n‖ = 1 := fun n => by rw [norm_pow, ← h1, one_pow]
    have hsum : ∀ (c : List ℝ) (n : ℕ), c.length ≤ n → mix (fun i => ((at0 c i : ℝ) : ℂ)) (fun n : ℕ => (n : ℂ) * z ^ n) n =
        n * z ^ n * (∑ i ∈ range c.length, ((at0 c i : ℝ) : ℂ) * z⁻¹ ^ i) - ∑ i ∈ range c.length, ((at0 c i : ℝ) : ℂ) * (i * z ^ (n - i)) := by
      intro c n hn
      rw [mix_late c _ n hn, mul_sum, ← sum_sub_distrib]
      refine sum_congr rfl fun i hi => ?_
      rw [mem_range] at hi
      rw [hpow n i (by omega), Nat.cast_sub (by omega)]; ring
    have hrest : ∀ (c : List ℝ) (n : ℕ), ‖∑ i ∈ range c.length, ((at0 c i : ℝ) : ℂ) * (i * z ^ (n - i))‖ ≤ ∑ i ∈ range c.length, |at0 c i| * i := by
      intro c n
      refine (norm_sum_le _ _).trans (sum_le_sum fun i _ => ?_)
      rw [norm_mul, norm_mul, hn1]
      simp
    refine ⟨fun n => n * z ^ n, bounded_of_late _ a.length (∑ i ∈ range a.length, |at0 a i| * i) fun n hn => ?_, fun K => ?_⟩
    · rw [hsum a n hn, ha, mul_one, sub_sub_cancel]
      exact hrest a n
    · obtain ⟨n, hn⟩ := exists_nat_gt ((K + ∑ i ∈ range b.length, |at0 b i| * i) / ‖B‖)
      refine ⟨n + b.length, ?_⟩
      rw [hsum b _ (by omega)]
      have k1 := norm_sub_norm_le (((n + b.length : ℕ) : ℂ) * z ^ (n + b.length) * B) (∑ i ∈ range b.length, ((at0 b i : ℝ) : ℂ) * (i * z ^ (n + b.length - i)))
      have k2 := hrest b (n + b.length)
      rw [norm_mul, norm_mul, hn1, mul_one, Complex.norm_natCast] at k1
      rw [div_lt_iff₀ hBp] at hn
      have k3 : (n : ℝ) * ‖B‖ ≤ ((n + b.length : ℕ) : ℝ) * ‖B‖ := mul_le_mul_of_nonneg_right (by push_cast; linarith [Nat.cast_nonneg (α := ℝ) b.length]) hBp.le
      refine lt_of_lt_of_le ?_ k1
      linarith

/-- C148: a pole on or outside the unit circle which no zero cancels: some signal within one drives a new filter beyond every bound. -/
theorem C148_unbounded (a b : List ℝ) (hab : a ≠ [] ∨ b ≠ []) (h0 : at0 a 0 = 0) (z : ℂ) (hz : 1 ≤ ‖z‖) (hp : Pole a z)
    (hb : ∑ i ∈ range b.length, ((at0 b i : ℝ) : ℂ) * z⁻¹ ^ i ≠ 0) :
    ∃ g, Iir.new id (some a) (some b) none = .ok g ∧ ∃ x : ℕ → ℝ, (∀ n, |x n| ≤ 1) ∧
      ∀ K, ∃ N y g', g.filter ((List.range (N + 1)).map x) = (.ok y, g') ∧ y.length = N + 1 ∧ K < |at0 y N| := by
  obtain ⟨W, ⟨M, hM⟩, hW⟩ := growth a b h0 z hz hp hb
  have hM0 : 0 ≤ M := (norm_nonneg _).trans (hM 0)
  have hpart : ∀ (φ : ℂ →ₗ[ℝ] ℝ) (c : List ℝ) (n : ℕ), φ (mix (fun i => ((at0 c i : ℝ) : ℂ)) W n) = mix (at0 c) (fun m => φ (W m)) n := by
    intro φ c n
    unfold mix
    rw [map_sum]
    refine sum_congr rfl fun i _ => ?_
    rw [← Complex.real_smul, map_smul, smul_eq_mul]
  have hφ : ∃ φ : ℂ →ₗ[ℝ] ℝ, (∀ w, |φ w| ≤ ‖w‖) ∧ ∀ K, ∃ n, K < |mix (at0 b) (fun m => φ (W m)) n| := by
    by_contra hcon
    push Not at hcon
    obtain ⟨K1, k1⟩ := hcon Complex.reLm fun w => Complex.abs_re_le_norm w
    obtain ⟨K2, k2⟩ := hcon Complex.imLm fun w => Complex.abs_im_le_norm w
    obtain ⟨n, hn⟩ := hW (K1 + K2)
    have e1 := k1 n
    have e2 := k2 n
    rw [← hpart] at e1 e2
    have := Complex.norm_le_abs_re_add_abs_im (mix (fun i => ((at0 b i : ℝ) : ℂ)) W n)
    simp only [Complex.reLm_coe, Complex.imLm_coe] at e1 e2
    linarith
  obtain ⟨φ, hφ1, hφ2⟩ := hφ
  have hscale : ∀ (c : List ℝ) (n : ℕ), mix (at0 c) (fun m => φ (W m) / (M + 1)) n = mix (at0 c) (fun m => φ (W m)) n / (M + 1) := by
    intro c n
    unfold mix
    rw [sum_div]
    exact sum_congr rfl fun i _ => by ring
  obtain ⟨g, -, hg, -⟩ := run_mix a b hab h0 (fun m => φ (W m) / (M + 1)) 0
  refine ⟨g, hg, fun n => φ (W n) / (M + 1) - mix (at0 a) (fun m => φ (W m) / (M + 1)) n, fun n => ?_, fun K => ?_⟩
  · beta_reduce
    rw [hscale, ← sub_div, ← hpart, ← map_sub, abs_div, abs_of_pos (by linarith : 0 < M + 1), div_le_one (by linarith)]
    exact (hφ1 _).trans ((hM n).trans (by linarith))
  · obtain ⟨N, hN⟩ := hφ2 (K * (M + 1))
    obtain ⟨g2, g', hg2, hrun⟩ := run_mix a b hab h0 (fun m => φ (W m) / (M + 1)) N
    rw [hg] at hg2
    cases hg2
    refine ⟨N, _, g', hrun, by simp, ?_⟩
    rw [at0_prefix _ _ _ (by omega), hscale, abs_div, abs_of_pos (by linarith : 0 < M + 1), lt_div_iff₀ (by linarith)]
    exact hN

/-- The hypotheses hold: the accumulator, with its pole at one. -/
example := C148_unbounded [0, 1] [1] (.inl (by simp)) rfl 1 (by simp) (by unfold Pole; simp [at0]) (by simp [at0])

private theorem sum_pad (c : List ℝ) (m : ℕ) (z : ℂ) :
    ∑ i ∈ range (padTo m c).length, ((at0 (padTo m c) i : ℝ) : ℂ) * z⁻¹ ^ i = ∑ i ∈ range c.length, ((at0 c i : ℝ) : ℂ) * z⁻¹ ^ i := by
  have hat : ∀ i, at0 (padTo m c) i = at0 c i := at0_padTo c m
  symm
  simp only [hat]
  refine sum_subset (fun i hi => ?_) (fun i _ hi => ?_)
  · rw [mem_range] at hi ⊢; simp [padTo]; omega
  · rw [mem_range, not_lt] at hi
    rw [at0_of_le _ _ hi]; simp

/-- C148: every bounded signal gives a bounded output exactly when all reported poles are inside the unit circle, provided that no reported zero
cancels a pole on or outside it. -/
theorem C148_iff (a b : List ℝ) (h0 : at0 a 0 = 0) (hb : ∃ v ∈ b, v ≠ 0) (g : Iir ℝ) (hg : Iir.new id (some a) (some b) none = .ok g)
    (hcop : ∀ z ∈ (g.roots 1).1, 1 ≤ ‖z‖ → z ∉ (g.roots 1).2) :
    (∀ x : ℕ → ℝ, (∃ M, ∀ n, |x n| ≤ M) → ∃ C, ∀ N, ∃ y g', g.filter ((List.range (N + 1)).map x) = (.ok y, g') ∧ y.length = N + 1 ∧ |at0 y N| ≤ C) ↔
      ∀ z ∈ (g.roots 1).1, ‖z‖ < 1 := by
  obtain ⟨v0, hv0, hv1⟩ := hb
  have hbne : b ≠ [] := List.ne_nil_of_mem hv0
  obtain ⟨f, k1, kc, ka, kb, ks⟩ := Iir.new_spec id a b none (.inr hbne) h0
  rw [hg] at k1
  cases k1
  have hpos : 0 < max a.length b.length := lt_of_lt_of_le (List.length_pos_iff.mpr hbne) (le_max_right _ _)
  have kb' : g.b = padTo (max a.length b.length) b := by rw [kb]; simp
  have hane : g.a ≠ [] := by
    intro h
    have := congrArg List.length (ka.symm.trans h)
    have h2 : (padTo (max a.length b.length) a).length = a.length + (max a.length b.length - a.length) := by simp [padTo]
    rw [h2, List.length_nil] at this
    omega
  obtain ⟨-, -, hmem, hst⟩ := C66_iir_poles g hane
  constructor
  · intro H z hz
    by_contra hcon
    rw [not_lt] at hcon
    have hz0 : z ≠ 0 := by intro h; rw [h, norm_zero] at hcon; linarith
    have hga0 : at0 g.a 0 = 0 := by rw [ka, at0_padTo, h0]
    have hpole : Pole a z := by
      have := (pole_sum g.a hga0 z hz0).mp ((hmem z).mp hz)
      rw [ka, sum_pad] at this
      exact (pole_sum a h0 z hz0).mpr this
    have hB : ∑ i ∈ range b.length, ((at0 b i : ℝ) : ℂ) * z⁻¹ ^ i ≠ 0 := by
      intro hB
      apply hcop z hz hcon
      have hperm : (g.roots 1).2.Perm (np.roots (np.complexOf g.b)) := by
        unfold Iir.roots
        refine (sortAbs_perm _).trans ?_
        simp [np.tile]
      rw [hperm.mem_iff, np.roots, Multiset.mem_toList, Polynomial.mem_roots', Polynomial.IsRoot, ← isRootOf_iff]
      have key : ∀ w : ℂ, w ≠ 0 → ∑ i ∈ range g.b.length, ((at0 g.b i : ℝ) : ℂ) * w ^ (g.b.length - 1 - i) =
          w ^ (g.b.length - 1) * ∑ i ∈ range b.length, ((at0 b i : ℝ) : ℂ) * w⁻¹ ^ i := by
        intro w hw
        rw [← sum_pad b (max a.length b.length) w, ← kb', mul_sum]
        refine sum_congr rfl fun i hi => ?_
        rw [mem_range] at hi
        have : w ^ (g.b.length - 1) = w ^ (g.b.length - 1 - i) * w ^ i := by rw [← pow_add, Nat.sub_add_cancel (by omega)]
        rw [this, inv_pow]
        field_simp
      refine ⟨?_, ?_⟩
      · intro hzero
        obtain ⟨j, hj, hj'⟩ := List.mem_iff_getElem.mp (show v0 ∈ g.b by rw [kb']; simp [padTo, hv0])
        have h1 := np.coeff_toPoly (np.complexOf g.b) j (by simpa [np.complexOf] using hj)
        rw [hzero] at h1
        rw [at0_complexOf, at0_of_lt _ _ hj, hj', Polynomial.coeff_zero] at h1
        exact hv1 (by exact_mod_cast h1.symm)
      · unfold IsRootOf
        rw [key z hz0, hB, mul_zero]
    obtain ⟨g2, e1, x, e2, e3⟩ := C148_unbounded a b (.inr hbne) h0 z hcon hpole hB
    rw [hg] at e1
    cases e1
    obtain ⟨C, hC⟩ := H x ⟨1, e2⟩
    obtain ⟨N, y, g', f1, f2, f3⟩ := e3 C
    obtain ⟨y', g'', f4, f5, f6⟩ := hC N
    rw [f1] at f4
    cases f4
    linarith
  · intro H x ⟨M, hM⟩
    obtain ⟨K, hK⟩ := C13_stable_bibo g kc ⟨by rw [ka, kb']; simp [padTo], by rw [ks, kb]; simp [padTo], by rw [kb']; simp [padTo]; omega⟩
      (by rw [ks]; simp [padTo]) (by rw [ka, at0_padTo, h0]) (hst.mpr H)
    refine ⟨K * M, fun N => ?_⟩
    obtain ⟨y, g', e1, e2, e3⟩ := hK ((List.range (N + 1)).map x) M (by simp) (by simpa using fun n _ => hM n)
    refine ⟨y, g', e1, by simpa using e2, e3 _ ?_⟩
    have : N < y.length := by rw [e2]; simp
    rw [at0_of_lt _ _ this]
    exact List.getElem_mem _

/-- Concrete case: the accumulator has a pole at one, and no zero cancels it. -/
example : Pole [0, 1] 1 ∧ (1 : ℝ) ≤ ‖(1 : ℂ)‖ ∧ ∑ i ∈ range ([1] : List ℝ).length, ((at0 ([1] : List ℝ) i : ℝ) : ℂ) * (1 : ℂ)⁻¹ ^ i ≠ 0 := by
  refine ⟨?_, by simp, by simp [at0]⟩
  unfold Pole
  simp [at0]

/-- Concrete case of `C148_iff`: coefficients, the instance, and poles none of which is a zero. -/
example : ∃ g, Iir.new id (some [0, 1]) (some [1]) none = .ok g ∧ ∀ z ∈ (g.roots 1).1, 1 ≤ ‖z‖ → z ∉ (g.roots 1).2 := by
  obtain ⟨f, k1, kc, ka, kb, ks⟩ := Iir.new_spec (R := ℝ) id [0, 1] [1] none (.inl (by simp)) rfl
  refine ⟨f, k1, fun z hz h1 h2 => ?_⟩
  have hperm : (f.roots 1).2.Perm (np.roots (np.complexOf f.b)) := by
    unfold Iir.roots
    refine (sortAbs_perm _).trans ?_
    simp [np.tile]
  have hb : np.complexOf f.b = 1 :: [0] := by
    rw [kb]
    simp [padTo, np.complexOf]
  rw [hperm.mem_iff, hb, np.mem_roots _ _ _ one_ne_zero] at h2
  have : z = 0 := by simpa [np.polyval] using h2
  rw [this, norm_zero] at h1
  linarith

/-- C148: the condition on the zeros is needed.  A zero at one cancels the pole at one, and the filter returns the signal. -/
theorem C148_cancelled (x : List ℝ) (hx : x ≠ []) :
    Pole [0, 1] 1 ∧ ∃ g g', Iir.new id (some [0, 1]) (some [1, -1]) none = .ok g ∧ g.filter x = (.ok x, g') := by
  refine ⟨by unfold Pole; simp [at0], ?_⟩
  obtain ⟨g, y, g', h1, h2, h3⟩ := C07_iir_difference_equation [0, 1] [1, -1] x (.inl (by simp)) rfl hx
  have h4 : Recursion [0, 1] [1, -1] x x := by
    refine ⟨rfl, fun n _ => ?_⟩
    rcases n with _ | n
    · simp [at0]
    · have e1 : ∑ i ∈ Icc 1 (n + 1), at0 ([0, 1] : List ℝ) i * at0 x (n + 1 - i) = at0 x n := by
        have : ∑ i ∈ Icc 1 1, at0 ([0, 1] : List ℝ) i * at0 x (n + 1 - i) = ∑ i ∈ Icc 1 (n + 1), at0 ([0, 1] : List ℝ) i * at0 x (n + 1 - i) := by
          refine sum_subset (fun i hi => ?_) (fun i hi hi' => ?_)
          · rw [mem_Icc] at hi ⊢; omega
          · rw [mem_Icc] at hi hi'
            rw [at0_of_le _ _ (by simp; omega), zero_mul]
        rw [← this, Icc_self, sum_singleton]
        simp [at0]
      rw [e1, sum_range_succ', sum_range_succ']
      simp [at0]
  rw [Recursion.unique h3 h4] at h2
  exact ⟨g, g', h1, h2⟩

example : ([1, 2] : List ℝ) ≠ [] := by simp

end Verif.Props
