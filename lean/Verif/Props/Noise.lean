import Verif.Lemmas.Noise
import Verif.Props.Fir
import Verif.Props.Tables
import Verif.Props.Psd
import Verif.Props.Goertzel
import Verif.Props.IirState
import Verif.Props.Selectivity
import Mathlib.MeasureTheory.Integral.Bochner.SumMeasure

/-
C114.  White noise through the filters and transforms.
-/

namespace Verif.Props

open MeasureTheory ComplexConjugate Finset Spec

variable {Ω K : Type*} [MeasurableSpace Ω] [RCLike K] {μ : Measure Ω} [IsProbabilityMeasure μ] {N : ℕ} {σ : ℝ}

private theorem ser_impulse (R : Type*) [CommRing R] (L : ℕ) : ser ((1 : R) :: List.replicate L 0) = 1 := by
  have h0 : ser (List.replicate L (0 : R)) = 0 := by
    ext n
    by_cases hn : n < L <;> simp [at0, List.getElem?_replicate, hn]
  rw [ser_cons, h0]
  simp

/-- A signal with noise through a FirFilter: the mean is the signal filtered without noise, and the noise has the autocorrelation of `b`; once the
filter is full (`len(b) ≤ n + 1`) its power is `σ² ∑ |b|²`. -/
theorem C114_fir (b : List K) (s : Option (List K)) (hb : b ≠ []) (d : ℕ → K) (x : ℕ → Ω → K) (hN : 0 < N) (hx : White μ x N σ) :
    ∃ (f : Fir K) (y : Ω → List K) (m : List K) (g : Fir K), Fir.new id b s = .ok f ∧ (∀ ω, ∃ f', f.filter (noisy d x N ω) = (.ok (y ω), f')) ∧
      f.filter ((List.range N).map d) = (.ok m, g) ∧ ColouredNoise μ (fun ω => at0 (y ω)) N (at0 m) (at0 b) σ ∧
      ∀ n < N, b.length ≤ n + 1 → ∫ ω, ‖at0 (y ω) n - at0 m n‖ ^ 2 ∂μ = σ ^ 2 * (b.map fun v => ‖v‖ ^ 2).sum := by
  have hne : ∀ l : List K, l.length = N → l ≠ [] := fun l hl h => by rw [h] at hl; simp at hl; omega
  obtain ⟨f, m, g, h1, h2, h3, h4⟩ := C01_fir_difference_equation b s ((List.range N).map d) hb (hne _ (by simp))
  have key : ∀ ω, ∃ y f', f.filter (noisy d x N ω) = (.ok y, f') ∧
      ∀ n < N, at0 y n = ∑ i ∈ range (n + 1), at0 b i * (d (n - i) + x (n - i) ω) + tail b (s.getD []) n := by
    intro ω
    obtain ⟨f2, y, f', k1, k2, k3, k4⟩ := C01_fir_difference_equation b s (noisy d x N ω) hb (hne _ (by simp))
    rw [h1] at k1
    cases k1
    refine ⟨y, f', k2, fun n hn => ?_⟩
    rw [at0, List.getD_eq_getElem?_getD, k4 n (by simpa using hn), Option.getD_some, conv]
    congr 1
    refine sum_congr rfl fun i hi => ?_
    rw [at0_noisy d x N ω (n - i) (by omega)]
  choose y f' hy hyn using key
  have hcn : ColouredNoise μ (fun ω => at0 (y ω)) N (at0 m) (at0 b) σ := by
    refine hx.coloured d (at0 b) (tail b (s.getD [])) (at0 m) _ hyn fun n hn => ?_
    rw [at0, List.getD_eq_getElem?_getD, h4 n (by simpa using hn), Option.getD_some, conv]
    congr 1
    refine sum_congr rfl fun i hi => ?_
    simp [at0, show n - i < N by omega]
  refine ⟨f, y, m, g, h1, fun ω => ⟨_, hy ω⟩, h2, hcn, fun n hn hbn => ?_⟩
  rw [hcn.power n hn]
  congr 1
  have : (b.map fun v => ‖v‖ ^ 2).sum = ∑ i ∈ range b.length, ‖at0 b i‖ ^ 2 := by
    rw [← list_sum_range]
    congr 1
    apply List.ext_getElem
    · simp
    · intro i hi _
      simp at hi
      simp [at0_of_lt _ _ hi]
  rw [this]
  symm
  apply sum_subset (range_subset_range.2 hbn)
  intro i _ hi
  rw [at0_of_le _ _ (by simpa using hi)]
  simp

/-- The same for an IirFilter in any state; `h` is the answer of the filter with a zero state to the unit impulse. -/
theorem C114_iir (f : Iir K) (hc : f.cast = id) (hwf : f.WF) (h0 : at0 f.a 0 = 0) : ∃ h : ℕ → K,
    (∀ L, ∃ g, ({ f with s := List.replicate f.s.length 0 } : Iir K).filter (1 :: List.replicate L 0) = (.ok ((List.range (L + 1)).map h), g)) ∧
    ∀ (N : ℕ) (σ : ℝ) (d : ℕ → K) (x : ℕ → Ω → K), 0 < N → White μ x N σ → ∃ (y : Ω → List K) (m : List K) (g : Iir K),
      (∀ ω, ∃ f', f.filter (noisy d x N ω) = (.ok (y ω), f')) ∧ f.filter ((List.range N).map d) = (.ok m, g) ∧
      ColouredNoise μ (fun ω => at0 (y ω)) N (at0 m) h σ := by
  refine ⟨fun k => PowerSeries.coeff k (ser f.b * recip f.a), fun L => ?_, fun N σ d x hN hx => ?_⟩
  · obtain ⟨ys, g, k1, k2, k3⟩ := Iir.filter_series ({ f with s := List.replicate f.s.length 0 } : Iir K)
      ⟨by simpa using hwf.1, by simpa using hwf.2.1, hwf.2.2⟩ hc h0 (fun v hv => List.eq_of_mem_replicate hv) (1 :: List.replicate L 0) (by simp)
    refine ⟨g, ?_⟩
    rw [k1]
    congr 2
    have hone := ser_impulse K L
    apply List.ext_getElem?
    intro k
    by_cases hk : k < L + 1
    · rw [k3 k (by simpa using hk), hone, mul_one]
      simp [hk]
    · rw [List.getElem?_eq_none (by rw [k2]; simp; omega), List.getElem?_eq_none (by simp; omega)]
  · have hne : ∀ l : List K, l.length = N → l ≠ [] := fun l hl h => by rw [h] at hl; simp at hl; omega
    obtain ⟨u, hu, hsp⟩ := Iir.filter_split f hwf hc h0
    obtain ⟨m, g, m1, m2, m3⟩ := hsp ((List.range N).map d) (hne _ (by simp))
    have key : ∀ ω, ∃ y f', f.filter (noisy d x N ω) = (.ok y, f') ∧ ∀ n < N, at0 y n =
        ∑ i ∈ range (n + 1), PowerSeries.coeff i (ser f.b * recip f.a) * (d (n - i) + x (n - i) ω) +
        ∑ j ∈ range u.length, PowerSeries.coeff (n + 1 + j) (ser f.b * recip f.a) * at0 u (u.length - 1 - j) := by
      intro ω
      obtain ⟨y, f', k1, k2, k3⟩ := hsp (noisy d x N ω) (hne _ (by simp))
      refine ⟨y, f', k1, fun n hn => ?_⟩
      rw [k3 n (by simpa using hn)]
      congr 1
      refine sum_congr rfl fun i hi => ?_
      rw [at0_noisy d x N ω (n - i) (by omega)]
    choose y f' hy hyn using key
    refine ⟨y, m, g, fun ω => ⟨_, hy ω⟩, m1, hx.coloured d _ _ (at0 m) _ hyn fun n hn => ?_⟩
    rw [m3 n (by simpa using hn)]
    congr 1
    refine sum_congr rfl fun i hi => ?_
    simp [at0, show n - i < N by omega]

/-- The noise of a stable filter settles: its power approaches `σ² G` from below with a finite `G`, the sum of the squares of the impulse response. -/
theorem C114_iir_stable (f : Iir ℝ) (hc : f.cast = id) (hwf : f.WF) (h0 : at0 f.a 0 = 0) (hst : Stable f.a) : ∃ (h : ℕ → ℝ) (G : ℝ),
    (∀ L, ∃ g, ({ f with s := List.replicate f.s.length 0 } : Iir ℝ).filter (1 :: List.replicate L 0) = (.ok ((List.range (L + 1)).map h), g)) ∧
    HasSum (fun k => h k ^ 2) G ∧
    ∀ (N : ℕ) (σ : ℝ) (d : ℕ → ℝ) (x : ℕ → Ω → ℝ), 0 < N → White μ x N σ → ∃ (y : Ω → List ℝ) (m : List ℝ) (g : Iir ℝ),
      (∀ ω, ∃ f', f.filter (noisy d x N ω) = (.ok (y ω), f')) ∧ f.filter ((List.range N).map d) = (.ok m, g) ∧
      ∀ n < N, ∫ ω, at0 (y ω) n ∂μ = at0 m n ∧ ∫ ω, (at0 (y ω) n - at0 m n) ^ 2 ∂μ = σ ^ 2 * ∑ k ∈ range (n + 1), h k ^ 2 ∧
        ∫ ω, (at0 (y ω) n - at0 m n) ^ 2 ∂μ ≤ σ ^ 2 * G := by
  obtain ⟨h, hi, hn⟩ := C114_iir (μ := μ) f hc hwf h0
  have ha : f.a ≠ [] := fun e => by have := hwf.1; have := hwf.2.2; have := hwf.2.1; rw [e] at *; simp at *; omega
  obtain ⟨C, hC⟩ := stable_impulse f.a f.b h0 ha hst
  have hh : ∀ k, h k = PowerSeries.coeff k (ser f.b * recip f.a) := by
    intro k
    obtain ⟨ys, g, k1, k2, k3⟩ := Iir.filter_series ({ f with s := List.replicate f.s.length 0 } : Iir ℝ)
      ⟨by simpa using hwf.1, by simpa using hwf.2.1, hwf.2.2⟩ hc h0 (fun v hv => List.eq_of_mem_replicate hv) (1 :: List.replicate k 0) (by simp)
    obtain ⟨g', hg⟩ := hi k
    rw [k1] at hg
    cases hg
    have hone := ser_impulse ℝ k
    have := k3 k (by simp)
    rw [hone, mul_one] at this
    simpa using this
  have h3 : ∀ k, ‖PowerSeries.coeff k ((ser f.b * recip f.a).map Complex.ofRealHom)‖ = |h k| := fun k => by
    rw [PowerSeries.coeff_map, ← hh]; simp
  have hsum : Summable fun k => |h k| := by
    have := hC.summable
    simpa only [h3] using this
  have hsq : Summable fun k => h k ^ 2 := by
    have hb : ∀ k, |h k| ≤ C := fun k => by
      have := hC (k + 1)
      rw [sum_range_succ] at this
      have h2 : 0 ≤ ∑ i ∈ range k, ‖PowerSeries.coeff i ((ser f.b * recip f.a).map Complex.ofRealHom)‖ := sum_nonneg fun _ _ => norm_nonneg _
      rw [h3 k] at this
      linarith
    refine Summable.of_nonneg_of_le (fun k => sq_nonneg _) (fun k => ?_) (hsum.mul_left C)
    rw [← sq_abs, sq]
    exact mul_le_mul_of_nonneg_right (hb k) (abs_nonneg _)
  refine ⟨h, _, hi, hsq.hasSum, fun N σ d x hN hx => ?_⟩
  obtain ⟨y, m, g, y1, y2, y3⟩ := hn N σ d x hN hx
  refine ⟨y, m, g, y1, y2, fun n hnN => ?_⟩
  have hp := y3.power n hnN
  simp only [Real.norm_eq_abs, sq_abs] at hp
  refine ⟨y3.mean n hnN, hp, ?_⟩
  rw [hp]
  exact mul_le_mul_of_nonneg_left (hsq.sum_le_tsum _ fun _ _ => sq_nonneg _) (sq_nonneg _)

/-- White noise through an IntegralFilter is a random walk: the power grows without bound, at least as `σ²` times the number of samples after
the first `N`, where the order is `N`. -/
theorem C114_integral [DecidableEq K] (O : ℤ) (f : Iir K) (hf : Integral.new O = .ok f) (x : ℕ → Ω → K) (hN : 0 < N) (hx : White μ x N σ) :
    ∃ (b : List K) (y : Ω → List K), Integral.table O = some b ∧ (∀ ω, ∃ f', f.filter (noisy 0 x N ω) = (.ok (y ω), f')) ∧
      ColouredNoise μ (fun ω => at0 (y ω)) N 0 (fun k => ∑ i ∈ range (k + 1), at0 b i) σ ∧
      ∀ n < N, O.toNat ≤ n → σ ^ 2 * ((n : ℝ) + 1 - O.toNat) ≤ ∫ ω, ‖at0 (y ω) n‖ ^ 2 ∂μ := by
  have hne : ∀ l : List K, l.length = N → l ≠ [] := fun l hl h => by rw [h] at hl; simp at hl; omega
  have h00 : 0 ≤ O ∧ O ≤ 4 := by
    by_contra hc
    have := (C32_integral_weights (K := K) O).2 (by omega)
    obtain ⟨b, _, _, hb, _⟩ := C32_integral_running_sum O f hf [1] (by simp)
    rw [this] at hb
    cases hb
  obtain ⟨b, hb, hbl, hb1⟩ := (C32_integral_weights (K := K) O).1 h00
  have key : ∀ ω, ∃ y f', f.filter (noisy 0 x N ω) = (.ok y, f') ∧ ∀ n < N, at0 y n =
      ∑ k ∈ range (n + 1), (∑ i ∈ range (k + 1), at0 b i) * ((0 : ℕ → K) (n - k) + x (n - k) ω) + (0 : ℕ → K) n := by
    intro ω
    obtain ⟨b', y, f', k1, k2, k3⟩ := C32_integral_running_sum O f hf (noisy 0 x N ω) (hne _ (by simp))
    rw [hb] at k1
    cases k1
    refine ⟨y, f', k2, fun n hn => ?_⟩
    rw [at0, List.getD_eq_getElem?_getD, k3 n (by simpa using hn), Option.getD_some]
    have h1 : ∀ m ∈ range (n + 1), ∑ i ∈ range (m + 1), at0 b i * at0 (noisy 0 x N ω) (m - i) =
        ∑ j ∈ range (m + 1), at0 b (m - j) * x j ω := by
      intro m hm
      have hm := mem_range.1 hm
      rw [← sum_range_reflect]
      refine sum_congr rfl fun j hj => ?_
      have hj := mem_range.1 hj
      rw [at0_noisy _ _ _ _ _ (by omega), show m + 1 - 1 - j = m - j by omega, show m - (m - j) = j by omega]
      simp
    rw [sum_congr rfl h1, ← sum_range_reflect (fun k => _ * _), sum_comm' (t' := range (n + 1)) (s' := fun j => Ico j (n + 1))
      (h := fun m j => by simp only [mem_range, mem_Ico]; omega)]
    simp only [Pi.zero_apply, zero_add, add_zero]
    refine sum_congr rfl fun j hj => ?_
    have hj := mem_range.1 hj
    rw [sum_Ico_eq_sum_range, sum_mul, show n + 1 - 1 - j + 1 = n + 1 - j by omega, show n - (n + 1 - 1 - j) = j by omega]
    exact sum_congr rfl fun i _ => by rw [Nat.add_sub_cancel_left]
  choose y f' hy hyn using key
  have hcn := hx.coloured 0 _ 0 0 (fun ω => at0 (y ω)) hyn (fun n _ => by simp)
  refine ⟨b, y, hb, fun ω => ⟨_, hy ω⟩, hcn, fun n hn hOn => ?_⟩
  have hp := hcn.power n hn
  simp only [Pi.zero_apply, sub_zero] at hp
  rw [hp]
  apply mul_le_mul_of_nonneg_left _ (sq_nonneg _)
  have hbig : ∀ k, O.toNat ≤ k → ∑ i ∈ range (k + 1), at0 b i = 1 := by
    intro k hk
    rw [← hb1]
    symm
    apply sum_subset (range_subset_range.2 (by omega))
    intro i _ hi
    rw [at0_of_le _ _ (by simpa using hi)]
  calc ((n : ℝ) + 1 - O.toNat) = ∑ k ∈ Ico O.toNat (n + 1), ‖∑ i ∈ range (k + 1), at0 b i‖ ^ 2 := by
        rw [sum_congr rfl fun k hk => by rw [hbig k (mem_Ico.1 hk).1]]
        simp
        rw [Nat.cast_sub (by omega)]
        push_cast
        rfl
    _ ≤ _ := sum_le_sum_of_subset_of_nonneg (fun k hk => mem_range.2 (mem_Ico.1 hk).2) fun _ _ _ => sq_nonneg _

private theorem psd_frame (b : List ℂ) (index i k : ℕ) (hpos : 0 < b.length) (hin : i * index + b.length ≤ N) (d : ℕ → ℂ) (x : ℕ → Ω → ℂ)
    (hx : White μ x N σ) : Integrable (fun ω => framePower (noisy d x N ω) b index i k) μ ∧
      ∫ ω, framePower (noisy d x N ω) b index i k ∂μ = framePower ((List.range N).map d) b index i k +
        σ ^ 2 * (∑ i ∈ range b.length, ‖at0 b i‖ ^ 2) / b.length ^ 2 := by
  have hw := hx.shift (i * index) b.length hin
  obtain ⟨c, hc⟩ : ∃ c : ℕ → ℂ, c = fun n => at0 b n * phasor (-(2 * k / b.length * (n : ℝ))) / b.length := ⟨_, rfl⟩
  have hcn : ∀ n, ‖c n‖ ^ 2 = ‖at0 b n‖ ^ 2 / b.length ^ 2 := fun n => by
    rw [hc]
    simp only [norm_div, norm_mul, phasor_norm, mul_one, Complex.norm_natCast, div_pow]
  have e1 : ∀ ω, framePower (noisy d x N ω) b index i k = ‖∑ n ∈ range b.length, c n * (d (i * index + n) + x (i * index + n) ω)‖ ^ 2 := by
    intro ω
    rw [framePower, spectrumAt, sum_div, hc]
    congr 2
    refine sum_congr rfl fun n hn => ?_
    rw [at0_noisy _ _ _ _ _ (by have := mem_range.1 hn; omega)]
    ring
  have e2 : framePower ((List.range N).map d) b index i k = ‖∑ n ∈ range b.length, c n * d (i * index + n)‖ ^ 2 := by
    rw [framePower, spectrumAt, sum_div, hc]
    congr 2
    refine sum_congr rfl fun n hn => ?_
    have : at0 ((List.range N).map d) (i * index + n) = d (i * index + n) := by
      simp [at0, show i * index + n < N by have := mem_range.1 hn; omega]
    rw [this]
    ring
  have h1 := hw.integrable_noisy c fun n => d (i * index + n)
  have h2 := hw.power_noisy c fun n => d (i * index + n)
  simp only [← e1, ← e2, hcn, ← sum_div] at h1 h2
  exact ⟨h1, by rw [h2, mul_div_assoc]⟩

/-- White noise of power `σ²` raises the power spectral density by the same amount `σ² ∑ |b|² / len(b)²` at every frequency. -/
theorem C114_psd (b : List ℂ) (hb : ∃ v ∈ b, 1e-8 < ‖v‖) (index : ℕ) (hi : 0 < index) (hbN : b.length ≤ N) (d : ℕ → ℂ) (x : ℕ → Ω → ℂ)
    (hx : White μ x N σ) : ∃ (y : Ω → List ℝ) (f : Ω → List ℝ) (m : List ℝ) (f0 : List ℝ),
      (∀ ω, psd (noisy d x N ω) b index false = .ok (.mean (y ω), f ω)) ∧ psd ((List.range N).map d) b index false = .ok (.mean m, f0) ∧
      ∀ k < b.length / 2, ∫ ω, at0 (y ω) k ∂μ = at0 m k + σ ^ 2 * (∑ i ∈ range b.length, ‖at0 b i‖ ^ 2) / b.length ^ 2 := by
  obtain ⟨m, f0, m1, m2, m3, m4⟩ := C42_psd_mean ((List.range N).map d) b index hi (by simpa using hbN) hb
  have key := fun ω => C42_psd_mean (noisy d x N ω) b index hi (by simpa using hbN) hb
  choose y f y1 y2 y3 y4 using key
  refine ⟨y, f, m, f0, y1, m1, fun k hk => ?_⟩
  have hpos : 0 < b.length := by obtain ⟨v, hv, _⟩ := hb; exact List.length_pos_of_mem hv
  obtain ⟨p, p1, p2, p3⟩ := m4 k hk
  have hm : at0 m k = p := by rw [at0, List.getD_eq_getElem?_getD, p1, Option.getD_some]
  have hy : ∀ ω, at0 (y ω) k = (∑ i ∈ range ((N - b.length) / index + 1), framePower (noisy d x N ω) b index i k) /
      (((N - b.length) / index + 1 : ℕ) : ℝ) := fun ω => by
    obtain ⟨q, q1, _, q3⟩ := y4 ω k hk
    rw [at0, List.getD_eq_getElem?_getD, q1, Option.getD_some, q3]
    simp only [length_noisy]
  have hframe : ∀ i ∈ range ((N - b.length) / index + 1), i * index + b.length ≤ N := by
    intro i hi'
    have h1 : i ≤ (N - b.length) / index := by have := mem_range.1 hi'; omega
    have := (Nat.le_div_iff_mul_le hi).1 h1
    omega
  simp only [hy]
  rw [integral_div, integral_finsetSum _ fun i hi => (psd_frame b index i k hpos (hframe i hi) d x hx).1,
    sum_congr rfl fun i hi => (psd_frame b index i k hpos (hframe i hi) d x hx).2, sum_add_distrib, hm, p3]
  have hM : (((N - b.length) / index + 1 : ℕ) : ℝ) ≠ 0 := by positivity
  simp only [sum_const, card_range, nsmul_eq_mul, List.length_map, List.length_range]
  rw [add_div, mul_div_cancel_left₀ _ hM]

/-- ComplexBandpassFilter: noise of power `σ²` gives noise of power below `σ² rate / (2 - rate)`, which is approached. -/
theorem C114_bandpass (hilbert : List ℂ → List ℂ) (f : Bandpass) (hf : Bandpass.Reach hilbert f) (hr : 0 < f.rate) (d : ℕ → ℂ) (x : ℕ → Ω → ℂ)
    (hN : 0 < N) (hx : White μ x N σ) (hc : ∀ ω, prepare hilbert (noisy d x N ω) = noisy d x N ω)
    (hd : prepare hilbert ((List.range N).map d) = (List.range N).map d) :
    ∃ (out : Ω → List (ℂ × ℂ × ℂ)) (m : List (ℂ × ℂ × ℂ)) (g : Bandpass), (∀ ω, ∃ f', f.filter hilbert (noisy d x N ω) = (.ok (out ω), f')) ∧
      f.filter hilbert ((List.range N).map d) = (.ok m, g) ∧
      ColouredNoise μ (fun ω => at0 ((out ω).map fun t => t.1)) N (at0 (m.map fun t => t.1)) (bandImpulse f.rate f.frequency) σ ∧
      ∀ n < N, ∫ ω, ‖at0 ((out ω).map fun t => t.1) n - at0 (m.map fun t => t.1) n‖ ^ 2 ∂μ ≤ σ ^ 2 * (f.rate / (2 - f.rate)) := by
  have hne : ∀ l : List ℂ, l.length = N → l ≠ [] := fun l hl h => by rw [h] at hl; simp at hl; omega
  obtain ⟨m, g, m1, m2, m3⟩ := C102_output hilbert f hf ((List.range N).map d) (hne _ (by simp)) (by rw [hd]; exact hne _ (by simp))
  have key := fun ω => C102_output hilbert f hf (noisy d x N ω) (hne _ (by simp)) (by rw [hc ω]; exact hne _ (by simp))
  choose out f' o1 o2 o3 using key
  obtain ⟨h0, h1⟩ := hf.spec.2
  have hcn : ColouredNoise μ (fun ω => at0 ((out ω).map fun t => t.1)) N (at0 (m.map fun t => t.1)) (bandImpulse f.rate f.frequency) σ := by
    refine hx.coloured d _ (fun n => (1 - f.rate) ^ n * f.b * phasor (f.osc.phase + f.frequency * n)) _ _ (fun ω n hn => ?_) fun n hn => ?_
    · obtain ⟨y, e, b, q1, q2, _⟩ := o3 ω n (by rw [hc ω]; simpa using hn)
      simp only [at0, List.getD_eq_getElem?_getD, List.getElem?_map, q1, Option.map_some, Option.getD_some]
      rw [q2, hc ω]
      congr 1
      refine sum_congr rfl fun i hi => ?_
      rw [at0_noisy _ _ _ _ _ (by omega)]
    · obtain ⟨y, e, b, q1, q2, _⟩ := m3 n (by rw [hd]; simpa using hn)
      simp only [at0, List.getD_eq_getElem?_getD, List.getElem?_map, q1, Option.map_some, Option.getD_some]
      rw [q2, hd]
      congr 1
      refine sum_congr rfl fun i hi => ?_
      simp [at0, show n - i < N by omega]
  refine ⟨out, m, g, fun ω => ⟨_, o1 ω⟩, m1, hcn, fun n hn => ?_⟩
  rw [hcn.power n hn]
  apply mul_le_mul_of_nonneg_left _ (sq_nonneg _)
  have hs := C102_noise f.rate f.frequency hr h1
  rw [← hs.tsum_eq]
  exact hs.summable.sum_le_tsum _ fun _ _ => sq_nonneg _

/-- GoertzelFilter: the deviation from the value without noise has the power `σ² g² ∑ |w|² / len(w)²` at every frequency, with `g` one for complex
and two for real signals. -/
theorem C114_goertzel (w : List ℂ) (v : ℝ) (isComplex : Bool) (hw : ∃ u ∈ w, 1e-8 < ‖u‖) (hv : -1 ≤ v ∧ v ≤ 1) (d : ℕ → ℂ) (x : ℕ → Ω → ℂ)
    (hx : White μ x w.length σ) : ∃ (f : Goertzel ℂ ℝ) (y : Ω → ℂ) (m : ℂ) (f' : Goertzel ℂ ℝ), Goertzel.new w v = .ok f ∧
      (∀ ω, ∃ f', f.filter (goertzelGain isComplex) (noisy d x w.length ω) = (.ok [y ω], f')) ∧
      f.filter (goertzelGain isComplex) ((List.range w.length).map d) = (.ok [m], f') ∧ ∫ ω, y ω ∂μ = m ∧
      ∫ ω, ‖y ω - m‖ ^ 2 ∂μ = σ ^ 2 * (if isComplex then 1 else 4) * (∑ i ∈ range w.length, ‖at0 w i‖ ^ 2) / w.length ^ 2 := by
  have hpos : 0 < w.length := by obtain ⟨u, hu, _⟩ := hw; exact List.length_pos_of_mem hu
  have hone : ∀ l : List ℂ, l.length = w.length → l ≠ [] := fun l hl h => by rw [h] at hl; simp at hl; omega
  obtain ⟨c, hc⟩ : ∃ c : ℕ → ℂ, c = fun n => Complex.exp (Complex.I * Real.pi * v * (w.length - 1)) * ((if isComplex then 1 else 2) / w.length *
    (at0 w n * Complex.exp (-(Complex.I * Real.pi * v * n)))) := ⟨_, rfl⟩
  obtain ⟨f, _, _, hf, _⟩ := C22_goertzel_dft w v isComplex hw hv [] (by simp)
  have key : ∀ l : List ℂ, l.length = w.length → ∃ f', f.filter (goertzelGain isComplex) l = (.ok [∑ n ∈ range w.length, c n * at0 l n], f') := by
    intro l hl
    obtain ⟨f2, vs, f', k1, k2, k3⟩ := C22_goertzel_dft w v isComplex hw hv [l] (by simpa using hone l hl)
    rw [hf] at k1
    cases k1
    refine ⟨(f.filter (goertzelGain isComplex) l).2, ?_⟩
    have hb : blocks w.length [l].flatten = [l] := by
      simp [blocks, hl, Nat.div_self hpos]
    rw [hb] at k3
    have hval : vs = [∑ n ∈ range w.length, c n * at0 l n] := by
      rw [k3]
      simp only [List.map_cons, List.map_nil, dftSum, mul_sum, hc]
      congr 1
      exact sum_congr rfl fun n _ => by ring
    rw [← hval]
    simp only [callChunks] at k2
    cases hr : f.filter (goertzelGain isComplex) l with
    | mk r g =>
      rw [hr] at k2
      cases r with
      | error e => simp at k2
      | ok ys => simp at k2; rw [k2.1]
  have hcn : ∀ n, ‖c n‖ ^ 2 = (if isComplex then 1 else 4) * ‖at0 w n‖ ^ 2 / w.length ^ 2 := by
    intro n
    have h1 : ‖Complex.exp (-(Complex.I * Real.pi * v * n))‖ = 1 := by
      rw [show -(Complex.I * Real.pi * v * n) = ((-(Real.pi * v * n) : ℝ) : ℂ) * Complex.I by push_cast; ring, Complex.norm_exp_ofReal_mul_I]
    rw [hc]
    simp only [norm_mul, norm_div, C22_goertzel_phase_unit, h1, mul_one, one_mul, Complex.norm_natCast]
    cases isComplex <;> norm_num <;> ring
  choose g hg using fun ω => key (noisy d x w.length ω) (by simp)
  obtain ⟨g0, hg0⟩ := key ((List.range w.length).map d) (by simp)
  have em : ∑ n ∈ range w.length, c n * at0 ((List.range w.length).map d) n = ∑ n ∈ range w.length, c n * d n :=
    sum_congr rfl fun n hn => by simp [at0, mem_range.1 hn]
  have ey : ∀ ω, ∑ n ∈ range w.length, c n * at0 (noisy d x w.length ω) n = ∑ n ∈ range w.length, c n * (d n + x n ω) := fun ω =>
    sum_congr rfl fun n hn => by rw [at0_noisy _ _ _ _ _ (mem_range.1 hn)]
  rw [em] at hg0
  simp only [ey] at hg
  refine ⟨f, _, _, g0, hf, fun ω => ⟨_, hg ω⟩, hg0, hx.mean_linear c d, ?_⟩
  have hdev : ∀ ω, ∑ n ∈ range w.length, c n * (d n + x n ω) - ∑ n ∈ range w.length, c n * d n = ∑ n ∈ range w.length, c n * x n ω := fun ω => by
    rw [← sum_sub_distrib]
    exact sum_congr rfl fun n _ => by ring
  simp only [hdev]
  rw [hx.power_linear c]
  simp only [hcn, ← sum_div, ← mul_sum]
  ring

section Cases

/-- Two tosses of a coin ( a concrete case of noise, no counterpart in /repo ). -/
noncomputable def coins : Measure (Bool × Bool) := (4⁻¹ : ENNReal) • Measure.count

theorem coins_singleton (ω : Bool × Bool) : coins {ω} = 4⁻¹ := by
  rw [coins, Measure.smul_apply, Measure.count_singleton]; simp

instance : IsProbabilityMeasure coins := ⟨by
  rw [coins, Measure.smul_apply, Measure.count_univ, ENat.card_eq_coe_fintype_card]
  norm_num
  exact ENNReal.inv_mul_cancel (by norm_num) (by norm_num)⟩

/-- Noise of power one ( a concrete case, no counterpart in /repo ). -/
def toss (K : Type*) [RCLike K] (n : ℕ) (ω : Bool × Bool) : K := if (if n = 0 then ω.1 else ω.2) then 1 else -1

theorem toss_white (K : Type*) [RCLike K] : White coins (toss K) 2 1 := by
  have hr : ∀ ω, coins.real {ω} = 4⁻¹ := fun ω => by rw [Measure.real, coins_singleton]; norm_num
  have hI : ∀ f : Bool × Bool → K, ∫ ω, f ω ∂coins = ∑ ω, (4⁻¹ : ℝ) • f ω := fun f => by
    rw [integral_fintype .of_finite]; simp only [hr]
  have hI' : ∀ f : Bool × Bool → ℝ, ∫ ω, f ω ∂coins = ∑ ω, (4⁻¹ : ℝ) • f ω := fun f => by
    rw [integral_fintype .of_finite]; simp only [hr]
  refine ⟨fun i _ => MemLp.of_bound (by fun_prop) 1 (.of_forall fun ω => ?_), fun i hi => ?_, fun i hi => ?_, fun i hi j hj hij => ?_⟩
  · unfold toss; split_ifs <;> simp
  · rw [hI]
    obtain rfl | rfl : i = 0 ∨ i = 1 := by omega
    all_goals simp [toss, Fintype.sum_prod_type]
  · rw [hI']
    obtain rfl | rfl : i = 0 ∨ i = 1 := by omega
    all_goals simp [toss, Fintype.sum_prod_type]; norm_num
  · rw [hI]
    obtain rfl | rfl : i = 0 ∨ i = 1 := by omega
    all_goals obtain rfl | rfl : j = 0 ∨ j = 1 := by omega
    all_goals first | exact absurd rfl hij | simp [toss, Fintype.sum_prod_type]

/-- The hypotheses of `C114_fir`, `C114_iir`, `C114_psd` and `C114_goertzel`: noise exists. -/
example : White coins (toss ℝ) 2 1 ∧ White coins (toss ℂ) 2 1 := ⟨toss_white ℝ, toss_white ℂ⟩

/-- A mean of two samples halves the power of the noise. -/
example : ∃ (f : Fir ℝ) (y : Bool × Bool → List ℝ) (m : List ℝ) (g : Fir ℝ), Fir.new id [1 / 2, 1 / 2] none = .ok f ∧
    (∀ ω, ∃ f', f.filter (noisy (fun _ => 3) (toss ℝ) 2 ω) = (.ok (y ω), f')) ∧ f.filter [3, 3] = (.ok m, g) ∧
    ∫ ω, ‖at0 (y ω) 1 - at0 m 1‖ ^ 2 ∂coins = 1 / 2 := by
  obtain ⟨f, y, m, g, h1, h2, h3, _, h5⟩ := C114_fir [1 / 2, 1 / 2] none (by simp) (fun _ => 3) (toss ℝ) (by norm_num) (toss_white ℝ)
  refine ⟨f, y, m, g, h1, h2, h3, ?_⟩
  rw [h5 1 (by norm_num) (by simp)]
  norm_num

/-- The hypotheses of `C114_iir_stable`. -/
example : ({ cast := id, a := [0, 1 / 2], b := [1, 0], s := [0, 7] } : Iir ℝ).WF ∧ at0 [0, (1 / 2 : ℝ)] 0 = 0 ∧ Stable [0, 1 / 2] := by
  refine ⟨⟨rfl, rfl, by simp⟩, rfl, fun z hz => ?_⟩
  simp [Pole, at0] at hz
  rw [hz]
  norm_num

/-- The hypotheses of `C114_integral`. -/
example : ∃ f : Iir ℝ, Integral.new 1 = .ok f := by
  obtain ⟨f, -, -, hf, -⟩ := C07_iir_difference_equation (R := ℝ) [0, 1] (scaled (1 / 2) [1, 1]) [0] (.inl (by simp)) rfl (by simp)
  exact ⟨f, hf⟩

/-- The hypotheses of `C114_bandpass`: a constant imaginary signal with real noise is complex. -/
example : ∃ f, Bandpass.Reach id f ∧ 0 < f.rate ∧ (∀ ω, prepare id (noisy (fun _ => Complex.I) (toss ℂ) 2 ω) = noisy (fun _ => Complex.I) (toss ℂ) 2 ω) ∧
    prepare id ((List.range 2).map fun _ => Complex.I) = (List.range 2).map fun _ => Complex.I := by
  refine ⟨⟨(eps : ℂ), ⟨0⟩, 1/2, 1/10⟩, .new (v := 1/2) (r := 1/10) ?_, ?_, fun ω => ?_, ?_⟩
  · norm_num [Bandpass.new]
  · norm_num
  · simp [prepare]
  · simp [prepare]

end Cases

end Verif.Props
