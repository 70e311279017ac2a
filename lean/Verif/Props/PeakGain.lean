import Verif.Props.Energy

/-
C178.  By how much an IirFilter may amplify a bounded signal: exactly by the sum of the magnitudes of its impulse response.  A Butterworth design of order two or
more amplifies some bounded signal by more than its gain, although it amplifies no energy ( C170 ).
-/

namespace Verif.Props

open Finset Spec

/-! ### The largest amplification -/

/-- C178.  A stable IirFilter without a past: the sum `G` of the magnitudes of its impulse response bounds the output for every bounded signal, no smaller factor
does, and the magnitude of the response is nowhere larger. -/
theorem C178_iir (g : Iir ℝ) (hc : g.cast = id) (hwf : g.WF) (hz : ∀ v ∈ g.s, v = 0) (h0 : at0 g.a 0 = 0) (hst : Stable g.a) : ∃ (h : ℕ → ℝ) (G : ℝ),
    (∀ n, ∃ y g', g.filter (1 :: List.replicate n 0) = (.ok y, g') ∧ at0 y n = h n) ∧ HasSum (fun n => |h n|) G ∧
    (∀ (x : List ℝ) (M : ℝ), x ≠ [] → (∀ v ∈ x, |v| ≤ M) → ∃ y g', g.filter x = (.ok y, g') ∧ y.length = x.length ∧ ∀ v ∈ y, |v| ≤ G * M) ∧
    (∀ r < G, ∃ x : List ℝ, x ≠ [] ∧ (∀ v ∈ x, |v| ≤ 1) ∧ ∃ y g', g.filter x = (.ok y, g') ∧ ∃ v ∈ y, r < |v|) ∧
    (∀ u, ‖freqResp g.a g.b u‖ ≤ G) ∧
    ∀ u : ℝ, Filter.Tendsto (fun n => ∑ i ∈ range n, ((h i : ℝ) : ℂ) * Complex.exp (-(Complex.I * Real.pi * u * i))) Filter.atTop (nhds (freqResp g.a g.b u)) := by
  have hga := wf_ne hwf
  obtain ⟨K, hK⟩ := stable_impulse g.a g.b h0 hga hst
  have hsum : Summable fun n => |PowerSeries.coeff n (ser g.b * recip g.a)| := by
    have := hK.summable
    simp only [PowerSeries.coeff_map] at this
    exact this.congr fun n => by simp
  have hcoef : ∀ i, PowerSeries.coeff i (ser (np.complexOf g.b) * recip (np.complexOf g.a)) = ((PowerSeries.coeff i (ser g.b * recip g.a) : ℝ) : ℂ) := by
    intro i
    rw [← ser_map_ofReal, ← recip_map _ h0, ← map_mul, PowerSeries.coeff_map]; rfl
  have hlim := fun u => (impulse_sum g.a g.b h0 hga hst u).2
  simp only [hcoef] at hlim
  have hconv := filter_conv g hwf hc h0 hz
  generalize ser g.b * recip g.a = φ at *
  refine ⟨fun n => PowerSeries.coeff n φ, ∑' n, |PowerSeries.coeff n φ|, fun n => ?_, hsum.hasSum, fun x M hx hM => ?_, fun r hr => ?_, fun u => ?_, hlim⟩
  · obtain ⟨y, g', h1, h2, h3⟩ := hconv (1 :: List.replicate n 0) (by simp)
    refine ⟨y, g', h1, ?_⟩
    rw [h3 n (by simp), sum_range_succ, sum_eq_zero, zero_add, Nat.sub_self]
    · simp [at0]
    · intro i hi
      have := mem_range.mp hi
      obtain ⟨m, hm⟩ : ∃ m, n - i = m + 1 := ⟨n - i - 1, by omega⟩
      rw [hm]
      by_cases hmn : m < n <;> simp [at0, hmn]
  · obtain ⟨y, g', h1, h2, h3⟩ := hconv x hx
    refine ⟨y, g', h1, h2, fun v hv => ?_⟩
    obtain ⟨n, hn, rfl⟩ := List.getElem_of_mem hv
    have hM0 : 0 ≤ M := by
      obtain ⟨w, hw⟩ := List.exists_mem_of_ne_nil x hx
      exact (abs_nonneg w).trans (hM w hw)
    have hat : ∀ k, |at0 x k| ≤ M := by
      intro k
      by_cases hk : k < x.length
      · rw [at0_of_lt _ _ hk]; exact hM _ (List.getElem_mem hk)
      · rw [at0_of_le _ _ (by omega)]; simpa using hM0
    rw [← at0_of_lt _ _ hn, h3 n (by omega)]
    calc |∑ i ∈ range (n + 1), PowerSeries.coeff i φ * at0 x (n - i)| ≤ ∑ i ∈ range (n + 1), |PowerSeries.coeff i φ * at0 x (n - i)| := abs_sum_le_sum_abs _ _
      _ ≤ ∑ i ∈ range (n + 1), |PowerSeries.coeff i φ| * M := sum_le_sum fun i _ => by rw [abs_mul]; exact mul_le_mul_of_nonneg_left (hat _) (abs_nonneg _)
      _ = (∑ i ∈ range (n + 1), |PowerSeries.coeff i φ|) * M := by rw [sum_mul]
      _ ≤ _ := mul_le_mul_of_nonneg_right (hsum.sum_le_tsum _ fun _ _ => abs_nonneg _) hM0
  · obtain ⟨n, hn⟩ := (hsum.hasSum.tendsto_sum_nat.eventually (lt_mem_nhds hr)).exists
    set x : List ℝ := (List.range (n + 1)).map fun m => ((SignType.sign (PowerSeries.coeff (n - m) φ) : SignType) : ℝ) with hxd
    have hx : x ≠ [] := by simp [hxd]
    obtain ⟨y, g', h1, h2, h3⟩ := hconv x hx
    have hl : x.length = n + 1 := by simp [hxd]
    refine ⟨x, hx, fun v hv => ?_, y, g', h1, at0 y n, ?_, ?_⟩
    · obtain ⟨m, -, rfl⟩ := List.mem_map.mp hv
      rcases SignType.sign (PowerSeries.coeff (n - m) φ) <;> simp
    · rw [at0_of_lt _ _ (by omega)]; exact List.getElem_mem _
    · rw [h3 n (by omega)]
      have : ∑ i ∈ range (n + 1), PowerSeries.coeff i φ * at0 x (n - i) = ∑ i ∈ range (n + 1), |PowerSeries.coeff i φ| := by
        refine sum_congr rfl fun i hi => ?_
        have := mem_range.mp hi
        rw [hxd, at0_sampled _ _ _ (by omega), show n - (n - i) = i by omega, self_mul_sign]
      rw [this, abs_of_nonneg (sum_nonneg fun _ _ => abs_nonneg _), sum_range_succ]
      linarith [abs_nonneg (PowerSeries.coeff n φ)]
  · refine le_of_tendsto ((continuous_norm.tendsto _).comp (hlim u)) (Filter.Eventually.of_forall fun n => ?_)
    refine (norm_sum_le _ _).trans (le_trans (le_of_eq (sum_congr rfl fun i _ => ?_)) (hsum.sum_le_tsum (range n) fun _ _ => abs_nonneg _))
    rw [norm_mul, show -(Complex.I * Real.pi * u * i) = ((-(Real.pi * u * i) : ℝ) : ℂ) * Complex.I by push_cast; ring, Complex.norm_exp_ofReal_mul_I, mul_one,
      Complex.norm_real, Real.norm_eq_abs]

/-! ### A flat response and a nonnegative impulse response exclude each other -/

private theorem two_terms (a b u : ℝ) (p q : ℕ) : ‖(a : ℂ) * Complex.exp (-(Complex.I * Real.pi * u * p)) + (b : ℂ) * Complex.exp (-(Complex.I * Real.pi * u * q))‖ ^ 2 =
    (a + b) ^ 2 - 2 * (a * b) * (1 - Real.cos (Real.pi * u * ((p : ℝ) - q))) := by
  have he : ∀ n : ℕ, Complex.exp (-(Complex.I * Real.pi * u * n)) = ⟨Real.cos (Real.pi * u * n), -Real.sin (Real.pi * u * n)⟩ := by
    intro n
    rw [show -(Complex.I * Real.pi * u * n) = ((-(Real.pi * u * n) : ℝ) : ℂ) * Complex.I by push_cast; ring]
    apply Complex.ext
    · rw [Complex.exp_ofReal_mul_I_re, Real.cos_neg]
    · rw [Complex.exp_ofReal_mul_I_im, Real.sin_neg]
  rw [he, he, ← Complex.normSq_eq_norm_sq, Complex.normSq_apply, show Real.pi * u * ((p : ℝ) - q) = Real.pi * u * p - Real.pi * u * q by ring, Real.cos_sub]
  simp
  linear_combination a ^ 2 * Real.sin_sq_add_cos_sq (Real.pi * u * p) + b ^ 2 * Real.sin_sq_add_cos_sq (Real.pi * u * q)

private theorem curved (h : ℕ → ℝ) (hp : ∀ n, 0 ≤ h n) (h1 : HasSum h 1) (H : ℝ → ℂ)
    (hH : ∀ u : ℝ, Filter.Tendsto (fun n => ∑ i ∈ range n, ((h i : ℝ) : ℂ) * Complex.exp (-(Complex.I * Real.pi * u * i))) Filter.atTop (nhds (H u)))
    (p q : ℕ) (hpq : p ≠ q) (u : ℝ) (u0 : 0 ≤ u) (u1 : u * (p + q) ≤ 1) : ‖H u‖ ≤ 1 - 2 * (h p * h q) * u ^ 2 := by
  have hpi := Real.pi_pos
  set e : ℕ → ℂ := fun i => Complex.exp (-(Complex.I * Real.pi * u * i)) with he
  have hn1 : ∀ i, ‖e i‖ = 1 := fun i => by
    simp only [he]
    rw [show -(Complex.I * Real.pi * u * i) = ((-(Real.pi * u * i) : ℝ) : ℂ) * Complex.I by push_cast; ring, Complex.norm_exp_ofReal_mul_I]
  have hsub : ∀ n, ∑ i ∈ range n, h i ≤ 1 := fun n => sum_le_hasSum (range n) (fun i _ => hp i) h1
  have hle : ‖H u‖ ≤ ‖(h p : ℂ) * e p + (h q : ℂ) * e q‖ + (1 - h p - h q) := by
    refine le_of_tendsto ((continuous_norm.tendsto _).comp (hH u)) ?_
    filter_upwards [Filter.eventually_gt_atTop (p + q)] with n hn
    have mp : p ∈ range n := mem_range.mpr (by omega)
    have mq : q ∈ (range n).erase p := mem_erase.mpr ⟨hpq.symm, mem_range.mpr (by omega)⟩
    simp only [Function.comp_apply]
    have split : ∀ (F : ℕ → ℂ), ∑ i ∈ range n, F i = (F p + F q) + ∑ i ∈ ((range n).erase p).erase q, F i := fun F => by
      rw [← add_sum_erase _ _ mp, ← add_sum_erase _ _ mq, add_assoc]
    have splitR : ∑ i ∈ range n, h i = (h p + h q) + ∑ i ∈ ((range n).erase p).erase q, h i := by
      rw [← add_sum_erase _ _ mp, ← add_sum_erase _ _ mq, add_assoc]
    rw [split]
    refine (norm_add_le _ _).trans ?_
    have : ‖∑ i ∈ ((range n).erase p).erase q, (h i : ℂ) * e i‖ ≤ ∑ i ∈ ((range n).erase p).erase q, h i := by
      refine (norm_sum_le _ _).trans (le_of_eq (sum_congr rfl fun i _ => ?_))
      rw [norm_mul, hn1, mul_one, Complex.norm_real, Real.norm_eq_abs, abs_of_nonneg (hp i)]
    have := hsub n
    simp only [he] at *
    linarith
  have ht := two_terms (h p) (h q) u p q
  simp only [he] at hle
  set t := ‖(h p : ℂ) * Complex.exp (-(Complex.I * Real.pi * u * p)) + (h q : ℂ) * Complex.exp (-(Complex.I * Real.pi * u * q))‖ with htd
  have t0 : 0 ≤ t := norm_nonneg _
  have hab : h p + h q ≤ 1 := by
    have := sum_le_hasSum {p, q} (fun i _ => hp i) h1
    rwa [sum_pair hpq] at this
  have hd : (1 : ℝ) ≤ ((p : ℝ) - q) ^ 2 := by
    have : (1 : ℤ) ≤ ((p : ℤ) - q) ^ 2 := by
      have : (p : ℤ) - q ≠ 0 := by omega
      have := sq_pos_of_ne_zero this
      omega
    exact_mod_cast this
  have hcos : Real.cos (Real.pi * u * ((p : ℝ) - q)) ≤ 1 - 2 * u ^ 2 := by
    have hb : |Real.pi * u * ((p : ℝ) - q)| ≤ Real.pi := by
      rw [abs_mul, abs_of_nonneg (by positivity)]
      have : |(p : ℝ) - q| ≤ p + q := by
        rw [abs_le]; constructor <;> linarith [Nat.cast_nonneg (α := ℝ) p, Nat.cast_nonneg (α := ℝ) q]
      calc Real.pi * u * |(p : ℝ) - q| ≤ Real.pi * u * (p + q) := mul_le_mul_of_nonneg_left this (by positivity)
        _ = Real.pi * (u * (p + q)) := by ring
        _ ≤ Real.pi * 1 := mul_le_mul_of_nonneg_left u1 hpi.le
        _ = Real.pi := mul_one _
    refine (Real.cos_le_one_sub_mul_cos_sq hb).trans ?_
    have : 2 / Real.pi ^ 2 * (Real.pi * u * ((p : ℝ) - q)) ^ 2 = 2 * u ^ 2 * ((p : ℝ) - q) ^ 2 := by field_simp
    rw [this]
    nlinarith [sq_nonneg u]
  have hab0 : 0 ≤ h p * h q := mul_nonneg (hp p) (hp q)
  have hs0 : 0 ≤ h p + h q := add_nonneg (hp p) (hp q)
  have h5 : t ^ 2 ≤ (h p + h q) ^ 2 - 2 * (h p * h q) * (2 * u ^ 2) := by
    rw [ht]
    nlinarith
  have h6 : t ≤ h p + h q := by
    refine abs_le_of_sq_le_sq' ?_ hs0 |>.2
    nlinarith [mul_nonneg hab0 (sq_nonneg u)]
  have h7 : 2 * (h p * h q) * u ^ 2 ≤ h p + h q - t := by
    nlinarith [mul_nonneg hab0 (sq_nonneg u)]
  linarith

private theorem not_flat (h : ℕ → ℝ) (hp : ∀ n, 0 ≤ h n) (h1 : HasSum h 1) (H : ℝ → ℂ)
    (hH : ∀ u : ℝ, Filter.Tendsto (fun n => ∑ i ∈ range n, ((h i : ℝ) : ℂ) * Complex.exp (-(Complex.I * Real.pi * u * i))) Filter.atTop (nhds (H u)))
    (K δ : ℝ) (hδ : 0 < δ) (hK : ∀ u, 0 < u → u < δ → 1 - K * u ^ 4 ≤ ‖H u‖) (v : ℝ) (hv : ‖H v‖ < 1) : False := by
  by_cases htwo : ∃ p q, p ≠ q ∧ 0 < h p ∧ 0 < h q
  · obtain ⟨p, q, hpq, p0, q0⟩ := htwo
    have hab : 0 < h p * h q := mul_pos p0 q0
    have hab1 : h p * h q ≤ 1 := by
      have := sum_le_hasSum {p, q} (fun i _ => hp i) h1
      rw [sum_pair hpq] at this
      nlinarith
    have hpq1 : (1 : ℝ) ≤ p + q := by exact_mod_cast (show 1 ≤ p + q by omega)
    set u := min (δ / 2) (min (1 / ((p : ℝ) + q)) (h p * h q / (|K| + 1))) with hu
    have hK0 := abs_nonneg K
    have u0 : 0 < u := lt_min (by positivity) (lt_min (by positivity) (by positivity))
    have ua : u < δ := (min_le_left _ _).trans_lt (by linarith)
    have ub : u ≤ 1 / ((p : ℝ) + q) := (min_le_right _ _).trans (min_le_left _ _)
    have uc : u ≤ h p * h q / (|K| + 1) := (min_le_right _ _).trans (min_le_right _ _)
    have ub' : u * (p + q) ≤ 1 := by rwa [le_div_iff₀ (by positivity)] at ub
    have u1 : u ≤ 1 := by nlinarith
    rw [le_div_iff₀ (by positivity)] at uc
    have e1 := (hK u u0 ua).trans (curved h hp h1 H hH p q hpq u u0.le ub')
    have e2 : 2 * (h p * h q) * u ^ 2 ≤ K * u ^ 2 * u ^ 2 := by nlinarith
    have e3 : 2 * (h p * h q) ≤ K * u ^ 2 := le_of_mul_le_mul_right e2 (by positivity)
    have e4 : K * u ^ 2 ≤ |K| * u := by
      calc K * u ^ 2 ≤ |K| * u ^ 2 := mul_le_mul_of_nonneg_right (le_abs_self K) (sq_nonneg _)
        _ ≤ |K| * u := mul_le_mul_of_nonneg_left (by nlinarith) hK0
    nlinarith
  · push Not at htwo
    obtain ⟨p, hp0⟩ : ∃ p, h p ≠ 0 := by
      by_contra hall
      push Not at hall
      have : h = fun _ => 0 := funext hall
      rw [this] at h1
      exact zero_ne_one (hasSum_zero.unique h1)
    have hz : ∀ q, q ≠ p → h q = 0 := fun q hq => le_antisymm (htwo p q hq.symm (lt_of_le_of_ne (hp p) hp0.symm)) (hp q)
    have hhp : h p = 1 := (hasSum_single p hz).unique h1
    have : H v = Complex.exp (-(Complex.I * Real.pi * v * p)) := by
      refine tendsto_nhds_unique (hH v) (tendsto_const_nhds.congr' ?_)
      filter_upwards [Filter.eventually_gt_atTop p] with n hn
      rw [sum_eq_single_of_mem p (mem_range.mpr hn) fun i _ hi => by rw [hz i hi]; simp, hhp]
      simp
    rw [this, show -(Complex.I * Real.pi * v * p) = ((-(Real.pi * v * p) : ℝ) : ℂ) * Complex.I by push_cast; ring, Complex.norm_exp_ofReal_mul_I] at hv
    exact lt_irrefl _ hv

/-! ### Butterworth designs -/

/-- C178.  A Butterworth design, low pass or high pass, of order two or more: some signal with samples between -1 and 1 has an output larger than the gain. -/
theorem C178_butterworth (residue : List ℝ → List ℝ → List ℂ × List ℂ) (hres : ResidueSpec residue) (f : ℝ) (hf : 0 < f)
    (hf1 : f < 1) (order count : ℤ) (ho : 2 ≤ order) (hcount : 0 < count) (complement : Bool) (gain : ℝ) (hg : gain ≠ 0) :
    ∃ g, Iir.newDesign residue (some .butterworth) f order count complement gain none = .ok g ∧
      ∃ x : List ℝ, x ≠ [] ∧ (∀ v ∈ x, |v| ≤ 1) ∧ ∃ y g', g.filter x = (.ok y, g') ∧ ∃ v ∈ y, |gain| < |v| := by
  have hpi := Real.pi_pos
  have hgp : 0 < |gain| := abs_pos.mpr hg
  obtain ⟨g, κ, g1, k0, hsh⟩ := C88_shape residue hres f hf hf1 order count (by omega) hcount complement gain
  refine ⟨g, g1, ?_⟩
  obtain ⟨g', d1, d2, d3, d4, d5, -, d6, -⟩ := Iir.newDesign_spec residue hres .butterworth f hf hf1 order count (by omega) hcount complement gain
  rw [g1] at d1
  cases d1
  obtain ⟨h, G, -, hG, -, hatt, hle, hlim⟩ := C178_iir g d2 d3 d4 d5 d6
  apply hatt
  by_contra hcon
  push Not at hcon
  set c : ℝ := if complement then -1 else 1 with hcd
  have hc2 : ∀ i : ℕ, |c ^ i| = 1 := fun i => by rw [abs_pow, hcd]; split <;> simp
  set u0 : ℝ := if complement then 1 else 0 with hu0
  have hmod : ∀ (u : ℝ) (i : ℕ), Complex.exp (-(Complex.I * Real.pi * ((u + u0 : ℝ) : ℂ) * i)) = ((c ^ i : ℝ) : ℂ) * Complex.exp (-(Complex.I * Real.pi * u * i)) := by
    intro u i
    rw [hu0, hcd]
    cases complement
    · simp
    · simp only [if_true]
      push_cast
      rw [show -(Complex.I * Real.pi * ((u : ℂ) + 1) * i) = (i : ℂ) * (-(Real.pi * Complex.I)) + -(Complex.I * Real.pi * u * i) by ring, Complex.exp_add,
        Complex.exp_nat_mul, Complex.exp_neg, Complex.exp_pi_mul_I]
      norm_num
  have hnorm : ∀ u : ℝ, -1 < u → u < 1 → ‖freqResp g.a g.b (u + u0)‖ = |gain| / Real.sqrt (1 + (κ * Real.tan (Real.pi * u / 2)) ^ (2 * order.toNat)) := by
    intro u l1 l2
    rw [← hsh u l1 l2, hu0]
    cases complement
    · simp
    · simp only [if_true]
      rw [show u + 1 = (-(1 - u)) + 2 by ring, freqResp_period, freqResp_neg]
  have hsum : Summable fun i => c ^ i * h i := by
    refine Summable.of_norm (hG.summable.congr fun i => ?_)
    rw [Real.norm_eq_abs, abs_mul, hc2, one_mul]
  have hr : |∑' i, c ^ i * h i| = |gain| := by
    have t1 := hlim (0 + u0)
    simp only [hmod] at t1
    have t2 : Filter.Tendsto (fun n => ∑ i ∈ range n, ((h i : ℝ) : ℂ) * (((c ^ i : ℝ) : ℂ) * Complex.exp (-(Complex.I * Real.pi * ((0 : ℝ) : ℂ) * i)))) Filter.atTop
        (nhds (((∑' i, c ^ i * h i : ℝ)) : ℂ)) := by
      refine ((Complex.continuous_ofReal.tendsto _).comp hsum.hasSum.tendsto_sum_nat).congr fun n => ?_
      simp only [Function.comp_apply]
      push_cast
      refine sum_congr rfl fun i _ => ?_
      simp
      ring
    have t3 := tendsto_nhds_unique t2 t1
    have t4 := hnorm 0 (by norm_num) (by norm_num)
    rw [← t3, Complex.norm_real, Real.norm_eq_abs] at t4
    rw [t4, mul_zero, zero_div, Real.tan_zero, mul_zero, zero_pow (by omega)]
    simp
  -- all values have the sign of the sum
  obtain ⟨s, hs1, hs⟩ : ∃ s : ℝ, |s| = 1 ∧ s * ∑' i, c ^ i * h i = |gain| := by
    rcases le_total 0 (∑' i, c ^ i * h i) with hh | hh
    · exact ⟨1, by simp, by rw [one_mul, ← hr, abs_of_nonneg hh]⟩
    · exact ⟨-1, by simp, by rw [← hr, abs_of_nonpos hh]; ring⟩
  have hGe : G = |gain| := le_antisymm hcon (by
    have := hle (0 + u0)
    rw [hnorm 0 (by norm_num) (by norm_num), mul_zero, zero_div, Real.tan_zero, mul_zero, zero_pow (by omega)] at this
    simpa using this)
  have hnn : ∀ i, 0 ≤ |h i| - s * (c ^ i * h i) := fun i => by
    have : s * (c ^ i * h i) ≤ |s * (c ^ i * h i)| := le_abs_self _
    rw [abs_mul, hs1, one_mul, abs_mul, hc2, one_mul] at this
    linarith
  have hz : HasSum (fun i => |h i| - s * (c ^ i * h i)) 0 := by
    have := hG.sub (hsum.hasSum.mul_left s)
    rwa [hs, hGe, sub_self] at this
  have hall : ∀ i, |h i| = s * (c ^ i * h i) := fun i => by
    have := congrFun ((hasSum_zero_iff_of_nonneg hnn).mp hz) i
    simp only [Pi.zero_apply] at this
    linarith
  -- the normalised sequence is flat
  refine not_flat (fun i => |h i| / |gain|) (fun i => by positivity) ?_ (fun u => ((s / |gain| : ℝ) : ℂ) * freqResp g.a g.b (u + u0)) (fun u => ?_)
    ((κ * Real.pi) ^ 4) (min (1 / 2) (1 / (κ * Real.pi))) (lt_min (by norm_num) (by positivity)) (fun u u0' u1 => ?_) (1 / 2) ?_
  · have := hG.div_const |gain|
    rwa [hGe, div_self hgp.ne'] at this
  · refine ((hlim (u + u0)).const_mul ((s / |gain| : ℝ) : ℂ)).congr fun n => ?_
    rw [mul_sum]
    refine sum_congr rfl fun i _ => ?_
    rw [hmod, hall]
    push_cast
    ring
  · have ua : u < 1 / 2 := u1.trans_le (min_le_left _ _)
    have ub : u < 1 / (κ * Real.pi) := u1.trans_le (min_le_right _ _)
    rw [lt_div_iff₀ (by positivity)] at ub
    have ht0 : 0 ≤ Real.tan (Real.pi * u / 2) := (Real.tan_pos_of_pos_of_lt_pi_div_two (by positivity) (by nlinarith)).le
    have hx1 : Real.pi * u / 2 ≤ 1 := by nlinarith [Real.pi_lt_four]
    have hc : 1 / 2 ≤ Real.cos (Real.pi * u / 2) := by
      have := Real.one_sub_sq_div_two_le_cos (x := Real.pi * u / 2)
      have h2 : 0 ≤ Real.pi * u / 2 := by positivity
      have : (Real.pi * u / 2) ^ 2 ≤ 1 := by nlinarith
      linarith
    have ht : Real.tan (Real.pi * u / 2) ≤ Real.pi * u := by
      rw [Real.tan_eq_sin_div_cos, div_le_iff₀ (by linarith)]
      have h1 := Real.sin_le (show 0 ≤ Real.pi * u / 2 by positivity)
      nlinarith [mul_nonneg hpi.le u0'.le]
    have hy : (κ * Real.tan (Real.pi * u / 2)) ^ (2 * order.toNat) ≤ (κ * Real.pi) ^ 4 * u ^ 4 := by
      have e1 : κ * Real.tan (Real.pi * u / 2) ≤ κ * Real.pi * u := by rw [mul_assoc]; exact mul_le_mul_of_nonneg_left ht k0.le
      have e0 : 0 ≤ κ * Real.tan (Real.pi * u / 2) := by positivity
      calc (κ * Real.tan (Real.pi * u / 2)) ^ (2 * order.toNat) ≤ (κ * Real.tan (Real.pi * u / 2)) ^ 4 :=
            pow_le_pow_of_le_one e0 (by linarith) (by omega)
        _ ≤ (κ * Real.pi * u) ^ 4 := pow_le_pow_left₀ e0 e1 4
        _ = _ := by ring
    rw [norm_mul, Complex.norm_real, hnorm u (by linarith) (by linarith), Real.norm_eq_abs, abs_div, hs1, abs_abs]
    set X := (κ * Real.tan (Real.pi * u / 2)) ^ (2 * order.toNat) with hX
    have hX0 : 0 ≤ X := by positivity
    have hsq : Real.sqrt (1 + X) ≤ 1 + X := by
      rw [Real.sqrt_le_left (by linarith)]
      nlinarith
    have hsp : 0 < Real.sqrt (1 + X) := Real.sqrt_pos.mpr (by linarith)
    have : 1 - X ≤ 1 / |gain| * (|gain| / Real.sqrt (1 + X)) := by
      rw [one_div_mul_eq_div, div_div, mul_comm (Real.sqrt _), ← div_div, div_self hgp.ne', le_div_iff₀ hsp]
      rcases le_total 1 X with hh | hh
      · nlinarith
      · nlinarith
    linarith
  · have : 0 < Real.tan (Real.pi * (1 / 2) / 2) := Real.tan_pos_of_pos_of_lt_pi_div_two (by positivity) (by nlinarith)
    have : 0 < (κ * Real.tan (Real.pi * (1 / 2) / 2)) ^ (2 * order.toNat) := by positivity
    rw [norm_mul, Complex.norm_real, hnorm _ (by norm_num) (by norm_num), Real.norm_eq_abs, abs_div, hs1, abs_abs, one_div_mul_eq_div, div_div, mul_comm (Real.sqrt _), ← div_div,
      div_self hgp.ne', div_lt_one (Real.sqrt_pos.mpr (by linarith))]
    rw [Real.lt_sqrt (by norm_num)]
    linarith

/-- The hypotheses hold: order 4 at a fifth of the Nyquist frequency. -/
example (residue : List ℝ → List ℝ → List ℂ × List ℂ) (hres : ResidueSpec residue) :=
  C178_butterworth residue hres 0.2 (by norm_num) (by norm_num) 4 1 (by norm_num) (by norm_num) true 3 (by norm_num)

/-- A pole at one half. -/
example := C178_iir (⟨id, [0, 1 / 2], [1, 0], [0, 0]⟩ : Iir ℝ) rfl ⟨rfl, rfl, by simp⟩ (by simp) rfl (by intro z hz; simp [Pole, at0] at hz; rw [hz]; norm_num)

end Verif.Props
