import Verif.Props.Fourier
import Verif.Props.ComplexFilter

/-
Property C153: FourierTransform, FirFilter and IirFilter together (diamondback/transforms/fourier_transform.py:57-100,
diamondback/filters/fir_filter.py:242-302, diamondback/filters/iir_filter.py:288-354).  The spectrum of a period of a filtered periodic signal, as FourierTransform
gives it, is the spectrum of a period of the signal times the response, as `response` gives it, on the same frequency axis.
-/

namespace Verif.Props

open Complex Finset Spec

/-- A signal of `R` periods `p`. -/
def periods (R : ℕ) (p : List ℂ) : List ℂ := (List.replicate R p).flatten

theorem periods_length (R : ℕ) (p : List ℂ) : (periods R p).length = R * p.length := by
  simp [periods]

theorem at0_periods (p : List ℂ) (R n : ℕ) (hn : n < R * p.length) : at0 (periods R p) n = at0 p (n % p.length) := by
  induction R generalizing n with
  | zero => simp at hn
  | succ R ih =>
    have e : periods (R + 1) p = p ++ periods R p := by simp [periods, List.replicate_succ]
    rw [e]
    by_cases h : n < p.length
    · rw [Nat.mod_eq_of_lt h]
      simp [at0, List.getD, List.getElem?_append_left h]
    · have h' : p.length ≤ n := by omega
      have := ih (n - p.length) (by rw [Nat.succ_mul] at hn; omega)
      rw [Nat.mod_eq_sub_mod h', ← this]
      simp [at0, List.getD, List.getElem?_append_right h']

/-- The sum over a period of a signal delayed by `i`. -/
theorem block_shift (N : ℕ) (P : ℕ → ℂ) (hP : ∀ n, P (n + N) = P n) (w : ℂ) (hw : w ^ N = 1) (R i : ℕ) (hi : i ≤ R * N) :
    ∑ n ∈ range N, P (R * N + n - i) * w ^ n = w ^ i * ∑ n ∈ range N, P n * w ^ n := by
  have hP' : ∀ R n, P (R * N + n) = P n := by
    intro R n
    induction R with
    | zero => simp
    | succ R ih => rw [show (R + 1) * N + n = (R * N + n) + N by ring, hP, ih]
  have step : ∀ j, ∑ n ∈ range N, P (j + n) * w ^ n = w * ∑ n ∈ range N, P (j + 1 + n) * w ^ n := by
    intro j
    rw [mul_sum]
    have h1 := sum_range_succ (fun n => P (j + n) * w ^ n) N
    have h2 := sum_range_succ' (fun n => P (j + n) * w ^ n) N
    rw [h1] at h2
    rw [hP, hw] at h2
    simp only [add_zero, pow_zero] at h2
    rw [add_right_cancel h2]
    apply sum_congr rfl
    intro n _
    rw [show j + (n + 1) = j + 1 + n by ring, pow_succ]
    ring
  induction i with
  | zero =>
    simp only [Nat.sub_zero, pow_zero, one_mul]
    exact sum_congr rfl fun n _ => by rw [hP']
  | succ i ih =>
    have h := ih (by omega)
    have e1 : ∑ n ∈ range N, P (R * N + n - (i + 1)) * w ^ n = ∑ n ∈ range N, P ((R * N - (i + 1)) + n) * w ^ n :=
      sum_congr rfl fun n _ => by rw [show R * N + n - (i + 1) = (R * N - (i + 1)) + n by omega]
    have e2 : ∑ n ∈ range N, P (R * N - (i + 1) + 1 + n) * w ^ n = ∑ n ∈ range N, P (R * N + n - i) * w ^ n :=
      sum_congr rfl fun n _ => by rw [show R * N - (i + 1) + 1 + n = R * N + n - i by omega]
    rw [e1, step, e2, h, pow_succ]
    ring

/-- The frequencies of FourierTransform and of `response` turn a whole number of times in a period. -/
theorem turn_period (N k : ℕ) (hN : 0 < N) (e : ℝ) (he : Even (N : ℤ) ∧ e = 0 ∨ Odd (N : ℤ) ∧ e = 1 / ((N : ℤ) : ℝ)) :
    Complex.exp (-(Complex.I * Real.pi * ((axis N k - e : ℝ) : ℂ))) ^ N = 1 := by
  rw [← Complex.exp_nat_mul, Complex.exp_eq_one_iff]
  have hN' : (N : ℂ) ≠ 0 := by exact_mod_cast hN.ne'
  rcases he with ⟨⟨h, hh⟩, rfl⟩ | ⟨⟨h, hh⟩, rfl⟩
  · have hc : (N : ℂ) = h + h := by exact_mod_cast hh
    refine ⟨h - k, ?_⟩
    unfold axis
    push_cast
    field_simp
    rw [hc]; ring
  · have hc : (N : ℂ) = 2 * h + 1 := by exact_mod_cast hh
    refine ⟨h + 1 - k, ?_⟩
    unfold axis
    push_cast
    field_simp
    rw [hc]; ring

/-- FourierTransform of a period without a window. -/
theorem fourier_period (p : List ℂ) (hp : 2 ≤ p.length) (e : ℝ)
    (he : Even (p.length : ℤ) ∧ e = 0 ∨ Odd (p.length : ℤ) ∧ e = 1 / ((p.length : ℤ) : ℝ)) :
    ∃ Y f, fourier p (List.replicate p.length 1) false = .ok (Y, f) ∧ Y.length = p.length ∧
      f = linspace (-1) (1 - 2 / (p.length : ℝ)) p.length ∧ ∀ k < p.length, f[k]? = some (axis p.length k) ∧
        at0 Y k = (∑ n ∈ range p.length, at0 p n * Complex.exp (-(Complex.I * Real.pi * ((axis p.length k - e : ℝ) : ℂ))) ^ n) / p.length := by
  have hb : ∃ v ∈ List.replicate p.length (1 : ℂ), 1e-8 < ‖v‖ := ⟨1, List.mem_replicate.mpr ⟨by omega, rfl⟩, by rw [norm_one]; norm_num⟩
  have hb' : ¬ ∀ v ∈ List.replicate p.length (1 : ℂ), isClose0 v := by
    obtain ⟨v, hv, hv1⟩ := hb
    exact fun h => absurd (h v hv) (not_le.mpr hv1)
  obtain ⟨Y, f, h1, h2, h3, -⟩ := fourier_forward p (List.replicate p.length 1) (by simp) hb'
  rw [List.length_replicate] at h2 h3
  refine ⟨Y, f, h1, h2, h3, fun k hk => ?_⟩
  have hf : f[k]? = some (axis p.length k) := by rw [h3, linspace_axis _ k hp hk]; simp [axis]
  refine ⟨hf, ?_⟩
  have key : Y[k]? = some (spectrumAt p.length (at0 (List.replicate p.length 1)) (at0 p) (axis p.length k - e)) := by
    rcases he with ⟨he, rfl⟩ | ⟨he, rfl⟩
    · obtain ⟨y, f', g1, -, -, g4⟩ := C41_fourier_axis_even p (List.replicate p.length 1) (by simp) hb (by rw [List.length_replicate]; exact_mod_cast he)
      rw [h1] at g1; cases g1
      obtain ⟨fk, j1, -, j3⟩ := g4 k (by simpa using hk)
      rw [hf] at j1; cases j1
      rw [j3, List.length_replicate, sub_zero]
    · have ho : Odd p.length := by exact_mod_cast he
      obtain ⟨y, f', g1, g4⟩ := C41_fourier_axis_odd p (List.replicate p.length 1) (by simp) hb (by rwa [List.length_replicate]) (by
        obtain ⟨h, hh⟩ := ho
        rw [List.length_replicate]; omega)
      rw [h1] at g1; cases g1
      obtain ⟨fk, j1, j3⟩ := g4 k (by simpa using hk)
      rw [hf] at j1; cases j1
      rw [j3, List.length_replicate]; simp
  have : at0 Y k = spectrumAt p.length (at0 (List.replicate p.length 1)) (at0 p) (axis p.length k - e) := by
    simp [at0, List.getD, key]
  rw [this, spectrumAt]
  congr 1
  apply sum_congr rfl
  intro n hn
  have hn := mem_range.mp hn
  rw [at0_of_lt _ _ (by simpa using hn), List.getElem_replicate, one_mul, phasor, ← Complex.exp_nat_mul]
  congr 2
  push_cast
  ring

theorem period_parity (N : ℕ) : ∃ e : ℝ, Even (N : ℤ) ∧ e = 0 ∨ Odd (N : ℤ) ∧ e = 1 / ((N : ℤ) : ℝ) := by
  rcases Int.even_or_odd (N : ℤ) with h | h
  · exact ⟨0, Or.inl ⟨h, rfl⟩⟩
  · exact ⟨_, Or.inr ⟨h, rfl⟩⟩

theorem dtftC_pow (c : List ℂ) (u : ℝ) : dtftC c u = ∑ i ∈ range c.length, at0 c i * Complex.exp (-(Complex.I * Real.pi * u)) ^ i := by
  unfold dtftC
  apply sum_congr rfl
  intro i _
  rw [← Complex.exp_nat_mul]
  congr 2
  ring

theorem dtftC_padTo (c : List ℂ) (n : ℕ) (u : ℝ) : dtftC (padTo n c) u = dtftC c u := by
  unfold dtftC
  have hl : (padTo n c).length = c.length + (n - c.length) := by simp [padTo]
  rw [hl, sum_range_add]
  simp only [at0_padTo]
  rw [sum_eq_zero (s := range (n - c.length)), add_zero]
  intro i _
  rw [at0_of_le _ _ (by omega), zero_mul]

/-- C153.  FirFilter in any state, given `R + 1` periods of a signal where `R` periods hold at least `len(b) - 1` samples: the spectrum of the last
period of the output is the product of the response of the filter and of the spectrum of a period of the signal, and the three axes are one. -/
theorem C153_fir (b : List ℂ) (s : Option (List ℂ)) (hb : b ≠ []) (p : List ℂ) (hp : 2 ≤ p.length) (R : ℕ) (hR : b.length - 1 ≤ R * p.length) :
    ∃ g y g' Y X H f, Fir.new id b s = .ok g ∧ g.filter (periods (R + 1) p) = (.ok y, g') ∧
      fourier (y.drop (R * p.length)) (List.replicate p.length 1) false = .ok (Y, f) ∧ fourier p (List.replicate p.length 1) false = .ok (X, f) ∧
      g.responseC p.length 1 = .ok (H, f) ∧ Y.length = p.length ∧ X.length = p.length ∧ H.length = p.length ∧
      ∀ k < p.length, ∃ h, H[k]? = some (some h) ∧ at0 Y k = h * at0 X k := by
  have hxl := periods_length (R + 1) p
  have hmul : (R + 1) * p.length = R * p.length + p.length := by ring
  have hx0 : periods (R + 1) p ≠ [] := by
    intro h; rw [h] at hxl; simp at hxl; rw [hxl] at hp; simp at hp
  obtain ⟨g, y, g', h1, h2, h3, h4⟩ := C01_fir_difference_equation b s (periods (R + 1) p) hb hx0
  obtain ⟨e, he⟩ := period_parity p.length
  have hyd : (y.drop (R * p.length)).length = p.length := by rw [List.length_drop, h3, hxl, hmul]; omega
  obtain ⟨X, f, x1, x2, x3, x4⟩ := fourier_period p hp e he
  obtain ⟨Y, f', y1, y2, y3, y4⟩ := fourier_period (y.drop (R * p.length)) (by omega) e (by rwa [hyd])
  rw [hyd] at y1 y2 y3 y4
  have hff : f' = f := y3.trans x3.symm
  subst hff
  obtain ⟨H, f'', r1, r2, r3, r4⟩ := C133_fir_response g p.length 1 (by omega) (by norm_num) e he
  have hN : ((p.length : ℤ)).toNat = p.length := by simp
  rw [hN] at r2 r3 r4
  have hfl : f'.length = p.length := by rw [x3]; simp [linspace]
  have hf2 : f'' = f' := by
    apply List.ext_getElem?
    intro k
    by_cases hk : k < p.length
    · rw [(r4 k hk).1, (x4 k hk).1]
    · rw [List.getElem?_eq_none (by omega), List.getElem?_eq_none (by omega)]
  subst hf2
  have hgb : ∀ u, dtftC g.b u = dtftC b u := by
    have := h1
    unfold Fir.new at this
    split_ifs at this
    cases this
    intro u
    simp only
    split_ifs
    · exact dtftC_padTo b _ u
    · rfl
  refine ⟨g, y, g', Y, X, H, f'', h1, h2, y1, x1, r1, y2, x2, r2, fun k hk => ⟨_, (r4 k hk).2, ?_⟩⟩
  rw [(y4 k hk).2, (x4 k hk).2]
  have hw := turn_period p.length k (by omega) e he
  have hfr : freqRespC [] g.b (axis p.length k - e) ^ (1 : ℤ).toNat =
      ∑ i ∈ range b.length, at0 b i * Complex.exp (-(Complex.I * Real.pi * ((axis p.length k - e : ℝ) : ℂ))) ^ i := by
    rw [freqRespC, hgb, dtftC_pow, dtftC_pow]
    simp
  rw [hfr]
  generalize Complex.exp (-(Complex.I * Real.pi * ((axis p.length k - e : ℝ) : ℂ))) = w at hw ⊢
  have hy : ∀ n < p.length, at0 (y.drop (R * p.length)) n = ∑ i ∈ range b.length, at0 b i * at0 p ((R * p.length + n - i) % p.length) := by
    intro n hn
    have e1 : at0 (y.drop (R * p.length)) n = conv b (periods (R + 1) p) (R * p.length + n) := by
      have := h4 (R * p.length + n) (by omega)
      have ht : tail b (s.getD []) (R * p.length + n) = 0 := by
        unfold tail
        apply sum_eq_zero
        intro i hi
        have := mem_range.mp hi
        rw [if_neg (by omega)]
      rw [ht, add_zero] at this
      simp [at0, List.getD, this]
    rw [e1, conv]
    have hs : ∑ i ∈ range (R * p.length + n + 1), at0 b i * at0 (periods (R + 1) p) (R * p.length + n - i) =
        ∑ i ∈ range b.length, at0 b i * at0 (periods (R + 1) p) (R * p.length + n - i) := by
      symm
      apply sum_subset
      · intro i hi; have := mem_range.mp hi; exact mem_range.mpr (by omega)
      · intro i _ hi
        rw [at0_of_le _ _ (by simpa using hi), zero_mul]
    rw [hs]
    exact sum_congr rfl fun i _ => by rw [at0_periods p (R + 1) _ (by omega)]
  rw [mul_div_assoc']
  congr 1
  rw [sum_mul]
  calc ∑ n ∈ range p.length, at0 (y.drop (R * p.length)) n * w ^ n
      = ∑ n ∈ range p.length, ∑ i ∈ range b.length, at0 b i * (at0 p ((R * p.length + n - i) % p.length) * w ^ n) := by
        apply sum_congr rfl
        intro n hn
        rw [hy n (mem_range.mp hn), sum_mul]
        exact sum_congr rfl fun i _ => by ring
    _ = ∑ i ∈ range b.length, ∑ n ∈ range p.length, at0 b i * (at0 p ((R * p.length + n - i) % p.length) * w ^ n) := sum_comm
    _ = _ := by
        apply sum_congr rfl
        intro i hi
        have hi := mem_range.mp hi
        rw [← mul_sum, block_shift p.length (fun n => at0 p (n % p.length)) (fun n => by simp) w hw R i (by omega), mul_assoc]
        congr 2
        exact sum_congr rfl fun n hn => by rw [Nat.mod_eq_of_lt (mem_range.mp hn)]

/-- Three taps and periods of two samples: after one period the state no longer matters. -/
example : ([1, Complex.I, 2] : List ℂ).length - 1 ≤ 1 * ([3, 4] : List ℂ).length := by simp

/-- C153.  IirFilter, stable, in any state: the spectrum of the last of `R + 1` periods of the output comes as close as wished to the product of the
response and of the spectrum of a period of the signal, and the response is defined on the whole axis. -/
theorem C153_iir (g : Iir ℂ) (hc : g.cast = id) (hwf : g.WF) (h0 : at0 g.a 0 = 0) (hst : StableC g.a) (p : List ℂ) (hp : 2 ≤ p.length) (ε : ℝ) (hε : 0 < ε) :
    ∃ X H f, fourier p (List.replicate p.length 1) false = .ok (X, f) ∧ g.responseC p.length 1 = .ok (H, f) ∧ X.length = p.length ∧ H.length = p.length ∧
      ∃ R0, ∀ R ≥ R0, ∃ y g' Y, g.filter (periods (R + 1) p) = (.ok y, g') ∧
        fourier (y.drop (R * p.length)) (List.replicate p.length 1) false = .ok (Y, f) ∧ Y.length = p.length ∧
        ∀ k < p.length, ∃ h, H[k]? = some (some h) ∧ ‖at0 Y k - h * at0 X k‖ < ε := by
  obtain ⟨e, he⟩ := period_parity p.length
  obtain ⟨X, f, x1, x2, x3, x4⟩ := fourier_period p hp e he
  have ha : g.a ≠ [] := wf_ne hwf
  obtain ⟨H, f'', r1, r2, r3, r4⟩ := C133_iir_response g ha h0 p.length 1 (by omega) (by norm_num) e he
  have hN : ((p.length : ℤ)).toNat = p.length := by simp
  rw [hN] at r2 r3 r4
  have hfl : f.length = p.length := by rw [x3]; simp [linspace]
  have hf2 : f'' = f := by
    apply List.ext_getElem?
    intro k
    by_cases hk : k < p.length
    · rw [(r4 k hk).1, (x4 k hk).1]
    · rw [List.getElem?_eq_none (by omega), List.getElem?_eq_none (by omega)]
  subst hf2
  refine ⟨X, H, f'', x1, r1, x2, r2, ?_⟩
  obtain ⟨u, hul, hu⟩ := Iir.filter_split g hwf hc h0
  obtain ⟨K, hK⟩ := stableC_impulse g.a g.b h0 ha hst
  set c : ℕ → ℂ := fun i => PowerSeries.coeff i (ser g.b * recip g.a) with hcdef
  set w : ℕ → ℂ := fun k => Complex.exp (-(Complex.I * Real.pi * ((axis p.length k - e : ℝ) : ℂ))) with hwdef
  set past : ℕ → ℂ := fun k => ∑ j ∈ range u.length, c (k + 1 + j) * at0 u (u.length - 1 - j) with hpast
  -- the sum over the last period as a function of its start
  set Z : ℕ → ℕ → ℂ := fun k m => (∑ i ∈ range (m + 1), c i * w k ^ i) * (∑ n ∈ range p.length, at0 p n * w k ^ n) +
    ∑ n ∈ range p.length, (∑ j ∈ range n, c (m + 1 + j) * at0 p ((n - 1 - j) % p.length)) * w k ^ n + ∑ n ∈ range p.length, past (m + n) * w k ^ n with hZ
  have hlim : ∀ k, Filter.Tendsto (fun m => Z k m / p.length) Filter.atTop
      (nhds (freqRespC g.a g.b (axis p.length k - e) * ((∑ n ∈ range p.length, at0 p n * w k ^ n) / p.length))) := by
    intro k
    have hctend : Filter.Tendsto c Filter.atTop (nhds 0) := hK.tendsto
    have t1 : Filter.Tendsto (fun m => ∑ i ∈ range (m + 1), c i * w k ^ i) Filter.atTop (nhds (freqRespC g.a g.b (axis p.length k - e))) := by
      have := (impulse_sumC g.a g.b h0 ha hst (axis p.length k - e)).2.comp (Filter.tendsto_add_atTop_nat 1)
      refine this.congr fun m => ?_
      simp only [Function.comp]
      apply sum_congr rfl
      intro i _
      rw [hwdef]
      simp only
      rw [← Complex.exp_nat_mul]
      congr 2
      ring
    have t2 : Filter.Tendsto (fun m => ∑ n ∈ range p.length, (∑ j ∈ range n, c (m + 1 + j) * at0 p ((n - 1 - j) % p.length)) * w k ^ n) Filter.atTop (nhds 0) := by
      rw [show (0 : ℂ) = ∑ n ∈ range p.length, (∑ j ∈ range n, 0 * at0 p ((n - 1 - j) % p.length)) * w k ^ n by simp]
      apply tendsto_finsetSum
      intro n _
      apply Filter.Tendsto.mul_const
      apply tendsto_finsetSum
      intro j _
      apply Filter.Tendsto.mul_const
      refine (hctend.comp (Filter.tendsto_add_atTop_nat (1 + j))).congr fun m => ?_
      simp only [Function.comp]
      rw [← add_assoc]
    have t3 : Filter.Tendsto (fun m => ∑ n ∈ range p.length, past (m + n) * w k ^ n) Filter.atTop (nhds 0) := by
      rw [show (0 : ℂ) = ∑ n ∈ range p.length, 0 * w k ^ n by simp]
      apply tendsto_finsetSum
      intro n _
      apply Filter.Tendsto.mul_const
      exact (fade hK u).comp (Filter.tendsto_add_atTop_nat n)
    have := (((t1.mul_const (∑ n ∈ range p.length, at0 p n * w k ^ n)).add t2).add t3).div_const (p.length : ℂ)
    simp only [add_zero] at this
    rw [mul_div_assoc'] 
    exact this
  have hev : ∀ᶠ m in Filter.atTop, ∀ k ∈ range p.length,
      ‖Z k m / p.length - freqRespC g.a g.b (axis p.length k - e) * ((∑ n ∈ range p.length, at0 p n * w k ^ n) / p.length)‖ < ε := by
    rw [Filter.eventually_all_finset]
    intro k _
    have := (Metric.tendsto_nhds.mp (hlim k)) ε hε
    simpa [dist_eq_norm] using this
  obtain ⟨R0, hR0⟩ := Filter.eventually_atTop.mp hev
  refine ⟨R0, fun R hR => ?_⟩
  have hxl := periods_length (R + 1) p
  have hmul : (R + 1) * p.length = R * p.length + p.length := by ring
  have hx0 : periods (R + 1) p ≠ [] := by
    intro h; rw [h] at hxl; simp at hxl; rw [hxl] at hp; simp at hp
  obtain ⟨y, g', h2, h3, h4⟩ := hu (periods (R + 1) p) hx0
  have hyd : (y.drop (R * p.length)).length = p.length := by rw [List.length_drop, h3, hxl, hmul]; omega
  obtain ⟨Y, f', y1, y2, y3, y4⟩ := fourier_period (y.drop (R * p.length)) (by omega) e (by rwa [hyd])
  rw [hyd] at y1 y2 y3 y4
  have hff : f' = f'' := y3.trans x3.symm
  subst hff
  refine ⟨y, g', Y, h2, y1, y2, fun k hk => ⟨_, ((r4 k hk).2.1 (impulse_sumC g.a g.b h0 ha hst _).1), ?_⟩⟩
  have hm : R0 ≤ R * p.length := le_trans hR (Nat.le_mul_of_pos_right R (by omega))
  have hfin := hR0 _ hm k (mem_range.mpr hk)
  rw [(y4 k hk).2, (x4 k hk).2, show (1 : ℤ).toNat = 1 by rfl, pow_one]
  have hZk : ∑ n ∈ range p.length, at0 (y.drop (R * p.length)) n * w k ^ n = Z k (R * p.length) := by
    have hw : w k ^ p.length = 1 := turn_period p.length k (by omega) e he
    have hy : ∀ n < p.length, at0 (y.drop (R * p.length)) n =
        ∑ i ∈ range (R * p.length + 1), c i * at0 p ((R * p.length + n - i) % p.length) +
          ∑ j ∈ range n, c (R * p.length + 1 + j) * at0 p ((n - 1 - j) % p.length) + past (R * p.length + n) := by
      intro n hn
      have e1 : at0 (y.drop (R * p.length)) n = at0 y (R * p.length + n) := by simp [at0, List.getD]
      rw [e1, h4 _ (by omega)]
      congr 1
      rw [show R * p.length + n + 1 = (R * p.length + 1) + n by omega, sum_range_add]
      congr 1
      · exact sum_congr rfl fun i _ => by rw [at0_periods p (R + 1) _ (by omega)]
      · apply sum_congr rfl
        intro j hj
        have hj := mem_range.mp hj
        rw [at0_periods p (R + 1) _ (by omega), show R * p.length + n - (R * p.length + 1 + j) = n - 1 - j by omega]
    have e0 : ∑ n ∈ range p.length, at0 (y.drop (R * p.length)) n * w k ^ n =
        ∑ n ∈ range p.length, ((∑ i ∈ range (R * p.length + 1), c i * (at0 p ((R * p.length + n - i) % p.length) * w k ^ n)) +
          (∑ j ∈ range n, c (R * p.length + 1 + j) * at0 p ((n - 1 - j) % p.length)) * w k ^ n + past (R * p.length + n) * w k ^ n) := by
      apply sum_congr rfl
      intro n hn
      rw [hy n (mem_range.mp hn), add_mul, add_mul, sum_mul]
      congr 2
      exact sum_congr rfl fun i _ => by ring
    rw [e0, sum_add_distrib, sum_add_distrib, hZ]
    simp only
    congr 2
    rw [sum_comm, sum_mul]
    apply sum_congr rfl
    intro i hi
    have hi := mem_range.mp hi
    rw [← mul_sum, block_shift p.length (fun n => at0 p (n % p.length)) (fun n => by simp) (w k) hw R i (by omega), mul_assoc]
    congr 2
    exact sum_congr rfl fun n hn => by rw [Nat.mod_eq_of_lt (mem_range.mp hn)]
  rw [hZk]
  exact hfin

/-- The complex one-pole filter `y_n = (j/2) y_{n-1} + x_n` with a past is one. -/
example : at0 ([0, Complex.I / 2] : List ℂ) 0 = 0 ∧ StableC [0, Complex.I / 2] ∧
    ({ cast := id, a := [0, Complex.I / 2], b := [1, 0], s := [5, 7] } : Iir ℂ).WF := by
  refine ⟨by simp [at0], fun z hz => ?_, by simp [Iir.WF]⟩
  simp [poleValue, at0] at hz
  rw [sub_eq_zero.mp hz]
  simp
  norm_num

end Verif.Props
