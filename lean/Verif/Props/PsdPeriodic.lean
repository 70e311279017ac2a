import Verif.Props.SpectrumFilter
import Verif.Props.PsdPower

/-
C177.  PsdTransform of a periodic signal with a rectangular window as long as the period: where the frames start is of no importance, and a FirFilter multiplies
the result by the power of its response (diamondback/transforms/psd_transform.py:68-107, diamondback/filters/fir_filter.py:242-302).
-/

namespace Verif.Props

open Complex Finset Spec

private theorem shift_forward (N : ℕ) (P : ℕ → ℂ) (hP : ∀ n, P (n + N) = P n) (w : ℂ) (hw : w ^ N = 1) (j : ℕ) :
    w ^ j * ∑ n ∈ range N, P (j + n) * w ^ n = ∑ n ∈ range N, P n * w ^ n := by
  induction j with
  | zero => simp
  | succ j ih =>
    rw [← ih, pow_succ, mul_assoc]
    congr 1
    have h1 := sum_range_succ (fun n => P (j + n) * w ^ n) N
    have h2 := sum_range_succ' (fun n => P (j + n) * w ^ n) N
    rw [h1, hP, hw] at h2
    simp only [add_zero, pow_zero] at h2
    rw [add_right_cancel h2, mul_sum]
    refine sum_congr rfl fun n _ => ?_
    rw [show j + (n + 1) = j + 1 + n by ring, pow_succ]
    ring

/-- The carrier of bin `k`. -/
private noncomputable def carrier (N k : ℕ) : ℂ := turn (-((k : ℂ) / (N : ℂ)))

private theorem carrier_norm (N k : ℕ) : ‖carrier N k‖ = 1 := by
  unfold carrier
  rw [show -((k : ℂ) / (N : ℂ)) = ((-((k : ℝ) / (N : ℝ)) : ℝ) : ℂ) by push_cast; ring, turn_real_norm]

private theorem carrier_period (N k : ℕ) (hN : 0 < N) : carrier N k ^ N = 1 := by
  have hN' : (N : ℂ) ≠ 0 := by exact_mod_cast hN.ne'
  unfold carrier
  rw [← turn_nat_mul, show (N : ℂ) * -((k : ℂ) / (N : ℂ)) = ((-(k : ℤ) : ℤ) : ℂ) by push_cast; field_simp, turn_int]

private theorem frame_ones (x : List ℂ) (N index i k : ℕ) :
    framePower x (List.replicate N 1) index i k = ‖∑ n ∈ range N, at0 x (i * index + n) * carrier N k ^ n‖ ^ 2 / (N : ℝ) ^ 2 := by
  rw [framePower_turn, List.length_replicate]
  congr 3
  refine sum_congr rfl fun n hn => ?_
  have hn := mem_range.mp hn
  rw [at0_of_lt _ _ (by simpa using hn), List.getElem_replicate, one_mul]
  unfold carrier
  rw [← turn_nat_mul]
  congr 2
  ring

/-- A mean of equal values. -/
private theorem psd_const (x : List ℂ) (N index : ℕ) (hN : 0 < N) (hi : 0 < index) (hlen : N ≤ x.length) (F : ℕ → ℝ)
    (hF : ∀ i ≤ (x.length - N) / index, ∀ k < N / 2, framePower x (List.replicate N 1) index i k = F k) :
    psd x (List.replicate N 1) index false = .ok (.mean ((List.range (N / 2)).map F), linspace 0 (1 - 2 / (N : ℝ)) (N / 2)) ∧
    psd x (List.replicate N 1) index true = .ok (.spectrogram (List.replicate ((x.length - N) / index + 1) ((List.range (N / 2)).map F)), linspace 0 (1 - 2 / (N : ℝ)) (N / 2)) := by
  have hb : ∃ v ∈ List.replicate N (1 : ℂ), 1e-8 < ‖v‖ := ⟨1, List.mem_replicate.mpr ⟨by omega, rfl⟩, by rw [norm_one]; norm_num⟩
  have hb' : ¬ ((List.replicate N (1 : ℂ)).length = 0 ∨ ∀ v ∈ List.replicate N (1 : ℂ), isClose0 v) := by
    obtain ⟨v, hv, hv1⟩ := hb
    rintro (h | h)
    · rw [List.length_replicate] at h; omega
    · exact absurd (h v hv) (not_le.mpr hv1)
  have hx : ¬ x.length = 0 := by omega
  have hi' : ¬ index = 0 := by omega
  have hlen' : (List.replicate N (1 : ℂ)).length ≤ x.length := by simpa using hlen
  have hrows : (stride (x.length - (List.replicate N (1 : ℂ)).length + 1) index).map (psdFrame x (List.replicate N 1)) =
      List.replicate ((x.length - N) / index + 1) ((List.range (N / 2)).map F) := by
    rw [psd_frames x _ index hi hlen', List.length_replicate]
    apply List.ext_getElem
    · simp
    · intro i h1 h2
      rw [List.getElem_map, List.getElem_range, List.getElem_replicate]
      refine List.map_congr_left fun k hk => hF i ?_ k (List.mem_range.mp hk)
      simp at h2
      omega
  constructor
  · simp only [psd, hx, hb', not_lt.mpr hlen', hi', if_false, Bool.false_eq_true, hrows]
    rw [List.length_replicate, List.length_replicate]
    congr 3
    unfold columnSums
    rw [List.map_map]
    refine List.map_congr_left fun k hk => ?_
    have hk := List.mem_range.mp hk
    have hR : (((x.length - N) / index + 1 : ℕ) : ℝ) ≠ 0 := by positivity
    rw [Function.comp_apply, List.map_replicate, List.sum_replicate, nsmul_eq_mul, mul_div_cancel_left₀ _ hR, at0_of_lt _ _ (by simpa using hk)]
    simp
  · simp only [psd, hx, hb', not_lt.mpr hlen', hi', if_false, if_true, hrows]
    rw [List.length_replicate]

/-- C177.  A signal of any number of periods, with frames as long as the period that start any number of samples apart: the power spectral density is that of
one period, and so is every row of the spectrogram. -/
theorem C177_period (p : List ℂ) (hp : p ≠ []) (R index : ℕ) (hR : 0 < R) (hi : 0 < index) :
    ∃ y f, psd p (List.replicate p.length 1) 1 false = .ok (.mean y, f) ∧ psd (periods R p) (List.replicate p.length 1) index false = .ok (.mean y, f) ∧
      ∃ rows, psd (periods R p) (List.replicate p.length 1) index true = .ok (.spectrogram rows, f) ∧ ∀ r ∈ rows, r = y := by
  have hN := List.length_pos_of_ne_nil hp
  have hl := periods_length R p
  have hle : p.length ≤ R * p.length := Nat.le_mul_of_pos_left _ hR
  set F : ℕ → ℝ := fun k => ‖∑ n ∈ range p.length, at0 p n * carrier p.length k ^ n‖ ^ 2 / (p.length : ℝ) ^ 2 with hF
  obtain ⟨a1, -⟩ := psd_const p p.length 1 hN one_pos le_rfl F fun i hi k _ => by
    rw [frame_ones, show i = 0 by simpa using hi]
    simp [hF]
  obtain ⟨b1, b2⟩ := psd_const (periods R p) p.length index hN hi (by omega) F fun i hi' k _ => by
    have h2 := Nat.div_mul_le_self ((periods R p).length - p.length) index
    have h3 := Nat.mul_le_mul_right index hi'
    rw [frame_ones, hF]
    simp only
    congr 1
    have := shift_forward p.length (fun n => at0 p (n % p.length)) (fun n => by simp) _ (carrier_period p.length k hN) (i * index)
    have e1 : ∑ n ∈ range p.length, at0 (periods R p) (i * index + n) * carrier p.length k ^ n =
        ∑ n ∈ range p.length, at0 p ((i * index + n) % p.length) * carrier p.length k ^ n := by
      refine sum_congr rfl fun n hn => ?_
      have := mem_range.mp hn
      rw [at0_periods p R _ (by omega)]
    have e2 : ∑ n ∈ range p.length, at0 p (n % p.length) * carrier p.length k ^ n = ∑ n ∈ range p.length, at0 p n * carrier p.length k ^ n :=
      sum_congr rfl fun n hn => by rw [Nat.mod_eq_of_lt (mem_range.mp hn)]
    rw [e1, ← e2, ← this, norm_mul, norm_pow, carrier_norm, one_pow, one_mul]
  exact ⟨_, _, a1, b1, _, b2, fun r hr => List.eq_of_mem_replicate hr⟩

/-- Three periods of a signal of period four, with frames which start five samples apart. -/
example := C177_period [1, I, 2, 0] (by simp) 3 5 (by norm_num) (by norm_num)

/-- C177.  The output of FirFilter, in any state, for a signal of `R` periods, without its first `len(b) - 1` samples: its power spectral density, with frames as
long as the period that start any number of samples apart, is that of a period of the signal times the squared magnitude of the response which the filter reports
for as many frequencies.  (Entry `k` of the density belongs to entry `k + (N + 1)//2` of the response.) -/
theorem C177_fir (b : List ℂ) (s : Option (List ℂ)) (hb : b ≠ []) (p : List ℂ) (hp : p ≠ []) (R index : ℕ) (hR : b.length - 1 + p.length ≤ R * p.length) (hi : 0 < index) :
    ∃ g y g' Y X H f e, Fir.new id b s = .ok g ∧ g.filter (periods R p) = (.ok y, g') ∧
      psd (y.drop (b.length - 1)) (List.replicate p.length 1) index false = .ok (.mean Y, f) ∧ psd p (List.replicate p.length 1) 1 false = .ok (.mean X, f) ∧
      g.responseC p.length 1 = .ok (H, e) ∧ Y.length = p.length / 2 ∧ X.length = p.length / 2 ∧
      ∀ k < p.length / 2, ∃ h, H[k + (p.length + 1) / 2]? = some (some h) ∧ at0 Y k = ‖h‖ ^ 2 * at0 X k := by
  have hN := List.length_pos_of_ne_nil hp
  have hxl := periods_length R p
  have hx0 : periods R p ≠ [] := List.ne_nil_of_length_pos (by omega)
  obtain ⟨g, y, g', h1, h2, h3, h4⟩ := C01_fir_difference_equation b s (periods R p) hb hx0
  obtain ⟨e, he⟩ := period_parity p.length
  obtain ⟨H, f'', r1, r2, r3, r4⟩ := C133_fir_response g p.length 1 (by omega) (by norm_num) e he
  rw [Int.toNat_natCast] at r2 r3 r4
  have hyl : (y.drop (b.length - 1)).length = R * p.length - (b.length - 1) := by rw [List.length_drop, h3, hxl]
  set S : ℕ → ℂ := fun k => ∑ n ∈ range p.length, at0 p n * carrier p.length k ^ n with hS
  set B : ℕ → ℂ := fun k => ∑ i ∈ range b.length, at0 b i * carrier p.length k ^ i with hB
  have hgb : ∀ u, dtftC g.b u = dtftC b u := by
    have := h1
    unfold Fir.new at this
    split_ifs at this
    cases this
    intro u
    simp only
    split_ifs
    · exact dtftC_padTo b _ u
    · rfl
  obtain ⟨a1, -⟩ := psd_const p p.length 1 hN one_pos le_rfl (fun k => ‖S k‖ ^ 2 / (p.length : ℝ) ^ 2) fun i hi k _ => by
    rw [frame_ones, show i = 0 by simpa using hi]
    simp [hS]
  have hy : ∀ m, b.length - 1 ≤ m → m < R * p.length → at0 y m = ∑ i ∈ range b.length, at0 b i * at0 p ((m - i) % p.length) := by
    intro m hm hm'
    have e1 : at0 y m = conv b (periods R p) m := by
      have := h4 m (by omega)
      have ht : tail b (s.getD []) m = 0 := by
        unfold tail
        apply sum_eq_zero
        intro i hi
        have := mem_range.mp hi
        rw [if_neg (by omega)]
      rw [ht, add_zero] at this
      simp [at0, List.getD, this]
    rw [e1, conv]
    have hs : ∑ i ∈ range (m + 1), at0 b i * at0 (periods R p) (m - i) = ∑ i ∈ range b.length, at0 b i * at0 (periods R p) (m - i) := by
      symm
      apply sum_subset
      · intro i hi; have := mem_range.mp hi; exact mem_range.mpr (by omega)
      · intro i _ hi
        rw [at0_of_le _ _ (by simpa using hi), zero_mul]
    rw [hs]
    exact sum_congr rfl fun i _ => by rw [at0_periods p R _ (by omega)]
  obtain ⟨b1, -⟩ := psd_const (y.drop (b.length - 1)) p.length index hN hi (by omega) (fun k => ‖B k‖ ^ 2 * (‖S k‖ ^ 2 / (p.length : ℝ) ^ 2)) fun i hi' k _ => by
    have q2 := Nat.div_mul_le_self ((y.drop (b.length - 1)).length - p.length) index
    have q3 := Nat.mul_le_mul_right index hi'
    rw [frame_ones, mul_div_assoc']
    congr 1
    have hw := carrier_period p.length k hN
    have hn1 := carrier_norm p.length k
    simp only [hS, hB]
    generalize carrier p.length k = w at hw hn1 ⊢
    generalize hj : i * index = j at *
    have e1 : ∑ n ∈ range p.length, at0 (y.drop (b.length - 1)) (j + n) * w ^ n =
        ∑ i ∈ range b.length, at0 b i * ∑ n ∈ range p.length, at0 p ((b.length - 1 + j - i + n) % p.length) * w ^ n := by
      simp only [mul_sum]
      rw [sum_comm]
      refine sum_congr rfl fun n hn => ?_
      have hn := mem_range.mp hn
      have : at0 (y.drop (b.length - 1)) (j + n) = at0 y (b.length - 1 + j + n) := by
        simp [at0, List.getD, List.getElem?_drop, add_assoc]
      rw [this, hy _ (by omega) (by omega), sum_mul]
      refine sum_congr rfl fun i hi => ?_
      have := mem_range.mp hi
      rw [show b.length - 1 + j + n - i = b.length - 1 + j - i + n by omega, mul_assoc]
    have e2 : w ^ (b.length - 1 + j) * ∑ n ∈ range p.length, at0 (y.drop (b.length - 1)) (j + n) * w ^ n =
        (∑ i ∈ range b.length, at0 b i * w ^ i) * ∑ n ∈ range p.length, at0 p n * w ^ n := by
      rw [e1, mul_sum, sum_mul]
      refine sum_congr rfl fun i hi => ?_
      have hi := mem_range.mp hi
      have sh := shift_forward p.length (fun n => at0 p (n % p.length)) (fun n => by simp) w hw (b.length - 1 + j - i)
      have e3 : ∑ n ∈ range p.length, at0 p (n % p.length) * w ^ n = ∑ n ∈ range p.length, at0 p n * w ^ n :=
        sum_congr rfl fun n hn => by rw [Nat.mod_eq_of_lt (mem_range.mp hn)]
      rw [← e3, ← sh]
      conv_lhs => rw [show b.length - 1 + j = i + (b.length - 1 + j - i) by omega, pow_add]
      rw [show i + (b.length - 1 + j - i) - i = b.length - 1 + j - i by omega]
      ring
    have e4 := congrArg norm e2
    rw [norm_mul, norm_pow, hn1, one_pow, one_mul, norm_mul] at e4
    rw [e4, mul_pow]
  refine ⟨g, y, g', _, _, H, _, f'', h1, h2, b1, a1, r1, by simp, by simp, fun k hk => ⟨_, (r4 _ (by omega)).2, ?_⟩⟩
  rw [at0_of_lt _ _ (by simpa using hk), at0_of_lt _ _ (by simpa using hk)]
  simp only [List.getElem_map, List.getElem_range]
  congr 3
  have hpc : (p.length : ℝ) ≠ 0 := by exact_mod_cast hN.ne'
  have hax : axis p.length (k + (p.length + 1) / 2) - e = 2 * (k : ℝ) / p.length := by
    unfold axis
    obtain ⟨q, hq⟩ : ∃ q, (p.length + 1) / 2 = q := ⟨_, rfl⟩
    rw [hq]
    rcases he with ⟨⟨m, hm⟩, rfl⟩ | ⟨⟨m, hm⟩, rfl⟩
    · have hm2 : (q : ℤ) = m := by omega
      have c1 : (q : ℝ) = m := by exact_mod_cast hm2
      have c2 : (p.length : ℝ) = m + m := by exact_mod_cast hm
      push_cast [c1]
      field_simp
      rw [c2]; ring
    · have hm2 : (q : ℤ) = m + 1 := by omega
      have c1 : (q : ℝ) = m + 1 := by exact_mod_cast hm2
      have c2 : (p.length : ℝ) = 2 * m + 1 := by exact_mod_cast hm
      push_cast [c1]
      field_simp
      rw [c2]; ring
  rw [hax, freqRespC, hgb, dtftC_pow, show (1 : ℤ).toNat = 1 from rfl, pow_one]
  have hcar : Complex.exp (-(Complex.I * Real.pi * ((2 * (k : ℝ) / p.length : ℝ) : ℂ))) = carrier p.length k := by
    unfold carrier turn
    congr 1
    push_cast
    ring
  rw [hcar]
  simp [hB, dtftC]

/-- Three taps and five periods of three samples; frames which start four samples apart. -/
example := C177_fir [1, I, 2] none (by simp) [3, 4, I] (by simp) 5 4 (by simp) (by norm_num)

/-- One frame: the power spectral density is the squared magnitude of the upper half of FourierTransform, for even and odd lengths. -/
private theorem psd_one (z : List ℂ) (hz : 2 ≤ z.length) :
    ∃ P Y f', psd z (List.replicate z.length 1) 1 false = .ok (.mean P, linspace 0 (1 - 2 / (z.length : ℝ)) (z.length / 2)) ∧
      fourier z (List.replicate z.length 1) false = .ok (Y, f') ∧ P.length = z.length / 2 ∧
      ∀ k < z.length / 2, at0 P k = ‖at0 Y (k + (z.length + 1) / 2)‖ ^ 2 := by
  have hN : 0 < z.length := by omega
  obtain ⟨e, he⟩ := period_parity z.length
  obtain ⟨Y, f', y1, y2, -, y4⟩ := fourier_period z hz e he
  obtain ⟨a1, -⟩ := psd_const z z.length 1 hN one_pos le_rfl (fun k => ‖∑ n ∈ range z.length, at0 z n * carrier z.length k ^ n‖ ^ 2 / (z.length : ℝ) ^ 2) fun i hi k _ => by
    rw [frame_ones, show i = 0 by simpa using hi]
    simp
  refine ⟨_, Y, f', a1, y1, by simp, fun k hk => ?_⟩
  rw [at0_of_lt _ _ (by simpa using hk), (y4 _ (by omega)).2]
  simp only [List.getElem_map, List.getElem_range]
  have hpc : (z.length : ℝ) ≠ 0 := by exact_mod_cast hN.ne'
  have hax : axis z.length (k + (z.length + 1) / 2) - e = 2 * (k : ℝ) / z.length := by
    unfold axis
    obtain ⟨q, hq⟩ : ∃ q, (z.length + 1) / 2 = q := ⟨_, rfl⟩
    rw [hq]
    rcases he with ⟨⟨m, hm⟩, rfl⟩ | ⟨⟨m, hm⟩, rfl⟩
    · have hm2 : (q : ℤ) = m := by omega
      have c1 : (q : ℝ) = m := by exact_mod_cast hm2
      have c2 : (z.length : ℝ) = m + m := by exact_mod_cast hm
      push_cast [c1]
      field_simp
      rw [c2]; ring
    · have hm2 : (q : ℤ) = m + 1 := by omega
      have c1 : (q : ℝ) = m + 1 := by exact_mod_cast hm2
      have c2 : (z.length : ℝ) = 2 * m + 1 := by exact_mod_cast hm
      push_cast [c1]
      field_simp
      rw [c2]; ring
  have hcar : Complex.exp (-(Complex.I * Real.pi * ((2 * (k : ℝ) / z.length : ℝ) : ℂ))) = carrier z.length k := by
    unfold carrier turn
    congr 1
    push_cast
    ring
  rw [hax, hcar, norm_div, div_pow, Complex.norm_natCast]

/-- C177.  A stable IirFilter in any state: the power spectral density of the last of `R + 1` periods of the output comes as close as wished to that of a period
of the signal times the squared magnitude of the response which the filter reports. -/
theorem C177_iir (g : Iir ℂ) (hc : g.cast = id) (hwf : g.WF) (h0 : at0 g.a 0 = 0) (hst : StableC g.a) (p : List ℂ) (hp : 2 ≤ p.length) (ε : ℝ) (hε : 0 < ε) :
    ∃ X H f e, psd p (List.replicate p.length 1) 1 false = .ok (.mean X, f) ∧ g.responseC p.length 1 = .ok (H, e) ∧ X.length = p.length / 2 ∧
      ∃ R0, ∀ R ≥ R0, ∃ y g' Y, g.filter (periods (R + 1) p) = (.ok y, g') ∧
        psd (y.drop (R * p.length)) (List.replicate p.length 1) 1 false = .ok (.mean Y, f) ∧ Y.length = p.length / 2 ∧
        ∀ k < p.length / 2, ∃ h, H[k + (p.length + 1) / 2]? = some (some h) ∧ |at0 Y k - ‖h‖ ^ 2 * at0 X k| < ε := by
  obtain ⟨P, X, f', p1, p2, p3, p4⟩ := psd_one p hp
  obtain ⟨X1, H, e, x1, r1, x3, r3, -⟩ := C153_iir g hc hwf h0 hst p hp 1 one_pos
  rw [p2] at x1
  cases x1
  set c : ℕ → ℂ := fun k => ((H[k]?).join.getD 0) * at0 X k with hcd
  set M := ∑ k ∈ range p.length, ‖c k‖ with hM
  have hM0 : 0 ≤ M := sum_nonneg fun _ _ => norm_nonneg _
  set δ := min 1 (ε / (2 * M + 2)) with hδ
  have hδ0 : 0 < δ := lt_min one_pos (by positivity)
  obtain ⟨X2, H2, e2, x2, r2, -, -, R0, hR⟩ := C153_iir g hc hwf h0 hst p hp δ hδ0
  rw [p2] at x2
  cases x2
  rw [r1] at r2
  cases r2
  refine ⟨P, H, _, _, p1, r1, p3, R0, fun R hRR => ?_⟩
  obtain ⟨y, g', Y, y1, y2, y3, y4⟩ := hR R hRR
  obtain ⟨u, -, hsp⟩ := Iir.filter_split g hwf hc h0
  obtain ⟨y', g'', s1, s2, -⟩ := hsp (periods (R + 1) p) (List.ne_nil_of_length_pos (by rw [periods_length]; positivity))
  rw [y1] at s1
  cases s1
  have hl : (y.drop (R * p.length)).length = p.length := by
    rw [List.length_drop, s2, periods_length, add_mul, one_mul, Nat.add_sub_cancel_left]
  obtain ⟨Q, Z, f2, q1, q2, q3, q4⟩ := psd_one (y.drop (R * p.length)) (by omega)
  rw [hl] at q1 q2 q3 q4
  rw [y2] at q2
  cases q2
  refine ⟨y, g', Q, y1, q1, q3, fun k hk => ?_⟩
  obtain ⟨h, k1, k2⟩ := y4 (k + (p.length + 1) / 2) (by omega)
  refine ⟨h, k1, ?_⟩
  rw [q4 k hk, p4 k hk, ← mul_pow, ← norm_mul]
  have hck : c (k + (p.length + 1) / 2) = h * at0 X (k + (p.length + 1) / 2) := by simp [hcd, k1]
  have hle : ‖h * at0 X (k + (p.length + 1) / 2)‖ ≤ M := by
    rw [← hck]
    exact single_le_sum (f := fun k => ‖c k‖) (fun _ _ => norm_nonneg _) (mem_range.mpr (by omega))
  set A := at0 Y (k + (p.length + 1) / 2)
  set B := h * at0 X (k + (p.length + 1) / 2)
  have d1 : |‖A‖ - ‖B‖| < δ := (abs_norm_sub_norm_le _ _).trans_lt k2
  have d2 : ‖A‖ + ‖B‖ ≤ 2 * M + 1 := by
    have := (abs_lt.mp d1).2
    have : δ ≤ 1 := min_le_left _ _
    linarith
  rw [sq_sub_sq, abs_mul, abs_of_nonneg (by positivity)]
  calc (‖A‖ + ‖B‖) * |‖A‖ - ‖B‖| ≤ (2 * M + 1) * δ := mul_le_mul d2 d1.le (abs_nonneg _) (by positivity)
    _ < (2 * M + 2) * δ := by nlinarith
    _ ≤ (2 * M + 2) * (ε / (2 * M + 2)) := mul_le_mul_of_nonneg_left (min_le_right _ _) (by positivity)
    _ = ε := mul_div_cancel₀ _ (by positivity)

/-- A pole at half the imaginary unit, in a state which is not zero, and a period of three samples. -/
example := C177_iir (⟨id, [0, Complex.I / 2], [1, 0], [3, Complex.I]⟩ : Iir ℂ) rfl ⟨rfl, rfl, by simp⟩ rfl (by
  intro z hz
  have h : z = Complex.I / 2 := by
    simp [poleValue, at0] at hz
    linear_combination hz
  rw [h]
  norm_num) [3, 4, I] (by simp) (1 / 100) (by norm_num)

end Verif.Props
