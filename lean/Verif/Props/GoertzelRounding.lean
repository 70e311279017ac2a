import Verif.Lemmas.RoundingC
import Verif.Props.Goertzel

/-
Property C139: rounding errors of FirFilter and IirFilter with complex coefficients (diamondback/filters/fir_filter.py, iir_filter.py) and of GoertzelFilter
(diamondback/filters/goertzel_filter.py).  The arithmetic is any arithmetic with the error bounds of `RoundedC`; overflow is excluded.
-/

namespace Verif.Props

open Finset Spec Complex

theorem at0_map_valG {F R : Type*} [Zero F] [Zero R] (g : F → R) (h0 : g 0 = 0) (l : List F) (i : ℕ) : at0 (l.map g) i = g (at0 l i) := by
  by_cases hi : i < l.length
  · rw [at0_of_lt _ _ (by simpa using hi), at0_of_lt _ _ hi]; simp
  · rw [at0_of_le _ _ (by simpa using hi), at0_of_le _ _ (by omega), h0]

/-- C139.  The rounding error with complex coefficients or a complex signal, of an output sample of `FirFilter(b=b, s=s).filter(x)` is bounded by the samples in the window alone: it does not accumulate
over the signal, whatever its length. -/
theorem C139_fir {F : Type*} [Add F] [Mul F] [Dot F] [Zero F] (val : F → ℂ) (u η : ℝ) (b : List F) (s : Option (List F)) (x : List F)
    (hF : RoundedC val (max b.length (s.getD []).length) u η) (hb : b ≠ []) (hx : x ≠ []) :
    ∃ f y f', Fir.new id b s = .ok f ∧ f.filter x = (.ok y, f') ∧ y.length = x.length ∧ ∀ n < x.length,
      ‖val (at0 y n) - (conv (b.map val) (x.map val) n + tail (b.map val) ((s.getD []).map val) n)‖ ≤
        u * (conv (b.map (‖val ·‖)) (x.map (‖val ·‖)) n + tail (b.map (‖val ·‖)) ((s.getD []).map (‖val ·‖)) n) + η := by
  obtain ⟨f, h1, hwf, hc, hfb, hfs⟩ := Fir.new_spec id b s hb
  obtain ⟨y, h2, h3, h4⟩ := Fir.filter_wf f hwf x hx
  refine ⟨f, y, _, h1, h2, h3, fun n hn => ?_⟩
  have hy : at0 y n = dot f.b (((x.take (n + 1)).reverse ++ f.s).take f.b.length) := by
    have := h4 n hn
    rw [hc] at this
    simp only [List.map_id, id] at this
    unfold at0
    rw [List.getD_eq_getElem?_getD, this]; rfl
  set L := max b.length (s.getD []).length with hL
  have hbl : f.b.length = L := by rw [hfb]; simp [padTo]; omega
  have hsl : f.s.length = L := by rw [← hwf.1, hbl]
  have hwl : ((((x.take (n + 1)).reverse ++ f.s).take f.b.length)).length = L := by simp [hbl, hsl]
  have hd := hF.dot f.b _ hbl hwl
  have hval0 : ‖val 0‖ = 0 := by rw [hF.zero, norm_zero]
  -- the sums over the window, for `val` and for `‖val‖`
  have key : ∀ {R : Type} [CommRing R] (g : F → R), g 0 = 0 → ∑ i ∈ range L, g (at0 f.b i) * g (at0 (((x.take (n + 1)).reverse ++ f.s).take f.b.length) i) =
      conv (b.map g) (x.map g) n + tail (b.map g) ((s.getD []).map g) n := by
    intro R _ g hg
    have e1 : ∑ i ∈ range L, g (at0 f.b i) * g (at0 (((x.take (n + 1)).reverse ++ f.s).take f.b.length) i) =
        dot (f.b.map g) ((((x.map g).take (n + 1)).reverse ++ f.s.map g).take L) := by
      rw [dot_eq_sum, List.length_map, hbl]
      apply sum_congr rfl
      intro i _
      rw [at0_map_valG g hg, ← at0_map_valG g hg (((x.take (n + 1)).reverse ++ f.s).take L), List.map_take, List.map_append, List.map_reverse, List.map_take]
    rw [e1, dot_window _ _ _ _ _ (by simp [hbl]) (by simpa using hn)]
    congr 1
    · simp only [conv]
      apply sum_congr rfl
      intro i _
      simp only [at0_map_valG g hg, hfb, at0_padTo]
    · simp only [tail, List.length_map, hbl]
      symm
      rw [← sum_subset (s₁ := range b.length) (s₂ := range L)]
      · apply sum_congr rfl
        intro i _
        simp only [at0_map_valG g hg, hfb, hfs, at0_padTo, List.map_id]
      · intro i; simp; omega
      · intro i _ hi
        rw [at0_map_valG g hg, hfb, at0_padTo, at0_of_le b i (by simpa using hi), hg]
        simp
  have k1 := key val hF.zero
  have k2 := key (fun v => ‖val v‖) hval0
  rw [hy, ← k1]
  refine hd.trans (le_of_eq ?_)
  rw [← k2]
  simp only [norm_mul]

/-- C139.  Rounding in any IirFilter with complex coefficients.  `h` is the response of the recursion to one unit error, and `G ≥ 1` bounds the sum of `‖h_k‖` over
the length of the signal. -/
theorem C139_iir (a b : List ℂ) (hab : a.length = b.length) (ha : a ≠ []) (h0 : at0 a 0 = 0) (h : ℕ → ℂ)
    (hh : ∀ n, h n = (if n = 0 then 1 else 0) + ∑ i ∈ range (n + 1), at0 a i * h (n - i)) :
    ∃ K c : ℝ, 0 < c ∧ ∀ (F : Type) [Add F] [Mul F] [Dot F] [Zero F] (val : F → ℂ) (u η G M : ℝ), RoundedC val a.length u η → 0 ≤ u → 0 ≤ η → η ≤ 1 →
      1 ≤ G → u * G ≤ c → ∀ f : Iir F, f.cast = id → f.a.map val = a → f.b.map val = b → f.s.length = a.length → (∀ v ∈ f.s, ‖val v‖ ≤ M) →
      ∀ x : List F, x ≠ [] → (∀ v ∈ x, ‖val v‖ ≤ M) → ∑ k ∈ range x.length, ‖h k‖ ≤ G →
        ∃ y f' z g', f.filter x = (.ok y, f') ∧ (Iir.mk id a b (f.s.map val)).filter (x.map val) = (.ok z, g') ∧
          y.length = x.length ∧ z.length = x.length ∧ ∀ n < x.length, ‖val (at0 y n) - at0 z n‖ ≤ K * G ^ 2 * (u * M + η * (1 + M)) := by
  have hA0 : 0 ≤ ∑ i ∈ range a.length, ‖at0 a i‖ := sum_nonneg fun i _ => norm_nonneg _
  refine ⟨roundingK (∑ i ∈ range a.length, ‖at0 a i‖) (∑ i ∈ range a.length, (‖at0 a i * at0 b 0‖ + ‖at0 b i‖)) a.length, 1 / (6 * (∑ i ∈ range a.length, ‖at0 a i‖) + 1), by positivity, ?_⟩
  intro F _ _ _ _ val u η G M hF hu hη hη1 hG1 huG f hfc hfa hfb hfs hsM x hx hxM hG
  refine iir_roundingC a b hab ha h0 _ _ le_rfl le_rfl G hG1 val u η hF hu huG hη hη1 f hfc hfa hfb hfs x M hx ?_ hxM hsM
  intro n hn
  have e : recip a = PowerSeries.mk h := by
    have e1 : (1 - ser a) * PowerSeries.mk h = 1 := by
      ext m
      rw [sub_mul, one_mul, map_sub, PowerSeries.coeff_mk, PowerSeries.coeff_mul, Finset.Nat.sum_antidiagonal_eq_sum_range_succ_mk, hh m, PowerSeries.coeff_one]
      simp only [coeff_ser, PowerSeries.coeff_mk]
      ring
    have h1 := mul_recip a h0
    calc recip a = recip a * ((1 - ser a) * PowerSeries.mk h) := by rw [e1, mul_one]
      _ = ((1 - ser a) * recip a) * PowerSeries.mk h := by ring
      _ = PowerSeries.mk h := by rw [h1, one_mul]
  simp only [e, PowerSeries.coeff_mk]
  exact (sum_le_sum_of_subset_of_nonneg (range_mono hn) fun _ _ _ => norm_nonneg _).trans hG

/-- The response of the recursion `w_n = x_n + c w_{n-1} - w_{n-2}` to a unit sample. -/
theorem recip_two (E E' c : ℂ) (h1 : E * E' = 1) (h2 : E + E' = c) (n : ℕ) :
    PowerSeries.coeff n (recip [0, c, -1]) = ∑ i ∈ range (n + 1), E ^ i * E' ^ (n - i) := by
  have e : recip [0, c, -1] = PowerSeries.mk (fun n => E ^ n) * PowerSeries.mk (fun n => E' ^ n) := by
    have hr := mul_recip [0, c, -1] (by simp [at0])
    rw [ser_factor E E' c h1 h2] at hr
    have g1 := geom_mul E
    have g2 := geom_mul E'
    calc recip [0, c, -1] = (((1 - ser [0, E]) * PowerSeries.mk (fun n => E ^ n)) * ((1 - ser [0, E']) * PowerSeries.mk (fun n => E' ^ n))) * recip [0, c, -1] := by
          rw [g1, g2, one_mul, one_mul]
      _ = ((1 - ser [0, E]) * (1 - ser [0, E']) * recip [0, c, -1]) * (PowerSeries.mk (fun n => E ^ n) * PowerSeries.mk (fun n => E' ^ n)) := by ring
      _ = _ := by rw [hr, one_mul]
  rw [e, PowerSeries.coeff_mul, Finset.Nat.sum_antidiagonal_eq_sum_range_succ_mk]
  simp only [PowerSeries.coeff_mk]

theorem unit_roots (c : ℝ) (hc : |c| ≤ 2) : ∃ E E' : ℂ, ‖E‖ = 1 ∧ ‖E'‖ = 1 ∧ E * E' = 1 ∧ E + E' = c ∧ ‖E - E'‖ ^ 2 = 4 - c ^ 2 := by
  have hc' := abs_le.mp hc
  set θ := Real.arccos (c / 2) with hθ
  have hcos : Real.cos θ = c / 2 := Real.cos_arccos (by linarith) (by linarith)
  refine ⟨cexp (θ * I), cexp (-θ * I), Complex.norm_exp_ofReal_mul_I θ, ?_, ?_, ?_, ?_⟩
  · have := Complex.norm_exp_ofReal_mul_I (-θ)
    rwa [Complex.ofReal_neg] at this
  · rw [← Complex.exp_add]
    simp
  · have : cexp (θ * I) + cexp (-θ * I) = 2 * Complex.cos θ := by rw [Complex.cos]; ring
    rw [this, ← Complex.ofReal_cos, hcos]
    push_cast; ring
  · have : cexp (θ * I) - cexp (-θ * I) = (2 * Complex.sin θ) * I := by
      rw [Complex.sin]
      linear_combination (cexp (θ * I) - cexp (-θ * I)) * I_mul_I
    rw [this, norm_mul, norm_I, mul_one, norm_mul, ← Complex.ofReal_sin, Complex.norm_real, mul_pow, Real.norm_eq_abs, sq_abs, Real.sin_sq, hcos]
    norm_num
    ring

/-- The response grows at most linearly, and is bounded by the reciprocal of the sine of the angle. -/
theorem recip_two_le (c : ℝ) (hc : |c| ≤ 2) (n : ℕ) : ‖PowerSeries.coeff n (recip [0, (c : ℂ), -1])‖ ≤ n + 1 ∧
    ∀ σ : ℝ, 0 < σ → σ ^ 2 ≤ 1 - c ^ 2 / 4 → ‖PowerSeries.coeff n (recip [0, (c : ℂ), -1])‖ ≤ 1 / σ := by
  obtain ⟨E, E', hE, hE', h1, h2, h3⟩ := unit_roots c hc
  rw [recip_two E E' c h1 h2]
  constructor
  · refine (norm_sum_le _ _).trans ?_
    simp [hE, hE']
  · intro σ hσ hs
    have e := (Commute.all E E').geom_sum₂_mul (n + 1)
    have e2 : ‖∑ i ∈ range (n + 1), E ^ i * E' ^ (n - i)‖ * ‖E - E'‖ ≤ 2 := by
      rw [← norm_mul]
      have : (∑ i ∈ range (n + 1), E ^ i * E' ^ (n - i)) * (E - E') = E ^ (n + 1) - E' ^ (n + 1) := by
        rw [← e]; congr 1
      rw [this]
      refine (norm_sub_le _ _).trans ?_
      rw [norm_pow, norm_pow, hE, hE']; norm_num
    have e3 : 2 * σ ≤ ‖E - E'‖ := by
      refine (abs_le_of_sq_le_sq (b := ‖E - E'‖) ?_ (norm_nonneg _) |> le_trans (le_abs_self _))
      nlinarith
    rw [le_div_iff₀ hσ]
    nlinarith [norm_nonneg (∑ i ∈ range (n + 1), E ^ i * E' ^ (n - i))]

theorem coeff_mul_le (P Q : PowerSeries ℂ) (N : ℕ) (B M : ℝ) (hB : 0 ≤ B) (hP : ∀ n < N, ‖PowerSeries.coeff n P‖ ≤ B) (hQ : ∀ n < N, ‖PowerSeries.coeff n Q‖ ≤ M) (hM : 0 ≤ M) :
    ∀ n < N, ‖PowerSeries.coeff n (P * Q)‖ ≤ N * (B * M) := by
  intro n hn
  rw [PowerSeries.coeff_mul, Finset.Nat.sum_antidiagonal_eq_sum_range_succ_mk]
  refine (norm_sum_le _ _).trans ?_
  refine (sum_le_sum (g := fun _ => B * M) ?_).trans ?_
  · intro i hi
    have := mem_range.mp hi
    rw [norm_mul]
    exact mul_le_mul (hP _ (by omega)) (hQ _ (by omega)) (norm_nonneg _) hB
  · rw [sum_const, card_range, nsmul_eq_mul]
    refine mul_le_mul_of_nonneg_right ?_ (by positivity)
    exact_mod_cast hn

theorem ser_two (p : ℂ) : ser [0, p] = PowerSeries.X * PowerSeries.C p := by
  ext n
  rcases n with _ | n
  · simp [at0]
  · rw [PowerSeries.coeff_succ_X_mul, coeff_ser, PowerSeries.coeff_C]
    rcases n with _ | n <;> simp [at0]

theorem coeff_delay_le (p : ℂ) (P : PowerSeries ℂ) (N : ℕ) (B : ℝ) (hB : 0 ≤ B) (hP : ∀ n < N, ‖PowerSeries.coeff n P‖ ≤ B) :
    ∀ n < N, ‖PowerSeries.coeff n (ser [0, p] * P)‖ ≤ ‖p‖ * B := by
  intro n hn
  rw [ser_two, mul_assoc]
  rcases n with _ | n
  · simp; positivity
  · rw [PowerSeries.coeff_succ_X_mul, PowerSeries.coeff_C_mul, norm_mul]
    exact mul_le_mul_of_nonneg_left (hP n (by omega)) (norm_nonneg _)

/-- What an error of the coefficients does to a sample of the output. -/
theorem goertzel_coefficients (c c' e e' : ℂ) (N : ℕ) (H M ε : ℝ) (hH : 1 ≤ H) (hM : 0 ≤ M) (he : ‖e‖ ≤ 1) (hcc : ‖c' - c‖ ≤ ε) (hee : ‖e' - e‖ ≤ ε)
    (hc : ∀ n < N, ‖PowerSeries.coeff n (recip [0, c, -1])‖ ≤ H) (hc' : ∀ n < N, ‖PowerSeries.coeff n (recip [0, c', -1])‖ ≤ H) (X : PowerSeries ℂ)
    (hX : ∀ n < N, ‖PowerSeries.coeff n X‖ ≤ M) (n : ℕ) (hn : n < N) :
    ‖PowerSeries.coeff n (ser [1, -e', 0] * (recip [0, c', -1] * X)) - PowerSeries.coeff n (ser [1, -e, 0] * (recip [0, c, -1] * X))‖ ≤ 3 * (N * H) ^ 2 * (ε * M) := by
  have hε : 0 ≤ ε := (norm_nonneg _).trans hcc
  have hN : (1 : ℝ) ≤ N := by exact_mod_cast (show 1 ≤ N by omega)
  have hb : ∀ q : ℂ, ser [1, -q, 0] = 1 - ser [0, q] := by
    intro q; ext m
    rw [coeff_ser, map_sub, coeff_ser, PowerSeries.coeff_one]
    rcases m with _ | _ | _ | m <;> simp [at0]
  have hsub : ∀ p q : ℂ, ser [0, p - q] = ser [0, p] - ser [0, q] := by
    intro p q; ext m
    rw [coeff_ser, map_sub, coeff_ser, coeff_ser]
    rcases m with _ | _ | m <;> simp [at0]
  have hr := mul_recip [0, c, -1] (by simp [at0])
  have hr' := mul_recip [0, c', -1] (by simp [at0])
  have hd : ser [0, c', -1] - ser [0, c, -1] = ser [0, c' - c] := by
    ext m
    rw [map_sub, coeff_ser, coeff_ser, coeff_ser]
    rcases m with _ | _ | _ | m <;> simp [at0]
  set R := recip [0, c, -1] with hR
  set R' := recip [0, c', -1] with hR'
  have hD : R' - R = ser [0, c' - c] * (R * R') := by
    rw [← hd]
    linear_combination (-R') * hr + R * hr'
  have hD' : ∀ k < N, ‖PowerSeries.coeff k (R' - R)‖ ≤ ε * (N * (H * H)) := by
    intro k hk
    rw [hD]
    refine (coeff_delay_le _ _ N (N * (H * H)) (by positivity) (coeff_mul_le R R' N H H (by positivity) hc hc' (by positivity)) k hk).trans ?_
    exact mul_le_mul_of_nonneg_right hcc (by positivity)
  have k1 := coeff_mul_le (R' - R) X N _ M (by positivity) hD' hX hM
  have k2 := coeff_delay_le e _ N _ (by positivity) k1 n hn
  have k3 := coeff_delay_le (e' - e) _ N _ (by positivity) (coeff_mul_le R' X N H M (by positivity) hc' hX hM) n hn
  have eq : ser [1, -e', 0] * (R' * X) - ser [1, -e, 0] * (R * X) = (R' - R) * X - ser [0, e] * ((R' - R) * X) - ser [0, e' - e] * (R' * X) := by
    rw [hb, hb, hsub]; ring
  rw [← map_sub, eq, map_sub, map_sub]
  have hP : 0 ≤ (N : ℝ) * (ε * (N * (H * H)) * M) := by positivity
  have k4 : ‖e‖ * (N * (ε * (N * (H * H)) * M)) ≤ 1 * (N * (ε * (N * (H * H)) * M)) := mul_le_mul_of_nonneg_right he hP
  have k5 : ‖e' - e‖ * (N * (H * M)) ≤ ε * (N * (H * M)) := mul_le_mul_of_nonneg_right hee (by positivity)
  have k6 : ε * (N * (H * M)) ≤ (N : ℝ) * (ε * (N * (H * H)) * M) := by
    have : (1 : ℝ) ≤ N * H := by nlinarith
    calc ε * (N * (H * M)) = (ε * (N * (H * M))) * 1 := by ring
      _ ≤ (ε * (N * (H * M))) * (N * H) := mul_le_mul_of_nonneg_left this (by positivity)
      _ = _ := by ring
  refine (norm_sub_le _ _).trans ?_
  refine (add_le_add_left (norm_sub_le _ _) _).trans ?_
  have := k1 n hn
  nlinarith

/-- The exact filter sums the signal against the powers of one root. -/
theorem goertzel_transfer (f : ℝ) (X : List ℂ) (N : ℕ) (hN : 0 < N) :
    PowerSeries.coeff (N - 1) (ser [1, -(goertzelE f), 0] * (recip [0, ((2 * Real.cos (Real.pi * f) : ℝ) : ℂ), -1] * ser X)) =
      cexp (I * Real.pi * f * (N - 1)) * ∑ k ∈ range N, at0 X k * cexp (-(I * Real.pi * f * k)) := by
  set E := cexp (I * Real.pi * f) with hE
  have hE' : goertzelE f = E⁻¹ := by rw [goertzelE, hE, ← Complex.exp_neg]
  have hEne : E ≠ 0 := Complex.exp_ne_zero _
  have hEE : E * goertzelE f = 1 := by rw [hE']; exact mul_inv_cancel₀ hEne
  have hsum : E + goertzelE f = ((2 * Real.cos (Real.pi * f) : ℝ) : ℂ) := by
    rw [goertzelE, hE, Complex.ofReal_mul, Complex.ofReal_cos, Complex.cos]
    push_cast
    rw [show I * (Real.pi : ℂ) * f = (Real.pi : ℂ) * f * I by ring,
      show -((Real.pi : ℂ) * f * I) = -((Real.pi : ℂ) * f) * I by ring]
    ring
  set c : ℂ := ((2 * Real.cos (Real.pi * f) : ℝ) : ℂ) with hc
  have hb : ser [1, -(goertzelE f), 0] = 1 - ser [0, goertzelE f] := by
    ext n
    rw [coeff_ser, map_sub, coeff_ser, PowerSeries.coeff_one]
    rcases n with _ | _ | _ | n <;> simp [at0]
  have hH : ser [1, -(goertzelE f), 0] * recip [0, c, -1] = PowerSeries.mk (fun n => E ^ n) := by
    have hr := mul_recip [0, c, -1] (by simp [at0])
    have hg2 := geom_mul E
    rw [hb]
    rw [ser_factor E (goertzelE f) c hEE hsum] at hr
    calc (1 - ser [0, goertzelE f]) * recip [0, c, -1]
        = ((1 - ser [0, E]) * PowerSeries.mk (fun n => E ^ n)) * ((1 - ser [0, goertzelE f]) * recip [0, c, -1]) := by
          rw [hg2, one_mul]
      _ = ((1 - ser [0, E]) * (1 - ser [0, goertzelE f]) * recip [0, c, -1]) * PowerSeries.mk (fun n => E ^ n) := by ring
      _ = _ := by rw [hr, one_mul]
  rw [← mul_assoc, hH, mul_comm, PowerSeries.coeff_mul, Finset.Nat.sum_antidiagonal_eq_sum_range_succ_mk]
  simp only [coeff_ser, PowerSeries.coeff_mk]
  rw [show (N - 1).succ = N by omega, mul_sum]
  apply sum_congr rfl
  intro k hk
  have hk' : k < N := mem_range.mp hk
  have hpow : E ^ (N - 1 - k) = cexp (I * Real.pi * f * (N - 1)) * cexp (-(I * Real.pi * f * k)) := by
    rw [hE, ← Complex.exp_nat_mul, ← Complex.exp_add]
    congr 1
    push_cast [Nat.cast_sub (show k ≤ N - 1 by omega), Nat.cast_sub (show 1 ≤ N by omega)]
    ring
  rw [hpow]; ring

/-- The constant of the bound for GoertzelFilter. -/
noncomputable def goertzelK : ℝ := roundingK 3 6 3 + 3

/-- Every value returned by GoertzelFilter, when `H` bounds the responses of the recursion with the exact coefficient and with that of the machine. -/
theorem goertzel_rounding {F : Type} [Zero F] [One F] [Neg F] [Add F] [Mul F] [Dot F] [DecidableEq F] (val : F → ℂ) (u η ε M H : ℝ) (hF : RoundedC val 3 u η)
    (h1 : val 1 = 1) (hneg : ∀ x, val (-x) = -val x) (hu : 0 ≤ u) (hη : 0 ≤ η) (hη1 : η ≤ 1) (hε : ε ≤ 1) (hM : 0 ≤ M) (hH : 1 ≤ H) (allZero : List F → Bool)
    (inRange : ℝ → Bool) (c e : ℝ → F) (w : List F) (f r : ℝ) (g : Goertzel F ℝ) (hg : Goertzel.make allZero inRange c e w f = .ok g) (hr : val (c f) = r) (hr2 : |r| ≤ 2)
    (hc : |r - 2 * Real.cos (Real.pi * f)| ≤ ε) (he : ‖val (e f) - cexp (-(I * Real.pi * f))‖ ≤ ε) (hu0 : u * (w.length * H) ≤ 1 / 19)
    (hB : ∀ n < w.length, ‖PowerSeries.coeff n (recip [0, (r : ℂ), -1])‖ ≤ H)
    (hB' : ∀ n < w.length, ‖PowerSeries.coeff n (recip [0, ((2 * Real.cos (Real.pi * f) : ℝ) : ℂ), -1])‖ ≤ H) (gain : ℕ → F) (calls : List (List F))
    (hne : ∀ c ∈ calls, c ≠ []) (hX : ∀ blk ∈ blocks w.length calls.flatten, ∀ k < w.length, ‖val (gain w.length * at0 w k * at0 blk k)‖ ≤ M) :
    ∃ vs g', callChunks (Goertzel.filter gain) g calls = (.ok vs, g') ∧ vs.length = calls.flatten.length / w.length ∧ ∀ m < vs.length,
      ‖val (at0 vs m) - cexp (I * Real.pi * f * (w.length - 1)) * ∑ k ∈ range w.length,
        val (gain w.length * at0 w k * at0 calls.flatten (m * w.length + k)) * cexp (-(I * Real.pi * f * k))‖ ≤
        goertzelK * (w.length * H) ^ 2 * (u * M + η * (1 + M) + ε * M) := by
  by_cases hmk : w.length = 0 ∨ allZero w
  · simp only [Goertzel.make, if_pos hmk] at hg
    exact absurd hg (by simp)
  by_cases hin : inRange f
  swap
  · simp only [Goertzel.make, if_neg hmk, if_pos hin] at hg
    exact absurd hg (by simp)
  have hgg : g = ⟨⟨id, [0, c f, -1], [1, -(e f), 0], [0, 0, 0]⟩, 0, w, f⟩ := by
    simp only [Goertzel.make, if_neg hmk, if_neg (not_not_intro hin)] at hg
    simp [Iir.new, Fir.new, padTo] at hg
    exact hg.symm
  set i0 : Iir F := ⟨id, [0, c f, -1], [1, -(e f), 0], [0, 0, 0]⟩ with hi0
  have hwf : i0.WF := ⟨by simp [hi0], by simp [hi0], by simp [hi0]⟩
  have hz : i0.Zeroed := by simp [Iir.Zeroed, hi0]
  have hN : 0 < w.length := by omega
  have hN1 : (1 : ℝ) ≤ w.length := by exact_mod_cast hN
  have hgw : g.w = w := by rw [hgg]
  have hinv : g.Inv i0 (gain g.w.length) [] := by
    refine ⟨hwf, hz, by rw [hgg]; rfl, by rw [hgw]; simpa using hN, ?_⟩
    simp [feed, weighted, runLoop, hgg]
  obtain ⟨vs, g', k1, k2, k3, k4, k5⟩ := Goertzel.chunks_spec i0 gain calls g [] hinv hne
  rw [hgw, List.nil_append] at k4
  have hlen : vs.length = calls.flatten.length / w.length := by
    have := congrArg List.length k4
    rwa [List.length_map, List.length_map, blocks_length] at this
  refine ⟨vs, g', k1, hlen, fun m hm => ?_⟩
  set blk := (calls.flatten.drop (m * w.length)).take w.length with hblk
  have hmem : blk ∈ blocks w.length calls.flatten := by
    simp only [blocks, List.mem_map, List.mem_range]
    exact ⟨m, by omega, rfl⟩
  have hbl : blk.length = w.length := by
    rw [hblk, List.length_take, List.length_drop]
    have : (m + 1) * w.length ≤ calls.flatten.length := le_trans (Nat.mul_le_mul_right _ (by omega)) (Nat.div_mul_le_self _ _)
    rw [Nat.succ_mul] at this
    omega
  have hbat : ∀ k < w.length, at0 blk k = at0 calls.flatten (m * w.length + k) := by
    intro k hk
    have : (m + 1) * w.length ≤ calls.flatten.length := le_trans (Nat.mul_le_mul_right _ (by omega)) (Nat.div_mul_le_self _ _)
    rw [Nat.succ_mul] at this
    rw [at0_of_lt _ _ (by omega), at0_of_lt _ _ (by omega)]
    simp [hblk]
  -- the value of the block
  set gn := gain w.length with hgn
  set v := weighted gn w blk with hv
  have hvl : v.length = w.length := by simp [hv, weighted, hbl]
  have hvne : v ≠ [] := by intro h; rw [h] at hvl; simp at hvl; omega
  have hvat : ∀ k < w.length, at0 v k = gn * at0 w k * at0 blk k := by
    intro k hk
    rw [at0_of_lt _ _ (by omega), at0_of_lt _ _ hk, at0_of_lt _ _ (by omega)]
    simp [hv, weighted]
  have hvM : ∀ x ∈ v, ‖val x‖ ≤ M := by
    intro x hx
    obtain ⟨k, hk, rfl⟩ := List.mem_iff_getElem.mp hx
    have := hvat k (by omega)
    rw [at0_of_lt _ _ hk] at this
    rw [this]
    exact hX blk hmem k (by omega)
  set a' : List ℂ := [0, (r : ℂ), -1] with ha'
  set b' : List ℂ := [1, -val (e f), 0] with hb'
  have hε0 : 0 ≤ ε := (abs_nonneg _).trans hc
  have hexp : ‖cexp (-(I * Real.pi * f))‖ = 1 := by rw [Complex.norm_exp]; simp
  have hen : ‖val (e f)‖ ≤ 2 := by
    have := norm_le_norm_add_norm_sub' (val (e f)) (cexp (-(I * Real.pi * f)))
    rw [hexp] at this
    linarith
  have hrn : ‖(r : ℂ)‖ ≤ 2 := by rw [Complex.norm_real]; exact hr2
  have hA : ∑ i ∈ range a'.length, ‖at0 a' i‖ ≤ 3 := by
    simp only [ha', List.length_cons, List.length_nil, sum_range_succ, range_zero, sum_empty, at0, List.getD_cons_zero, List.getD_cons_succ, norm_zero, norm_neg, norm_one]
    linarith
  have hQ : ∑ i ∈ range a'.length, (‖at0 a' i * at0 b' 0‖ + ‖at0 b' i‖) ≤ 6 := by
    simp only [ha', hb', List.length_cons, List.length_nil, sum_range_succ, range_zero, sum_empty, at0, List.getD_cons_zero, List.getD_cons_succ, norm_zero, norm_neg, norm_one,
      mul_one]
    linarith
  have hG1 : (1 : ℝ) ≤ w.length * H := by nlinarith
  obtain ⟨y, f', z, gz, q1, q2, q3, q4, q5⟩ := iir_roundingC a' b' (by simp [ha', hb']) (by simp [ha']) (by simp [ha', at0]) 3 6 hA hQ (w.length * H) hG1 val u η
    (by simpa [ha'] using hF) hu (by norm_num; linarith) hη hη1 i0 rfl (by simp [hi0, ha', hF.zero, hneg, h1, hr]) (by simp [hi0, hb', hF.zero, hneg, h1]) (by simp [hi0, ha'])
    v M hvne (by
      intro n hn
      refine (sum_le_sum (g := fun _ => H) fun k hk => hB k (by have := mem_range.mp hk; omega)).trans ?_
      rw [sum_const, card_range, nsmul_eq_mul]
      exact mul_le_mul_of_nonneg_right (by exact_mod_cast (by omega)) (by linarith)) hvM (by simp [hi0, hF.zero, hM])
  have hval : at0 vs m = at0 y (w.length - 1) := by
    have hvl0 : v.length ≠ 0 := by omega
    have hfeed : feed i0 gn w blk = (.ok y, f') := by
      rw [feed, ← hv]
      simpa [Iir.filter, hvl0] using q1
    have hsome : some (at0 vs m) = blockValue i0 gn w blk := by
      have := congrArg (fun l => l[m]?) k4
      simp only [List.getElem?_map, blocks] at this
      rw [List.getElem?_range (by omega), List.getElem?_eq_getElem hm] at this
      simp only [Option.map_some, Option.some.injEq] at this
      rw [at0_of_lt _ _ hm]
      exact this
    rw [blockValue, hfeed] at hsome
    simp only at hsome
    rw [List.getLast?_eq_getElem?, q3, hvl, List.getElem?_eq_getElem (by omega)] at hsome
    rw [at0_of_lt y _ (by omega)]
    exact Option.some.inj hsome
  -- the exact filter with the coefficients of the machine
  set X := v.map val with hXd
  have hXl : X.length = w.length := by simp [hXd, hvl]
  have hXat : ∀ k < w.length, at0 X k = val (gn * at0 w k * at0 blk k) := by
    intro k hk
    rw [hXd, at0_map_valG val hF.zero, hvat k hk]
  obtain ⟨ys, f2, s1, s2, s3⟩ := Iir.filter_series (Iir.mk id a' b' (i0.s.map val)) ⟨by simp [ha', hb'], by simp [hi0, hb'], by simp [hb']⟩ rfl (by simp [ha', at0])
    (by simp [hi0, hF.zero]) X (by intro h; rw [h] at hXl; simp at hXl; omega)
  have hzy : z = ys := by rw [q2] at s1; simpa using (congrArg Prod.fst s1)
  have hzat : at0 z (w.length - 1) = PowerSeries.coeff (w.length - 1) (ser b' * (recip a' * ser X)) := by
    have := s3 (w.length - 1) (by omega)
    rw [hzy]
    unfold at0
    rw [List.getD_eq_getElem?_getD, this]
    rfl
  -- the exact coefficients
  have hXM : ∀ n < w.length, ‖PowerSeries.coeff n (ser X)‖ ≤ M := by
    intro n hn
    rw [coeff_ser, hXat n hn]
    exact hX blk hmem n hn
  have hco := goertzel_coefficients (((2 * Real.cos (Real.pi * f) : ℝ)) : ℂ) r (goertzelE f) (val (e f)) w.length H M ε hH hM (by rw [goertzelE, hexp])
    (by rw [← Complex.ofReal_sub, Complex.norm_real]; exact hc) (by rw [goertzelE]; exact he) hB' hB (ser X) hXM (w.length - 1) (by omega)
  have hdft := goertzel_transfer f X w.length hN
  have h5 := q5 (w.length - 1) (by omega)
  rw [hval]
  have e1 : ∀ k ∈ range w.length, val (gn * at0 w k * at0 calls.flatten (m * w.length + k)) * cexp (-(I * Real.pi * f * k)) = at0 X k * cexp (-(I * Real.pi * f * k)) := by
    intro k hk
    have hk' := mem_range.mp hk
    rw [hXat k hk', hbat k hk']
  rw [sum_congr rfl e1, ← hdft]
  rw [← hzat] at hco
  refine (norm_sub_le_norm_sub_add_norm_sub _ (at0 z (w.length - 1)) _).trans ?_
  refine (add_le_add h5 hco).trans ?_
  rw [goertzelK]
  have hP : 0 ≤ ((w.length : ℝ) * H) ^ 2 := by positivity
  have hK0 : 0 ≤ roundingK 3 6 3 := by unfold roundingK; norm_num
  have hl3 : ((a'.length : ℕ) : ℝ) = 3 := by simp [ha']
  rw [hl3]
  have t1 : 0 ≤ ((w.length : ℝ) * H) ^ 2 * (u * M + η * (1 + M)) := by positivity
  have t2 : 0 ≤ roundingK 3 6 3 * (((w.length : ℝ) * H) ^ 2 * (ε * M)) := by positivity
  nlinarith

/-- C139.  GoertzelFilter in machine arithmetic, at any frequency.  Each value it returns differs from the spectral sum of the `N` weighted samples of its block by at
most `11080 N⁴ (u M + η (1 + M) + ε M)`, where `M` bounds the weighted samples and `ε` is the error of the two coefficients.  The machine's `2 cos(π f)` is a
real number in `[-2, 2]`. -/
theorem C139_goertzel {F : Type} [Zero F] [One F] [Neg F] [Add F] [Mul F] [Dot F] [DecidableEq F] (val : F → ℂ) (u η ε M : ℝ) (hF : RoundedC val 3 u η)
    (h1 : val 1 = 1) (hneg : ∀ x, val (-x) = -val x) (hu : 0 ≤ u) (hη : 0 ≤ η) (hη1 : η ≤ 1) (hε : ε ≤ 1) (hM : 0 ≤ M) (allZero : List F → Bool)
    (inRange : ℝ → Bool) (c e : ℝ → F) (w : List F) (f r : ℝ) (g : Goertzel F ℝ) (hg : Goertzel.make allZero inRange c e w f = .ok g) (hr : val (c f) = r) (hr2 : |r| ≤ 2)
    (hc : |r - 2 * Real.cos (Real.pi * f)| ≤ ε) (he : ‖val (e f) - cexp (-(I * Real.pi * f))‖ ≤ ε) (hu0 : u * w.length ^ 2 ≤ 1 / 19) (gain : ℕ → F)
    (calls : List (List F)) (hne : ∀ c ∈ calls, c ≠ []) (hX : ∀ blk ∈ blocks w.length calls.flatten, ∀ k < w.length, ‖val (gain w.length * at0 w k * at0 blk k)‖ ≤ M) :
    ∃ vs g', callChunks (Goertzel.filter gain) g calls = (.ok vs, g') ∧ vs.length = calls.flatten.length / w.length ∧ ∀ m < vs.length,
      ‖val (at0 vs m) - cexp (I * Real.pi * f * (w.length - 1)) * ∑ k ∈ range w.length,
        val (gain w.length * at0 w k * at0 calls.flatten (m * w.length + k)) * cexp (-(I * Real.pi * f * k))‖ ≤
        11080 * w.length ^ 4 * (u * M + η * (1 + M) + ε * M) := by
  have hN1 : (1 : ℝ) ≤ w.length := by
    rcases Nat.eq_zero_or_pos w.length with h | h
    · simp only [Goertzel.make, if_pos (Or.inl h)] at hg
      exact absurd hg (by simp)
    · exact_mod_cast h
  have hlin : ∀ n < w.length, ((n : ℝ) + 1) ≤ w.length := fun n hn => by exact_mod_cast hn
  have h2c : |2 * Real.cos (Real.pi * f)| ≤ 2 := by rw [abs_mul, abs_two]; linarith [Real.abs_cos_le_one (Real.pi * f)]
  have h := goertzel_rounding val u η ε M w.length hF h1 hneg hu hη hη1 hε hM hN1 allZero inRange c e w f r g hg hr hr2 hc he (by linarith [sq (w.length : ℝ)])
    (fun n hn => (recip_two_le r hr2 n).1.trans (hlin n hn)) (fun n hn => (recip_two_le _ h2c n).1.trans (hlin n hn)) gain calls hne hX
  have hK : goertzelK = 11080 := by unfold goertzelK roundingK; norm_num
  rw [hK, show ((w.length : ℝ) * w.length) ^ 2 = w.length ^ 4 by ring] at h
  exact h

/-- C139.  Away from the frequencies 0, 1 and -1 the error grows with the square of `N` only: `σ` bounds the sine of the angle from below. -/
theorem C139_goertzel_inner {F : Type} [Zero F] [One F] [Neg F] [Add F] [Mul F] [Dot F] [DecidableEq F] (val : F → ℂ) (u η ε M σ : ℝ) (hF : RoundedC val 3 u η)
    (h1 : val 1 = 1) (hneg : ∀ x, val (-x) = -val x) (hu : 0 ≤ u) (hη : 0 ≤ η) (hη1 : η ≤ 1) (hε : ε ≤ 1) (hM : 0 ≤ M) (allZero : List F → Bool)
    (inRange : ℝ → Bool) (c e : ℝ → F) (w : List F) (f r : ℝ) (g : Goertzel F ℝ) (hg : Goertzel.make allZero inRange c e w f = .ok g) (hr : val (c f) = r) (hr2 : |r| ≤ 2)
    (hc : |r - 2 * Real.cos (Real.pi * f)| ≤ ε) (he : ‖val (e f) - cexp (-(I * Real.pi * f))‖ ≤ ε) (hσ : 0 < σ) (hσf : σ ≤ |Real.sin (Real.pi * f)|)
    (hσr : σ ^ 2 ≤ 1 - r ^ 2 / 4) (hu0 : u * w.length ≤ σ / 19) (gain : ℕ → F)
    (calls : List (List F)) (hne : ∀ c ∈ calls, c ≠ []) (hX : ∀ blk ∈ blocks w.length calls.flatten, ∀ k < w.length, ‖val (gain w.length * at0 w k * at0 blk k)‖ ≤ M) :
    ∃ vs g', callChunks (Goertzel.filter gain) g calls = (.ok vs, g') ∧ vs.length = calls.flatten.length / w.length ∧ ∀ m < vs.length,
      ‖val (at0 vs m) - cexp (I * Real.pi * f * (w.length - 1)) * ∑ k ∈ range w.length,
        val (gain w.length * at0 w k * at0 calls.flatten (m * w.length + k)) * cexp (-(I * Real.pi * f * k))‖ ≤
        11080 / σ ^ 2 * w.length ^ 2 * (u * M + η * (1 + M) + ε * M) := by
  have h2c : |2 * Real.cos (Real.pi * f)| ≤ 2 := by rw [abs_mul, abs_two]; linarith [Real.abs_cos_le_one (Real.pi * f)]
  have hσ1 : σ ≤ 1 := hσf.trans (Real.abs_sin_le_one _)
  have hσ2 : σ ^ 2 ≤ 1 - (2 * Real.cos (Real.pi * f)) ^ 2 / 4 := by
    have h3 : σ ^ 2 ≤ Real.sin (Real.pi * f) ^ 2 := by rw [← sq_abs (Real.sin _)]; exact pow_le_pow_left₀ hσ.le hσf 2
    rw [Real.sin_sq] at h3
    linarith
  have h := goertzel_rounding val u η ε M (1 / σ) hF h1 hneg hu hη hη1 hε hM (by rw [le_div_iff₀ hσ]; linarith) allZero inRange c e w f r g hg hr hr2 hc he
    (by rw [mul_one_div, ← mul_div_assoc, div_le_iff₀ hσ]; linarith)
    (fun n _ => (recip_two_le r hr2 n).2 σ hσ hσr) (fun n _ => (recip_two_le _ h2c n).2 σ hσ hσ2) gain calls hne hX
  have hK : goertzelK = 11080 := by unfold goertzelK roundingK; norm_num
  rw [hK, show (11080 : ℝ) * ((w.length : ℝ) * (1 / σ)) ^ 2 = 11080 / σ ^ 2 * w.length ^ 2 by field_simp] at h
  exact h

/-- Complex fixed point numbers with step `1/256`; the parts of products and dot products are rounded down. -/
structure FixedC where
  re : ℤ
  im : ℤ
  deriving DecidableEq

instance : Zero FixedC := ⟨⟨0, 0⟩⟩
instance : One FixedC := ⟨⟨256, 0⟩⟩
instance : Neg FixedC := ⟨fun x => ⟨-x.re, -x.im⟩⟩
instance : Add FixedC := ⟨fun x y => ⟨x.re + y.re, x.im + y.im⟩⟩
instance : Mul FixedC := ⟨fun x y => ⟨(x.re * y.re - x.im * y.im) / 256, (x.re * y.im + x.im * y.re) / 256⟩⟩
instance : Dot FixedC := ⟨fun a b => ⟨(dot (a.map FixedC.re) (b.map FixedC.re) - dot (a.map FixedC.im) (b.map FixedC.im)) / 256,
  (dot (a.map FixedC.re) (b.map FixedC.im) + dot (a.map FixedC.im) (b.map FixedC.re)) / 256⟩⟩

/-- The value of a complex fixed point number. -/
noncomputable def FixedC.val (x : FixedC) : ℂ := (x.re / 256 : ℝ) + (x.im / 256 : ℝ) * I

/-- Complex fixed point arithmetic satisfies the hypotheses with `u = 0` and `η = 1/128`, for every length. -/
theorem fixedC_rounded (n : ℕ) : RoundedC FixedC.val n 0 (1 / 128) := by
  have hdiv : ∀ z : ℤ, |((z / 256 : ℤ) : ℝ) / 256 - (z : ℝ) / 65536| ≤ 1 / 256 := by
    intro z
    have h1 := Int.emod_add_mul_ediv z 256
    have h2 := Int.emod_nonneg z (show (256 : ℤ) ≠ 0 by norm_num)
    have h3 := Int.emod_lt_of_pos z (show (0 : ℤ) < 256 by norm_num)
    have e : (z : ℝ) = ((z % 256 : ℤ) : ℝ) + 256 * ((z / 256 : ℤ) : ℝ) := by exact_mod_cast h1.symm
    have h2' : (0 : ℝ) ≤ ((z % 256 : ℤ) : ℝ) := by exact_mod_cast h2
    have h3' : ((z % 256 : ℤ) : ℝ) < 256 := by exact_mod_cast h3
    rw [abs_le]
    constructor <;> rw [e] <;> nlinarith
  have hpair : ∀ p q : ℤ, ‖FixedC.val ⟨p / 256, q / 256⟩ - ((((p : ℝ) / 65536 : ℝ) : ℂ) + (((q : ℝ) / 65536 : ℝ) : ℂ) * I)‖ ≤ 1 / 128 := by
    intro p q
    have e : FixedC.val ⟨p / 256, q / 256⟩ - ((((p : ℝ) / 65536 : ℝ) : ℂ) + (((q : ℝ) / 65536 : ℝ) : ℂ) * I) =
        ((((p / 256 : ℤ) : ℝ) / 256 - (p : ℝ) / 65536 : ℝ) : ℂ) + ((((q / 256 : ℤ) : ℝ) / 256 - (q : ℝ) / 65536 : ℝ) : ℂ) * I := by
      simp only [FixedC.val]
      push_cast
      ring
    rw [e]
    refine (norm_add_le _ _).trans ?_
    rw [norm_mul, norm_I, mul_one, Complex.norm_real, Complex.norm_real, Real.norm_eq_abs, Real.norm_eq_abs]
    linarith [hdiv p, hdiv q]
  refine ⟨?_, ?_, ?_, ?_⟩
  · show FixedC.val ⟨0, 0⟩ = 0
    simp [FixedC.val]
  · intro x y
    have : FixedC.val (x + y) - (FixedC.val x + FixedC.val y) = 0 := by
      show FixedC.val ⟨x.re + y.re, x.im + y.im⟩ - _ = 0
      simp only [FixedC.val]
      push_cast; ring
    rw [this]; norm_num
  · intro x y
    have := hpair (x.re * y.re - x.im * y.im) (x.re * y.im + x.im * y.re)
    have e : FixedC.val x * FixedC.val y = ((((x.re * y.re - x.im * y.im : ℤ) : ℝ) / 65536 : ℝ) : ℂ) + ((((x.re * y.im + x.im * y.re : ℤ) : ℝ) / 65536 : ℝ) : ℂ) * I := by
      simp only [FixedC.val]
      push_cast
      linear_combination ((x.im : ℂ) / 256 * (y.im / 256)) * I_mul_I
    rw [e]
    refine le_trans this ?_
    norm_num
  · intro a b ha hb
    have h := hpair (dot (a.map FixedC.re) (b.map FixedC.re) - dot (a.map FixedC.im) (b.map FixedC.im)) (dot (a.map FixedC.re) (b.map FixedC.im) + dot (a.map FixedC.im) (b.map FixedC.re))
    have hr : ∀ (l : List FixedC) (i : ℕ), (at0 l i).re = at0 (l.map FixedC.re) i := fun l i => (at0_map_valG FixedC.re rfl l i).symm
    have hi : ∀ (l : List FixedC) (i : ℕ), (at0 l i).im = at0 (l.map FixedC.im) i := fun l i => (at0_map_valG FixedC.im rfl l i).symm
    have e : ∑ i ∈ range n, FixedC.val (at0 a i) * FixedC.val (at0 b i) =
        ((((dot (a.map FixedC.re) (b.map FixedC.re) - dot (a.map FixedC.im) (b.map FixedC.im) : ℤ) : ℝ) / 65536 : ℝ) : ℂ) +
          ((((dot (a.map FixedC.re) (b.map FixedC.im) + dot (a.map FixedC.im) (b.map FixedC.re) : ℤ) : ℝ) / 65536 : ℝ) : ℂ) * I := by
      simp only [dot_eq_sum, List.length_map, ha]
      push_cast
      rw [← sum_sub_distrib, ← sum_add_distrib, sum_div, sum_div, sum_mul, ← sum_add_distrib]
      apply sum_congr rfl
      intro i _
      simp only [FixedC.val, hr, hi]
      push_cast
      linear_combination (((at0 (a.map FixedC.im) i : ℤ) : ℂ) / 256 * (((at0 (b.map FixedC.im) i : ℤ) : ℂ) / 256)) * I_mul_I
    rw [e]
    refine le_trans h ?_
    norm_num

/-- C139 for complex fixed point: four samples at the frequency 1/3, with `2 cos(π/3) = 1` exact and `exp(-jπ/3)` rounded to `(128 - 222 j) / 256`. -/
example (x : List FixedC) (hx : x ≠ []) (hM : ∀ blk ∈ blocks 4 x, ∀ k < 4, ‖FixedC.val ((1 : FixedC) * 1 * at0 blk k)‖ ≤ 1) :
    ∃ g vs g', Goertzel.make (fun _ => false) (fun _ => true) (fun _ => ⟨256, 0⟩) (fun _ => ⟨128, -222⟩) [1, 1, 1, 1] (1 / 3 : ℝ) = .ok g ∧
      callChunks (Goertzel.filter fun _ => (1 : FixedC)) g [x] = (.ok vs, g') ∧ vs.length = x.length / 4 := by
  have hgm : ∃ g : Goertzel FixedC ℝ, Goertzel.make (fun _ => false) (fun _ => true) (fun _ => ⟨256, 0⟩) (fun _ => ⟨128, -222⟩) [1, 1, 1, 1] (1 / 3 : ℝ) = .ok g :=
    ⟨_, rfl⟩
  obtain ⟨g, hg⟩ := hgm
  have hcos : Real.cos (Real.pi * (1 / 3)) = 1 / 2 := by rw [mul_one_div, Real.cos_pi_div_three]
  have hat : ∀ k < 4, at0 [(1 : FixedC), 1, 1, 1] k = 1 := by
    intro k hk
    interval_cases k <;> rfl
  obtain ⟨vs, g', h1, h2, -⟩ := C139_goertzel FixedC.val 0 (1 / 128) (1 / 256) 1 (fixedC_rounded 3) (by show FixedC.val ⟨256, 0⟩ = 1; simp [FixedC.val])
    (by intro x; show FixedC.val ⟨-x.re, -x.im⟩ = _; simp only [FixedC.val]; push_cast; ring) le_rfl (by norm_num) (by norm_num) (by norm_num) (by norm_num) _ _ _ _ _
    (1 / 3) 1 g hg (by simp [FixedC.val]) (by norm_num) (by rw [hcos]; norm_num) (by
      have e : cexp (-(I * Real.pi * ((1 / 3 : ℝ) : ℂ))) = ((1 / 2 : ℝ) : ℂ) - ((√3 / 2 : ℝ) : ℂ) * I := by
        rw [show -(I * (Real.pi : ℂ) * ((1 / 3 : ℝ) : ℂ)) = ((-(Real.pi / 3) : ℝ) : ℂ) * I by push_cast; ring, Complex.exp_mul_I, ← Complex.ofReal_cos, ← Complex.ofReal_sin,
          Real.cos_neg, Real.sin_neg, Real.cos_pi_div_three, Real.sin_pi_div_three]
        push_cast; ring
      have e2 : FixedC.val ⟨128, -222⟩ - cexp (-(I * Real.pi * ((1 / 3 : ℝ) : ℂ))) = ((√3 / 2 - 222 / 256 : ℝ) : ℂ) * I := by
        rw [e, FixedC.val]; push_cast; ring
      rw [e2, norm_mul, norm_I, mul_one, Complex.norm_real, Real.norm_eq_abs, abs_le]
      have s1 : (1.73 : ℝ) ≤ √3 := Real.le_sqrt_of_sq_le (by norm_num)
      have s2 : √3 ≤ 1.74 := Real.sqrt_le_iff.mpr (by norm_num)
      constructor <;> linarith) (by simp) (fun _ => 1) [x] (by simpa using hx) (by
      intro blk hb k hk
      rw [hat k hk]
      exact hM blk (by simpa using hb) k hk)
  exact ⟨g, vs, g', hg, h1, by simpa using h2⟩

/-- The further hypotheses of `C139_goertzel_inner` for that filter, with `σ = 1/2`. -/
example : (1 / 2 : ℝ) ≤ |Real.sin (Real.pi * (1 / 3))| ∧ (1 / 2 : ℝ) ^ 2 ≤ 1 - 1 ^ 2 / 4 := by
  have s1 : (1 : ℝ) ≤ √3 := Real.le_sqrt_of_sq_le (by norm_num)
  rw [mul_one_div, Real.sin_pi_div_three, abs_of_nonneg (by positivity)]
  exact ⟨by linarith, by norm_num⟩

/-- The hypotheses on the recursion in `C139_iir`, for a complex pole at `j / 2`. -/
example : ∀ n, (I / 2) ^ n = (if n = 0 then 1 else 0) + ∑ i ∈ range (n + 1), at0 [0, I / 2] i * (I / 2) ^ (n - i) := by
  intro n
  rcases n with _ | n
  · simp [at0]
  · rw [sum_range_succ', sum_range_succ', sum_eq_zero (fun i _ => by simp [at0])]
    simp [at0, pow_succ']

/-- `C139_fir` for complex fixed point: a rotation by `j/2`, applied to `1/256`, is rounded down to zero. -/
example : ∃ f y f', Fir.new id [(⟨0, 128⟩ : FixedC)] none = .ok f ∧ f.filter [⟨256, 0⟩, ⟨1, 0⟩] = (.ok y, f') ∧ y = [⟨0, 128⟩, ⟨0, 0⟩] :=
  ⟨_, _, _, rfl, rfl, by decide⟩

end Verif.Props
