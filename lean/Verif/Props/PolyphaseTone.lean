import Verif.Props.PolyphaseSystem
import Verif.Spec.Response
import Verif.Lemmas.Dft
import Mathlib.Analysis.SpecialFunctions.Complex.Circle

/- PolyphaseRateFilter of a sinusoid: the sinusoid at the new rate, and its images (C134). -/

namespace Verif.Props

open Finset Spec

/-- `L` equidistant points of the circle, each to the power `t`, have the sum `L` if `L` divides `t`, otherwise zero. -/
theorem comb_sum (L t : ℕ) (hL : 0 < L) : ∑ m ∈ range L, turn ((m : ℂ) * t / L) = if L ∣ t then (L : ℂ) else 0 := by
  have hL' : (L : ℂ) ≠ 0 := by exact_mod_cast hL.ne'
  have h := turn_orthogonal L (t % L) 0 (Nat.mod_lt _ hL) hL
  have e : ∀ m ∈ range L, turn ((m : ℂ) * ((t % L : ℕ) - ((0 : ℕ) : ℂ)) / L) = turn ((m : ℂ) * t / L) := by
    intro m _
    rw [← turn_add_int _ ((m * (t / L) : ℕ) : ℤ)]
    congr 1
    have ht : (t : ℂ) = (t % L : ℕ) + L * (t / L : ℕ) := by exact_mod_cast (Nat.mod_add_div t L).symm
    rw [ht]
    generalize t % L = r
    generalize t / L = q
    push_cast
    field_simp
    ring
  rw [sum_congr rfl e] at h
  rw [h]
  simp only [Nat.dvd_iff_mod_eq_zero]

/-- A sinusoid with `L - 1` zeros after every sample is the mean of `L` sinusoids. -/
theorem stuff_tone (L N : ℕ) (hL : 0 < L) (A u φ : ℝ) (t : ℕ) (ht : t < L * N) :
    ((at0 (stuff L ((List.range N).map fun n : ℕ => A * Real.cos (Real.pi * u * n + φ))) t : ℝ) : ℝ) =
      (∑ m ∈ range L, A * Complex.exp (Complex.I * φ) / L * Complex.exp (Complex.I * Real.pi * (u + 2 * m) * t / L)).re := by
  have hL' : (L : ℂ) ≠ 0 := by exact_mod_cast hL.ne'
  have hs : ∑ m ∈ range L, A * Complex.exp (Complex.I * φ) / L * Complex.exp (Complex.I * Real.pi * (u + 2 * m) * t / L) =
      A * Complex.exp (Complex.I * φ) / L * Complex.exp (Complex.I * Real.pi * u * t / L) * ∑ m ∈ range L, turn ((m : ℂ) * t / L) := by
    rw [mul_sum]
    apply sum_congr rfl
    intro m _
    unfold turn
    rw [mul_assoc (A * Complex.exp (Complex.I * φ) / L : ℂ), ← Complex.exp_add]
    congr 2
    ring
  rw [hs, comb_sum L t hL]
  obtain ⟨r, i, hr, rfl⟩ : ∃ r i, r < L ∧ t = r + L * i := ⟨t % L, t / L, Nat.mod_lt _ hL, (Nat.mod_add_div t L).symm⟩
  rw [at0_stuff L _ i r hr]
  have hdvd : L ∣ r + L * i ↔ r = 0 := by
    rw [Nat.dvd_add_left (Dvd.intro _ rfl)]
    exact ⟨fun h => Nat.eq_zero_of_dvd_of_lt h hr, fun h => h ▸ dvd_zero L⟩
  by_cases h0 : r = 0
  · rw [if_pos h0, if_pos (hdvd.mpr h0), h0, zero_add]
    have hi : i < N := by
      rw [h0, zero_add] at ht
      exact Nat.lt_of_mul_lt_mul_left ht
    rw [at0_map_range _ _ _ hi]
    have e : (A : ℂ) * Complex.exp (Complex.I * φ) / L * Complex.exp (Complex.I * Real.pi * u * (L * i : ℕ) / L) * L =
        (A : ℝ) * Complex.exp (((Real.pi * u * i + φ : ℝ) : ℂ) * Complex.I) := by
      rw [show ((A : ℂ) * Complex.exp (Complex.I * φ) / L * Complex.exp (Complex.I * Real.pi * u * (L * i : ℕ) / L) * L) =
        A * (Complex.exp (Complex.I * φ) * Complex.exp (Complex.I * Real.pi * u * (L * i : ℕ) / L)) by field_simp, ← Complex.exp_add]
      congr 2
      push_cast
      field_simp
      ring
    rw [e, Complex.re_ofReal_mul, Complex.exp_ofReal_mul_I_re]
  · rw [if_neg h0, if_neg (fun h => h0 (hdvd.mp h)), mul_zero, Complex.zero_re]

/-- FIR filter of a sinusoid with `L - 1` zeros after every sample, once the samples before the signal are forgotten. -/
theorem conv_stuff_tone (L N : ℕ) (hL : 0 < L) (h : List ℝ) (A u φ : ℝ) (t : ℕ) (ht : t < L * N) (hh : h.length ≤ t + 1) :
    ∑ q ∈ range (t + 1), at0 h q * at0 (stuff L ((List.range N).map fun n : ℕ => A * Real.cos (Real.pi * u * n + φ))) (t - q) =
      ∑ m ∈ range L, (A * Complex.exp (Complex.I * φ) * (dtft h ((u + 2 * m) / L) / L) * Complex.exp (Complex.I * Real.pi * (u + 2 * m) * t / L)).re := by
  rw [← sum_subset (range_mono hh)]
  · have e : ∀ q ∈ range h.length, at0 h q * at0 (stuff L ((List.range N).map fun n : ℕ => A * Real.cos (Real.pi * u * n + φ))) (t - q) =
        (∑ m ∈ range L, at0 h q * (A * Complex.exp (Complex.I * φ) / L * Complex.exp (Complex.I * Real.pi * (u + 2 * m) * (t - q : ℕ) / L))).re := by
      intro q _
      rw [stuff_tone L N hL A u φ (t - q) (by omega), ← Complex.re_ofReal_mul, mul_sum]
    rw [sum_congr rfl e, ← Complex.re_sum, sum_comm, Complex.re_sum]
    apply sum_congr rfl
    intro m _
    congr 1
    unfold dtft
    rw [show (A : ℂ) * Complex.exp (Complex.I * φ) * ((∑ n ∈ range h.length, ((at0 h n : ℝ) : ℂ) *
        Complex.exp (-(Complex.I * Real.pi * (((u + 2 * m) / L : ℝ) : ℂ) * n))) / L) * Complex.exp (Complex.I * Real.pi * (u + 2 * m) * t / L) =
        (∑ n ∈ range h.length, ((at0 h n : ℝ) : ℂ) * Complex.exp (-(Complex.I * Real.pi * (((u + 2 * m) / L : ℝ) : ℂ) * n))) *
        (A * Complex.exp (Complex.I * φ) / L * Complex.exp (Complex.I * Real.pi * (u + 2 * m) * t / L)) by ring, sum_mul]
    apply sum_congr rfl
    intro q hq
    have hq := mem_range.mp hq
    rw [mul_assoc ((at0 h q : ℝ) : ℂ), mul_left_comm (Complex.exp _), ← Complex.exp_add, Nat.cast_sub (by omega)]
    congr 3
    push_cast
    ring
  · intro q _ hq
    have hq : h.length ≤ q := by simpa using hq
    have : at0 h q = 0 := by
      unfold at0
      rw [List.getD_eq_getElem?_getD, List.getElem?_eq_none hq]; rfl
    rw [this, zero_mul]

/-- A filter whose `L` phases have the sum one has the gain `L` at zero and the gain zero at the images of zero. -/
theorem phases_dtft (L cc : ℕ) (hL : 0 < L) (h : List ℝ) (hh : h.length = L * cc) (hp : ∀ i < L, ∑ j ∈ range cc, at0 h (i + L * j) = 1) (m : ℕ) (hm : m < L) :
    dtft h (2 * m / L) = if m = 0 then (L : ℂ) else 0 := by
  have hL' : (L : ℂ) ≠ 0 := by exact_mod_cast hL.ne'
  have hb : ∀ (J : ℕ) (g : ℕ → ℂ), ∑ q ∈ range (L * J), g q = ∑ i ∈ range L, ∑ j ∈ range J, g (i + L * j) := by
    intro J g
    rw [sum_comm]
    induction J with
    | zero => simp
    | succ J ih =>
      rw [mul_add, mul_one, sum_range_add, ih, sum_range_succ]
      congr 1
      apply sum_congr rfl
      intro i _
      rw [add_comm]
  unfold dtft
  rw [hh, hb]
  have e : ∀ i ∈ range L, ∑ j ∈ range cc, ((at0 h (i + L * j) : ℝ) : ℂ) * Complex.exp (-(Complex.I * Real.pi * ((2 * m / L : ℝ) : ℂ) * (i + L * j : ℕ))) =
      turn ((i : ℂ) * ((0 : ℕ) - (m : ℂ)) / L) := by
    intro i hi
    have hi := mem_range.mp hi
    have hj : ∀ j ∈ range cc, ((at0 h (i + L * j) : ℝ) : ℂ) * Complex.exp (-(Complex.I * Real.pi * ((2 * m / L : ℝ) : ℂ) * (i + L * j : ℕ))) =
        ((at0 h (i + L * j) : ℝ) : ℂ) * turn ((i : ℂ) * ((0 : ℕ) - (m : ℂ)) / L) := by
      intro j _
      congr 1
      rw [← turn_add_int _ (-((m * j : ℕ) : ℤ))]
      unfold turn
      congr 1
      push_cast
      field_simp
      ring
    rw [sum_congr rfl hj, ← sum_mul, ← Complex.ofReal_sum, hp i hi, Complex.ofReal_one, one_mul]
  rw [sum_congr rfl e, turn_orthogonal L 0 m hL hm]
  simp only [eq_comm]

/-- The response changes by no more than the change of the frequency times the absolute moment of the coefficients about any centre. -/
theorem dtft_lipschitz (h : List ℝ) (c f f' : ℝ) :
    ‖dtft h f * Complex.exp (Complex.I * Real.pi * f * c) - dtft h f' * Complex.exp (Complex.I * Real.pi * f' * c)‖ ≤
      Real.pi * |f - f'| * ∑ n ∈ range h.length, |(n : ℝ) - c| * |at0 h n| := by
  unfold dtft
  rw [sum_mul, sum_mul, ← sum_sub_distrib, mul_sum]
  refine (norm_sum_le _ _).trans (sum_le_sum fun n _ => ?_)
  rw [mul_assoc ((at0 h n : ℝ) : ℂ), mul_assoc ((at0 h n : ℝ) : ℂ), ← Complex.exp_add, ← Complex.exp_add, ← mul_sub, norm_mul, Complex.norm_real, Real.norm_eq_abs,
    show -(Complex.I * Real.pi * f * n) + Complex.I * Real.pi * f * c = Complex.I * ((Real.pi * f * (c - n) : ℝ) : ℂ) by push_cast; ring,
    show -(Complex.I * Real.pi * f' * n) + Complex.I * Real.pi * f' * c = Complex.I * ((Real.pi * f' * (c - n) : ℝ) : ℂ) by push_cast; ring]
  have key : ‖Complex.exp (Complex.I * ((Real.pi * f * (c - n) : ℝ) : ℂ)) - Complex.exp (Complex.I * ((Real.pi * f' * (c - n) : ℝ) : ℂ))‖ ≤
      |Real.pi * f * (c - n) - Real.pi * f' * (c - n)| := by
    generalize Real.pi * f * (c - n) = a
    generalize Real.pi * f' * (c - n) = b
    have e : Complex.exp (Complex.I * (a : ℂ)) - Complex.exp (Complex.I * (b : ℂ)) =
        Complex.exp (Complex.I * (b : ℂ)) * (Complex.exp (Complex.I * ((a - b : ℝ) : ℂ)) - 1) := by
      rw [mul_sub, ← Complex.exp_add, mul_one]
      congr 2
      push_cast; ring
    rw [e, norm_mul, mul_comm Complex.I (b : ℂ), Complex.norm_exp_ofReal_mul_I, one_mul]
    exact Real.norm_exp_I_mul_ofReal_sub_one_le
  refine (mul_le_mul_of_nonneg_left key (abs_nonneg _)).trans (le_of_eq ?_)
  rw [show Real.pi * f * (c - n) - Real.pi * f' * (c - n) = Real.pi * (f - f') * (c - n) by ring, abs_mul, abs_mul, abs_of_pos Real.pi_pos, abs_sub_comm c]
  ring

/-- C134.  Let `h` be the coefficients that a PolyphaseRateFilter of the rate `L / D` takes from its prototype `g` (every `256 / L`-th).  Of a sinusoid
`A cos(πun + φ)` the filter produces, once `15` samples are consumed, the sinusoid at the new rate with the gain `H(u / L) / L`, and `L - 1` images at the
frequencies `u + 2m` of the incident rate with the gains `H((u + 2m) / L) / L`. -/
theorem C134_tone : ∃ g : List ℝ, g.length = 3840 ∧ (∀ n ≤ 3839, at0 g n = at0 g (3839 - n)) ∧ (∀ i < 256, ∑ j ∈ range 15, at0 g (i + 256 * j) = 1) ∧
    ∀ L M D : ℕ, L * M = 256 → 0 < D → ∃ h : List ℝ, h.length = 15 * L ∧ (∀ n < 15 * L, at0 h n = at0 g (M * n)) ∧
      (∀ m < L, dtft h (2 * m / L) = if m = 0 then (L : ℂ) else 0) ∧
      ∃ p B, Polyphase.new 256 15 zeroBank (L / D) = (.ok p, B) ∧ ∀ (A u φ : ℝ) (N : ℕ), 0 < N →
        ∃ y p', p.filter B ((List.range N).map fun n : ℕ => A * Real.cos (Real.pi * u * n + φ)) = (.ok y, p') ∧ IsRound (N * (L / D)) y.length ∧
          ∀ k < y.length, 15 * L ≤ k * D + 1 → y[k]? = some (∑ m ∈ range L, (A * Complex.exp (Complex.I * φ) * (dtft h ((u + 2 * m) / L) / L) *
            Complex.exp (Complex.I * Real.pi * (u + 2 * m) * (k * D : ℕ) / L)).re) := by
  obtain ⟨g, g1, g2, g3, g4⟩ := C109_prototype
  refine ⟨g, g1, g2, g3, fun L M D hLM hD => ?_⟩
  have hL : 0 < L := Nat.pos_of_ne_zero (by rintro rfl; simp at hLM)
  have hM : 0 < M := Nat.pos_of_ne_zero (by rintro rfl; simp at hLM)
  obtain ⟨p, B, n1, n2⟩ := g4 L M D hLM hD
  have hlen : ((List.range (15 * L)).map fun n => at0 g (M * n)).length = 15 * L := by rw [List.length_map, List.length_range]
  have hat : ∀ n < 15 * L, at0 ((List.range (15 * L)).map fun n => at0 g (M * n)) n = at0 g (M * n) := fun n hn => at0_map_range _ _ _ hn
  refine ⟨(List.range (15 * L)).map fun n => at0 g (M * n), hlen, hat, ?_, p, B, n1, fun A u φ N hN => ?_⟩
  · intro m hm
    apply phases_dtft L 15 hL _ (by rw [hlen, mul_comm]) _ m hm
    intro i hi
    have hMi : M * i < 256 := by
      rw [← hLM, mul_comm L]
      exact Nat.mul_lt_mul_of_pos_left hi hM
    rw [← g3 (M * i) hMi]
    apply sum_congr rfl
    intro j hj
    have hj := mem_range.mp hj
    have hidx : i + L * j < 15 * L := by
      have : L * (j + 1) ≤ L * 15 := Nat.mul_le_mul_left _ hj
      rw [mul_add, mul_one] at this
      omega
    rw [hat _ hidx, mul_add, ← mul_assoc, mul_comm M L, hLM]
  · have hxl : ((List.range N).map fun n : ℕ => A * Real.cos (Real.pi * u * n + φ)).length = N := by rw [List.length_map, List.length_range]
    have hx : ((List.range N).map fun n : ℕ => A * Real.cos (Real.pi * u * n + φ)) ≠ [] := by
      intro e
      rw [e] at hxl
      rw [List.length_nil] at hxl
      omega
    obtain ⟨y, p', f, z, f', h1, h2, h3, h4, h5, h6⟩ := n2 _ hx
    rw [hxl] at h2 h5
    refine ⟨y, p', h1, h2, fun k hk hkD => ?_⟩
    obtain ⟨q1, q2⟩ := h6 k hk
    have hsl := stuff_length L hL ((List.range N).map fun n : ℕ => A * Real.cos (Real.pi * u * n + φ))
    rw [hxl] at hsl
    have hsne : stuff L ((List.range N).map fun n : ℕ => A * Real.cos (Real.pi * u * n + φ)) ≠ [] := by
      intro e
      rw [e] at hsl
      have := Nat.mul_pos hL hN
      rw [List.length_nil] at hsl
      omega
    have hne : ((List.range (15 * L)).map fun n => at0 g (M * n)) ≠ [] := by
      intro e
      rw [e] at hlen
      rw [List.length_nil] at hlen
      omega
    obtain ⟨f0, z0, f0', e1, e2, e3, e4⟩ := C01_fir_convolution _ _ hne hsne
    rw [h3] at e1
    obtain rfl := Except.ok.inj e1
    rw [h4] at e2
    obtain rfl := Except.ok.inj (Prod.mk.inj e2).1
    rw [h5] at q1
    rw [q2, e4 (k * D) (by rw [hsl]; exact q1), conv_stuff_tone L N hL _ A u φ (k * D) q1 (by rw [hlen]; exact hkD)]

/-- C134.  The gain of each image, and the error of the gain of the sinusoid itself, vanish in proportion to the frequency. -/
theorem C134_images (L : ℕ) (h : List ℝ) (hz : ∀ m < L, dtft h (2 * m / L) = if m = 0 then (L : ℂ) else 0) (u c : ℝ) :
    (∀ m, 0 < m → m < L → ‖dtft h ((u + 2 * m) / L) / L‖ ≤ Real.pi * |u| / L * ∑ n ∈ range h.length, |(n : ℝ) - c| * |at0 h n| / L) ∧
    (0 < L → ‖dtft h (u / L) / L - Complex.exp (-(Complex.I * Real.pi * u * (c / L)))‖ ≤ Real.pi * |u| / L * ∑ n ∈ range h.length, |(n : ℝ) - c| * |at0 h n| / L) := by
  have hnorm : ∀ f : ℝ, ‖Complex.exp (Complex.I * Real.pi * f * c)‖ = 1 := by
    intro f
    rw [show Complex.I * Real.pi * f * c = ((Real.pi * f * c : ℝ) : ℂ) * Complex.I by push_cast; ring]
    exact Complex.norm_exp_ofReal_mul_I _
  have key : ∀ m < L, ‖dtft h ((u + 2 * m) / L) * Complex.exp (Complex.I * Real.pi * ((u + 2 * m) / L : ℝ) * c) -
      dtft h (2 * m / L) * Complex.exp (Complex.I * Real.pi * (2 * m / L : ℝ) * c)‖ / L ≤ Real.pi * |u| / L * ∑ n ∈ range h.length, |(n : ℝ) - c| * |at0 h n| / L := by
    intro m hm
    have hL : (0 : ℝ) < L := by exact_mod_cast (by omega : 0 < L)
    have := dtft_lipschitz h c ((u + 2 * m) / L) (2 * m / L)
    rw [show (u + 2 * m) / (L : ℝ) - 2 * m / L = u / L by ring, abs_div, abs_of_pos hL] at this
    rw [← sum_div, div_le_iff₀ hL]
    refine this.trans (le_of_eq ?_)
    field_simp
  constructor
  · intro m h0 hm
    have := key m hm
    rw [hz m hm, if_neg (by omega), zero_mul, sub_zero, norm_mul, hnorm, mul_one] at this
    rw [norm_div, Complex.norm_natCast]
    exact this
  · intro hL
    have hL' : (L : ℂ) ≠ 0 := by exact_mod_cast hL.ne'
    have := key 0 hL
    rw [hz 0 hL, if_pos rfl] at this
    simp only [Nat.cast_zero, mul_zero, add_zero, zero_div, Complex.ofReal_zero, zero_mul, Complex.exp_zero, mul_one] at this
    refine le_trans (le_of_eq ?_) this
    have hf := hnorm (u / L)
    rw [show dtft h (u / L) / L - Complex.exp (-(Complex.I * Real.pi * u * (c / L))) =
      (dtft h (u / L) * Complex.exp (Complex.I * Real.pi * (u / L : ℝ) * c) - L) * Complex.exp (-(Complex.I * Real.pi * (u / L : ℝ) * c)) / L by
        rw [sub_mul, mul_assoc (dtft h (u / L)), ← Complex.exp_add, add_neg_cancel, Complex.exp_zero, mul_one, sub_div, mul_div_right_comm, div_self hL', one_mul]
        congr 3
        push_cast
        field_simp]
    rw [norm_div, norm_mul, Complex.norm_natCast, Complex.exp_neg, norm_inv, hf, inv_one, mul_one]

/-- C134.  Decimation does not reduce aliasing, because the filters do not depend on the rate.  At the rate `1 / D` the sinusoid of frequency `2 / D`, which is
twice the new Nyquist frequency, becomes a constant, and the gain tends to one as `D` grows. -/
theorem C134_alias : ∃ K : ℝ, ∀ D : ℕ, 0 < D → ∃ (G : ℂ) (p : Polyphase) (B : List (List ℝ)), |‖G‖ - 1| ≤ K / D ∧
    Polyphase.new 256 15 zeroBank ((1 : ℕ) / D) = (.ok p, B) ∧ ∀ (A φ : ℝ) (N : ℕ), 0 < N →
      ∃ y p', p.filter B ((List.range N).map fun n : ℕ => A * Real.cos (Real.pi * (2 / D) * n + φ)) = (.ok y, p') ∧ IsRound (N * ((1 : ℕ) / D)) y.length ∧
        ∀ k < y.length, 15 ≤ k * D + 1 → y[k]? = some (A * (‖G‖ * Real.cos (φ + G.arg))) := by
  obtain ⟨g, g1, -, -, g4⟩ := C134_tone
  refine ⟨Real.pi * 2 * ∑ n ∈ range 15, |(n : ℝ) - 0| * |at0 g (256 * n)|, fun D hD => ?_⟩
  have hD' : (0 : ℝ) < D := by exact_mod_cast hD
  obtain ⟨h, h1, h2, h3, p, B, n1, n2⟩ := g4 1 256 D (by norm_num) hD
  refine ⟨dtft h (2 / D), p, B, ?_, n1, fun A φ N hN => ?_⟩
  · have := (C134_images 1 h h3 (2 / D) 0).2 one_pos
    simp only [Nat.cast_one, div_one, Complex.ofReal_zero, mul_zero, neg_zero, Complex.exp_zero] at this
    have e : ∑ n ∈ range h.length, |(n : ℝ) - 0| * |at0 h n| = ∑ n ∈ range 15, |(n : ℝ) - 0| * |at0 g (256 * n)| := by
      rw [h1]
      apply sum_congr rfl
      intro n hn
      rw [h2 n (by have := mem_range.mp hn; omega)]
    rw [e, abs_of_pos (by positivity)] at this
    have hn := abs_norm_sub_norm_le (dtft h (2 / D)) 1
    rw [norm_one] at hn
    refine hn.trans (this.trans (le_of_eq ?_))
    ring
  · obtain ⟨y, p', y1, y2, y3⟩ := n2 A (2 / D) φ N hN
    refine ⟨y, p', y1, y2, fun k hk hkD => ?_⟩
    rw [y3 k hk (by omega), sum_range_one]
    congr 1
    have hDc : (D : ℂ) ≠ 0 := by exact_mod_cast hD.ne'
    have e1 : Complex.exp (Complex.I * Real.pi * (((2 / D : ℝ) : ℂ) + 2 * (0 : ℕ)) * (k * D : ℕ) / (1 : ℕ)) = 1 := by
      rw [show Complex.I * Real.pi * (((2 / D : ℝ) : ℂ) + 2 * (0 : ℕ)) * (k * D : ℕ) / (1 : ℕ) = (k : ℤ) * (2 * Real.pi * Complex.I) by
        push_cast; field_simp; ring]
      exact Complex.exp_int_mul_two_pi_mul_I _
    rw [e1, mul_one]
    simp only [Nat.cast_zero, mul_zero, add_zero, Nat.cast_one, div_one]
    conv_lhs => rw [← Complex.norm_mul_exp_arg_mul_I (dtft h (2 / D))]
    rw [show (A : ℂ) * Complex.exp (Complex.I * φ) * (‖dtft h (2 / D)‖ * Complex.exp ((dtft h (2 / D)).arg * Complex.I)) =
      ((A * ‖dtft h (2 / D)‖ : ℝ) : ℂ) * (Complex.exp (Complex.I * φ) * Complex.exp ((dtft h (2 / D)).arg * Complex.I)) by push_cast; ring,
      ← Complex.exp_add, show Complex.I * φ + (dtft h (2 / D)).arg * Complex.I = ((φ + (dtft h (2 / D)).arg : ℝ) : ℂ) * Complex.I by push_cast; ring,
      Complex.re_ofReal_mul, Complex.exp_ofReal_mul_I_re, mul_assoc]

/-- Beyond some `D`, a sinusoid above the new Nyquist frequency leaves a constant of at least nine tenths of its amplitude, for some phase. -/
example : ∃ D : ℕ, 0 < D ∧ ∃ (φ : ℝ) (p : Polyphase) (B : List (List ℝ)), Polyphase.new 256 15 zeroBank ((1 : ℕ) / D) = (.ok p, B) ∧
    ∃ y p', p.filter B ((List.range (30 * D)).map fun n : ℕ => 1 * Real.cos (Real.pi * (2 / D) * n + φ)) = (.ok y, p') ∧ y.length = 30 ∧
      ∃ v : ℝ, 0.9 ≤ v ∧ ∀ k, 15 ≤ k → k < 30 → y[k]? = some v := by
  obtain ⟨K, hK⟩ := C134_alias
  obtain ⟨D, hD⟩ := exists_nat_gt (max (10 * K) 0)
  have hD0 : (0 : ℝ) < D := lt_of_le_of_lt (le_max_right _ _) hD
  have hDn : 0 < D := by exact_mod_cast hD0
  obtain ⟨G, p, B, h1, h2, h3⟩ := hK D hDn
  obtain ⟨y, p', y1, y2, y3⟩ := h3 1 (-G.arg) (30 * D) (by omega)
  have hl : (y.length : ℤ) = 30 := by
    apply IsRound.unique y2
    have : ((30 * D : ℕ) : ℝ) * ((1 : ℕ) / D) = ((30 : ℤ) : ℝ) := by push_cast; field_simp
    rw [this]
    simp [IsRound]
  refine ⟨D, hDn, -G.arg, p, B, h2, y, p', y1, by exact_mod_cast hl, 1 * (‖G‖ * Real.cos (-G.arg + G.arg)), ?_, fun k hk hk' => y3 k (by omega) ?_⟩
  · rw [neg_add_cancel, Real.cos_zero, mul_one, one_mul]
    have : K / D ≤ 0.1 := by
      rw [div_le_iff₀ hD0]
      have := (le_max_left (10 * K) 0).trans hD.le
      linarith
    have := (abs_le.mp (h1.trans this)).1
    linarith
  · have : k * 1 ≤ k * D := Nat.mul_le_mul_left _ hDn
    omega

/-- A filter of two phases, `[1/2, 1, 1/2, 0]`: the sum of each phase is one, the gain at zero is two, and at its image zero. -/
example : dtft [1 / 2, 1, 1 / 2, 0] (2 * (0 : ℕ) / (2 : ℕ)) = (2 : ℕ) ∧ dtft [1 / 2, 1, 1 / 2, 0] (2 * (1 : ℕ) / (2 : ℕ)) = 0 := by
  have hp : ∀ i < 2, ∑ j ∈ range 2, at0 [(1 / 2 : ℝ), 1, 1 / 2, 0] (i + 2 * j) = 1 := by
    intro i hi
    interval_cases i <;> (simp [sum_range_succ, at0]; try norm_num)
  have h0 := phases_dtft 2 2 (by norm_num) [1 / 2, 1, 1 / 2, 0] rfl hp 0 (by norm_num)
  have h1 := phases_dtft 2 2 (by norm_num) [1 / 2, 1, 1 / 2, 0] rfl hp 1 (by norm_num)
  exact ⟨by rw [h0, if_pos rfl], by rw [h1, if_neg (by norm_num)]⟩

/-- The rate 2 / 3: of a sinusoid of 100 samples there are 67 samples, and sample 20 is that of the sinusoid and one image. -/
example : ∃ h p B, Polyphase.new 256 15 zeroBank ((2 : ℕ) / (3 : ℕ)) = (.ok p, B) ∧ ∀ A u φ : ℝ,
    ∃ y p', p.filter B ((List.range 100).map fun n : ℕ => A * Real.cos (Real.pi * u * n + φ)) = (.ok y, p') ∧ y.length = 67 ∧
      y[20]? = some ((A * Complex.exp (Complex.I * φ) * (dtft h (u / 2) / 2) * Complex.exp (Complex.I * Real.pi * u * 30)).re +
        (A * Complex.exp (Complex.I * φ) * (dtft h ((u + 2) / 2) / 2) * Complex.exp (Complex.I * Real.pi * (u + 2) * 30)).re) := by
  obtain ⟨g, -, -, -, g4⟩ := C134_tone
  obtain ⟨h, -, -, -, p, B, n1, n2⟩ := g4 2 128 3 (by norm_num) (by norm_num)
  refine ⟨h, p, B, n1, fun A u φ => ?_⟩
  obtain ⟨y, p', h1, h2, h3⟩ := n2 A u φ 100 (by norm_num)
  have hl : (y.length : ℤ) = 67 := by
    apply IsRound.unique h2
    unfold IsRound
    norm_num
  have hl : y.length = 67 := by exact_mod_cast hl
  refine ⟨y, p', h1, hl, ?_⟩
  rw [h3 20 (by omega) (by norm_num), sum_range_succ, sum_range_succ, sum_range_zero, zero_add]
  simp only [Nat.cast_zero, mul_zero, add_zero, Nat.cast_one, mul_one, Nat.cast_ofNat]
  congr 5
  · push_cast; ring
  · push_cast; ring

end Verif.Props
