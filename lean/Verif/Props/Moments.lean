import Verif.Props.Wavelet
import Mathlib.Analysis.Real.Sqrt

/- Property C95: the detail coefficients of polynomial signals vanish, up to the accuracy of the coefficient table. -/

namespace Verif.Props

open Finset Spec

/-- The number of vanishing moments for which the filters are known in the literature. -/
def vanishing (style : WaveStyle) (order : ℕ) : ℕ :=
  match style with
  | .haar => 1
  | .coiflet => (order + 1) / 3
  | .daubechies => (order + 1) / 2
  | .symmlet => (order + 1) / 2

/-- The entries of the table with a misprint (`C95_misprints`). -/
def Misprinted (style : WaveStyle) (order : ℕ) : Prop := (style = .coiflet ∧ order = 5) ∨ (style = .daubechies ∧ (order = 7 ∨ order = 9 ∨ order = 11))

instance (style : WaveStyle) (order : ℕ) : Decidable (Misprinted style order) := inferInstanceAs (Decidable (_ ∨ _))

/-- An alternating moment of the digits. -/
def digitMoment (z : List ℤ) (m : ℕ) : ℤ := ((List.range z.length).map fun k : ℕ => (-1) ^ k * (k : ℤ) ^ m * at0 z k).sum

/-- Bounds of the moments: numerator and denominator. -/
def momentBound (style : WaveStyle) (order : ℕ) : ℤ × ℤ :=
  if style = .haar then (0, 1) else if style = .coiflet ∧ order = 5 then (32, 10 ^ 6) else if style = .daubechies ∧ order = 7 then (71, 10 ^ 11) else if style = .daubechies ∧ order = 9 then (57, 10 ^ 11)
  else if style = .daubechies ∧ order = 11 then (31, 10 ^ 7) else if style = .daubechies ∧ order ≤ 5 then (71, 10 ^ 18) else (29, 10 ^ 13)

theorem digits_moments_int (style : WaveStyle) (o : ℤ) (p : List ℤ × ℕ) (h : Wavelet.digits style o = some p) :
    0 < p.1.sum ∧ (∀ m < vanishing style o.toNat, |digitMoment p.1 m| * (momentBound style o.toNat).2 ≤ (momentBound style o.toNat).1 * o ^ m * p.1.sum) ∧
      p.1.sum ≤ 2 * |digitMoment p.1 (vanishing style o.toNat)| := by
  unfold Wavelet.digits at h
  split at h <;> first | (cases h; decide +kernel) | simp at h

theorem digits_moments (style : WaveStyle) (order : ℕ) (p : List ℤ × ℕ) (h : Wavelet.digits style order = some p) :
    0 < p.1.sum ∧ (∀ m < vanishing style order, |digitMoment p.1 m| * (momentBound style order).2 ≤ (momentBound style order).1 * (order : ℤ) ^ m * p.1.sum) ∧
      p.1.sum ≤ 2 * |digitMoment p.1 (vanishing style order)| := digits_moments_int style order p h

/-- The alternating moments of the filter. -/
theorem normal_moment (z : List ℤ) (k m : ℕ) :
    ∑ i ∈ range z.length, (-1) ^ i * (i : ℝ) ^ m * at0 ((z.map fun z : ℤ => (z : ℝ) / 10 ^ k).map (· / (z.map fun z : ℤ => (z : ℝ) / 10 ^ k).sum)) i = (digitMoment z m : ℝ) / z.sum := by
  have e : digitMoment z m = ∑ i ∈ range z.length, (-1) ^ i * (i : ℤ) ^ m * at0 z i := rfl
  simp only [at0_normal]
  rw [e]
  push_cast
  rw [sum_div]
  refine sum_congr rfl fun i _ => ?_
  rw [mul_div_assoc]

/-- The two bands of a line, in terms of the window which ends at the odd sample. -/
theorem wav_bands (style : WaveStyle) (order : ℕ) (p : List ℤ × ℕ) (hp : Wavelet.digits style order = some p) (w : Wavelet) (h : Wavelet.new (some style) order = .ok w) (x : List ℝ) (M : ℕ) (hM : 0 < M)
    (hx : x.length = 2 * M) : ∃ σ : ℝ, |σ| = 1 ∧ ∃ y, w.transform id (.vec x) 1 false = .ok (.vec y) ∧ y.length = x.length ∧ ∀ i < M, order ≤ 2 * i + 1 →
      at0 y i = ∑ k ∈ range p.1.length, at0 w.analysis.1 (order - k) * at0 x (2 * i + 1 - order + k) ∧
      at0 y (M + i) = σ * ∑ k ∈ range p.1.length, (-1) ^ k * at0 w.analysis.1 k * at0 x (2 * i + 1 - order + k) := by
  obtain ⟨p', hp', rfl⟩ := wav_new style order w h
  obtain rfl : p' = p := by rw [hp] at hp'; exact (Option.some.inj hp').symm
  obtain ⟨o1, o2, o3, o4⟩ := C48_orders_odd style order p' hp
  have hpl : p'.1.length = order + 1 := by omega
  set c := p'.1.map fun z : ℤ => (z : ℝ) / 10 ^ p'.2 with hc
  have hcl : c.length = order + 1 := by rw [hc, List.length_map]; omega
  obtain ⟨σ, f1, f2, f3, -, -, f6, -, -⟩ := wav.filters_spec c order hcl (by omega) (by
    intro h1 i j hi hj
    have e := o4 (by omega)
    have : ∀ i, i ≤ 1 → at0 c i = 10 / 10 ^ p'.2 := by
      intro i hi
      rw [hc, e]
      interval_cases i <;> simp [at0]
    rw [this i hi, this j hj])
  rw [← f2] at f6
  set w := wav.filters c with hw
  have n0 : w.analysis.1.length = order + 1 := by rw [f2]; simp [hcl]
  have n1 : w.analysis.1 ≠ [] := by intro h; rw [h] at n0; simp at n0
  have n2 : w.analysis.2 ≠ [] := by intro h; rw [h] at f3; simp at f3
  have a1 := wav.analyse_length w.analysis n1 n2 id x M hM hx
  refine ⟨σ, ?_, _, wav_forward_vec id w x M hM hx a1, a1, fun i hi hoi => ?_⟩
  · have : |σ| * |σ| = 1 := by rw [← abs_mul, f1, abs_one]
    nlinarith [abs_nonneg σ]
  have hz : ∀ k ≤ order, zext x (((2 * i + 1 : ℕ) : ℤ) - ((order - k : ℕ) : ℤ)) = at0 x (2 * i + 1 - order + k) := by
    intro k hk
    have e : ((2 * i + 1 : ℕ) : ℤ) - ((order - k : ℕ) : ℤ) = ((2 * i + 1 - order + k : ℕ) : ℤ) := by omega
    rw [e]
    rw [zext, if_pos (Int.natCast_nonneg _), Int.toNat_natCast]
  constructor
  · have h1 := (wav.analyse_low w.analysis n1 x M hM hx).2 i hi
    have e : at0 ((wav.analyse id w.analysis x).take M) i = at0 (wav.analyse id w.analysis x) i := by
      unfold at0
      rw [List.getD_eq_getElem?_getD, List.getD_eq_getElem?_getD, List.getElem?_take_of_lt hi]
    rw [e] at h1
    rw [h1, conv_zext, n0, hpl, ← sum_range_reflect]
    refine sum_congr rfl fun k hk => ?_
    have hk' : k ≤ order := by have := mem_range.mp hk; omega
    rw [show order + 1 - 1 - k = order - k by omega, hz k hk']
  · have h1 := (wav.analyse_high w.analysis n1 n2 x M hM hx).2 i hi
    have e : at0 ((wav.analyse id w.analysis x).drop M) i = at0 (wav.analyse id w.analysis x) (M + i) := by
      unfold at0
      rw [List.getD_eq_getElem?_getD, List.getD_eq_getElem?_getD, List.getElem?_drop]
    rw [e] at h1
    rw [h1, conv_zext, f3, hpl, ← sum_range_reflect, mul_sum]
    refine sum_congr rfl fun k hk => ?_
    have hk' : k ≤ order := by have := mem_range.mp hk; omega
    rw [show order + 1 - 1 - k = order - k by omega, hz k hk', f6 _ (by omega), show order - (order - k) = k by omega]
    have hs : (-1 : ℝ) ^ (order - k) = -(-1) ^ k := by
      by_cases hk2 : k % 2 = 1
      · rw [Odd.neg_one_pow (n := k) (Nat.odd_iff.mpr hk2), Even.neg_one_pow (n := order - k) (Nat.even_iff.mpr (by omega)), neg_neg]
      · rw [Even.neg_one_pow (n := k) (Nat.even_iff.mpr (by omega)), Odd.neg_one_pow (n := order - k) (Nat.odd_iff.mpr (by omega))]
    rw [hs]
    ring

theorem wav_sum_one (style : WaveStyle) (order : ℕ) (p : List ℤ × ℕ) (hp : Wavelet.digits style order = some p) (w : Wavelet) (h : Wavelet.new (some style) order = .ok w) :
    ∑ k ∈ range p.1.length, at0 w.analysis.1 (order - k) = 1 := by
  obtain ⟨p', hp', rfl⟩ := wav_new style order w h
  obtain rfl : p' = p := by rw [hp] at hp'; exact (Option.some.inj hp').symm
  obtain ⟨o1, o2, o3, o4⟩ := C48_orders_odd style order p' hp
  have hS : (p'.1.sum : ℝ) ≠ 0 := by exact_mod_cast (digits_moments style order p' hp).1.ne'
  rw [← sum_range_reflect]
  have e : ∀ k ∈ range p'.1.length, at0 (wav.filters (p'.1.map fun z : ℤ => (z : ℝ) / 10 ^ p'.2)).analysis.1 (order - (p'.1.length - 1 - k)) = ((at0 p'.1 k : ℤ) : ℝ) / p'.1.sum := by
    intro k hk
    have := mem_range.mp hk
    rw [show order - (p'.1.length - 1 - k) = k by omega, wav_low, at0_normal]
  rw [sum_congr rfl e, ← sum_div]
  have hsum : ∑ k ∈ range p'.1.length, at0 p'.1 k = p'.1.sum := by
    generalize p'.1 = l
    induction l with
    | nil => simp
    | cons a l ih =>
      rw [List.length_cons, sum_range_succ', List.sum_cons, ← ih, add_comm]
      rfl
  rw [← Int.cast_sum, hsum]
  exact div_self hS

/-- C95: the approximation of a signal which is constant on the window of the filter is that constant, exactly. -/
theorem C95_constant (style : WaveStyle) (order : ℕ) (w : Wavelet) (h : Wavelet.new (some style) order = .ok w) (x : List ℝ) (M : ℕ) (hM : 0 < M) (hx : x.length = 2 * M) :
    ∃ y, w.transform id (.vec x) 1 false = .ok (.vec y) ∧ y.length = x.length ∧ ∀ i < M, order ≤ 2 * i + 1 → ∀ c, (∀ k ≤ order, at0 x (2 * i + 1 - order + k) = c) → at0 y i = c := by
  obtain ⟨p, hp, -⟩ := wav_new style order w h
  obtain ⟨o1, o2, o3, o4⟩ := C48_orders_odd style order p hp
  obtain ⟨σ, -, y, h1, h2, h3⟩ := wav_bands style order p hp w h x M hM hx
  refine ⟨y, h1, h2, fun i hi hoi c hc => ?_⟩
  rw [(h3 i hi hoi).1, sum_congr rfl fun k hk => by rw [hc k (by have := mem_range.mp hk; omega)], ← sum_mul, wav_sum_one style order p hp w h, one_mul]

/-- A Daubechies filter of order 3 and four equal samples. -/
example : ∃ w y, Wavelet.new (some .daubechies) (3 : ℕ) = .ok w ∧ w.transform id (.vec [5, 5, 5, 5, 1, 0]) 1 false = .ok (.vec y) ∧ at0 y 1 = 5 := by
  obtain ⟨w, hw⟩ : ∃ w, Wavelet.new (some .daubechies) (3 : ℕ) = .ok w := ⟨_, rfl⟩
  obtain ⟨y, h1, -, h2⟩ := C95_constant .daubechies 3 w hw [5, 5, 5, 5, 1, 0] 3 (by norm_num) rfl
  refine ⟨w, y, hw, h1, h2 1 (by norm_num) (by norm_num) 5 fun k hk => ?_⟩
  interval_cases k <;> rfl

/-- C95: a signal which is on the window of the filter a polynomial of degree less than the number of vanishing moments has a detail coefficient of (nearly) zero. -/
theorem C95_polynomial (style : WaveStyle) (order : ℕ) (w : Wavelet) (h : Wavelet.new (some style) order = .ok w) (x : List ℝ) (M : ℕ) (hM : 0 < M) (hx : x.length = 2 * M) :
    ∃ y, w.transform id (.vec x) 1 false = .ok (.vec y) ∧ y.length = x.length ∧ ∀ i < M, order ≤ 2 * i + 1 → ∀ c : ℕ → ℝ,
      (∀ k ≤ order, at0 x (2 * i + 1 - order + k) = ∑ m ∈ range (vanishing style order), c m * (k : ℝ) ^ m) →
      (style = .haar → at0 y (M + i) = 0) ∧ |at0 y (M + i)| ≤ 3.2e-5 * ∑ m ∈ range (vanishing style order), |c m| * (order : ℝ) ^ m ∧
      (¬ Misprinted style order → |at0 y (M + i)| ≤ 2.9e-12 * ∑ m ∈ range (vanishing style order), |c m| * (order : ℝ) ^ m) ∧
      (style = .daubechies → order ≤ 5 → |at0 y (M + i)| ≤ 7.1e-17 * ∑ m ∈ range (vanishing style order), |c m| * (order : ℝ) ^ m) := by
  obtain ⟨p, hp, hw⟩ := wav_new style order w h
  obtain ⟨o1, o2, o3, o4⟩ := C48_orders_odd style order p hp
  obtain ⟨d1, d2, -⟩ := digits_moments style order p hp
  obtain ⟨σ, hσ, y, h1, h2, h3⟩ := wav_bands style order p hp w h x M hM hx
  refine ⟨y, h1, h2, fun i hi hoi c hc => ?_⟩
  have hS : (0 : ℝ) < p.1.sum := by exact_mod_cast d1
  have hB0 : (0 : ℝ) < (momentBound style order).2 := by
    have : 0 < (momentBound style order).2 := by unfold momentBound; split_ifs <;> norm_num
    exact_mod_cast this
  -- the detail as a combination of moments
  have hv : at0 y (M + i) = σ * ∑ m ∈ range (vanishing style order), c m * ((digitMoment p.1 m : ℝ) / p.1.sum) := by
    rw [(h3 i hi hoi).2]
    congr 1
    rw [sum_congr rfl fun k hk => by rw [hc k (by have := mem_range.mp hk; omega), mul_sum], sum_comm]
    refine sum_congr rfl fun m _ => ?_
    rw [← normal_moment p.1 p.2 m, ← wav_low, ← hw, mul_sum]
    refine sum_congr rfl fun k _ => ?_
    ring
  have hbound : |at0 y (M + i)| ≤ ((momentBound style order).1 / (momentBound style order).2 : ℝ) * ∑ m ∈ range (vanishing style order), |c m| * (order : ℝ) ^ m := by
    rw [hv, abs_mul, hσ, one_mul, mul_sum]
    refine (abs_sum_le_sum_abs _ _).trans (sum_le_sum fun m hm => ?_)
    rw [abs_mul, abs_div, abs_of_pos hS]
    have hd : |(digitMoment p.1 m : ℝ)| * (momentBound style order).2 ≤ (momentBound style order).1 * (order : ℝ) ^ m * p.1.sum := by exact_mod_cast d2 m (mem_range.mp hm)
    have : |(digitMoment p.1 m : ℝ)| / p.1.sum ≤ ((momentBound style order).1 / (momentBound style order).2 : ℝ) * (order : ℝ) ^ m := by
      rw [div_le_iff₀ hS, div_mul_eq_mul_div, div_mul_eq_mul_div, le_div_iff₀ hB0]
      exact hd
    calc |c m| * (|(digitMoment p.1 m : ℝ)| / p.1.sum) ≤ |c m| * (((momentBound style order).1 / (momentBound style order).2 : ℝ) * (order : ℝ) ^ m) := mul_le_mul_of_nonneg_left this (abs_nonneg _)
      _ = _ := by ring
  have hT : 0 ≤ ∑ m ∈ range (vanishing style order), |c m| * (order : ℝ) ^ m := sum_nonneg fun m _ => by positivity
  have use : ∀ B : ℝ, ((momentBound style order).1 / (momentBound style order).2 : ℝ) ≤ B → |at0 y (M + i)| ≤ B * ∑ m ∈ range (vanishing style order), |c m| * (order : ℝ) ^ m :=
    fun B hB => hbound.trans (mul_le_mul_of_nonneg_right hB hT)
  refine ⟨fun hs => ?_, use _ ?_, fun hm => use _ ?_, fun hs ho => use _ ?_⟩
  · have := use 0 (by simp [momentBound, hs])
    rw [zero_mul] at this
    exact abs_nonpos_iff.mp this
  · unfold momentBound; split_ifs <;> norm_num
  · unfold Misprinted at hm
    push Not at hm
    unfold momentBound
    split_ifs with a b c d e f
    · norm_num
    · exact absurd b.2 (hm.1 b.1)
    · exact absurd c.2 (hm.2 c.1).1
    · exact absurd d.2 (hm.2 d.1).2.1
    · exact absurd e.2 (hm.2 e.1).2.2
    · norm_num
    · norm_num
  · subst hs
    have : ¬ order = 7 ∧ ¬ order = 9 ∧ ¬ order = 11 := by omega
    simp only [momentBound, reduceCtorEq, if_false, false_and, true_and, this, ho, if_true]
    norm_num

/-- C95: the number of vanishing moments is right: the next power has a detail coefficient of at least one half. -/
theorem C95_next (style : WaveStyle) (order : ℕ) (w : Wavelet) (h : Wavelet.new (some style) order = .ok w) (x : List ℝ) (M : ℕ) (hM : 0 < M) (hx : x.length = 2 * M) :
    ∃ y, w.transform id (.vec x) 1 false = .ok (.vec y) ∧ y.length = x.length ∧ ∀ i < M, order ≤ 2 * i + 1 →
      (∀ k ≤ order, at0 x (2 * i + 1 - order + k) = (k : ℝ) ^ vanishing style order) → 1 / 2 ≤ |at0 y (M + i)| := by
  obtain ⟨p, hp, hw⟩ := wav_new style order w h
  obtain ⟨o1, o2, o3, o4⟩ := C48_orders_odd style order p hp
  obtain ⟨d1, -, d3⟩ := digits_moments style order p hp
  obtain ⟨σ, hσ, y, h1, h2, h3⟩ := wav_bands style order p hp w h x M hM hx
  refine ⟨y, h1, h2, fun i hi hoi hc => ?_⟩
  have hS : (0 : ℝ) < p.1.sum := by exact_mod_cast d1
  rw [(h3 i hi hoi).2, abs_mul, hσ, one_mul, sum_congr rfl fun k hk => by rw [hc k (by have := mem_range.mp hk; omega)]]
  have : ∑ k ∈ range p.1.length, (-1) ^ k * at0 w.analysis.1 k * (k : ℝ) ^ vanishing style order = (digitMoment p.1 (vanishing style order) : ℝ) / p.1.sum := by
    rw [← normal_moment p.1 p.2, ← wav_low, ← hw]
    refine sum_congr rfl fun k _ => ?_
    ring
  rw [this, abs_div, abs_of_pos hS, le_div_iff₀ hS]
  have : (p.1.sum : ℝ) ≤ 2 * |(digitMoment p.1 (vanishing style order) : ℝ)| := by exact_mod_cast d3
  linarith

/-- A Daubechies filter of order 3 and four squares. -/
example : ∃ w y, Wavelet.new (some .daubechies) (3 : ℕ) = .ok w ∧ w.transform id (.vec [0, 1, 4, 9, 1, 0]) 1 false = .ok (.vec y) ∧ 1 / 2 ≤ |at0 y 4| := by
  obtain ⟨w, hw⟩ : ∃ w, Wavelet.new (some .daubechies) (3 : ℕ) = .ok w := ⟨_, rfl⟩
  obtain ⟨y, h1, -, h2⟩ := C95_next .daubechies 3 w hw [0, 1, 4, 9, 1, 0] 3 (by norm_num) rfl
  refine ⟨w, y, hw, h1, h2 1 (by norm_num) (by norm_num) fun k hk => ?_⟩
  interval_cases k <;> norm_num [at0, vanishing]

/-- C95: four entries are misprinted.  The detail of a constant is larger than the accuracy of their digits by orders of magnitude; with one wrong digit replaced
(two for order 7) the three of Daubechies are as accurate as their 16 digits. -/
theorem C95_misprints : (∀ style order, Misprinted style order → ∃ p, Wavelet.digits style order = some p ∧ 5.6e-10 * p.1.sum < |((digitMoment p.1 0 : ℤ) : ℝ)|) ∧
    ∃ p7 p9 p11, Wavelet.digits .daubechies 7 = some (p7, 16) ∧ Wavelet.digits .daubechies 9 = some (p9, 16) ∧ Wavelet.digits .daubechies 11 = some (p11, 16) ∧
      (∀ m < 4, |digitMoment ((p7.set 1 7148465705529154).set 2 6308807679298587) m| ≤ 7 ^ m) ∧ (∀ m < 5, |digitMoment (p9.set 6 775714938400459) m| ≤ 9 ^ m) ∧
      (∀ m < 6, |digitMoment (p11.set 11 (-10773010853085)) m| ≤ 11 ^ m) := by
  constructor
  · rintro style order (⟨rfl, rfl⟩ | ⟨rfl, rfl | rfl | rfl⟩) <;> exact ⟨_, rfl, by norm_num [digitMoment, List.range_succ, at0]⟩
  · exact ⟨_, _, _, rfl, rfl, rfl, by decide +kernel, by decide +kernel, by decide +kernel⟩

/-- C95: the filter of Daubechies of order 3 is the one with the closed form `(1 ± √3) / 8`, `(3 ± √3) / 8`. -/
theorem C95_daubechies3 : ∃ w b0 b1 b2 b3, Wavelet.new (some .daubechies) 3 = .ok w ∧ w.analysis.1 = [b0, b1, b2, b3] ∧ |b0 - (1 + Real.sqrt 3) / 8| ≤ 1e-16 ∧ |b1 - (3 + Real.sqrt 3) / 8| ≤ 1e-16 ∧
    |b2 - (3 - Real.sqrt 3) / 8| ≤ 1e-16 ∧ |b3 - (1 - Real.sqrt 3) / 8| ≤ 1e-16 := by
  have hl : (1.73205080756887729 : ℝ) ≤ Real.sqrt 3 := Real.le_sqrt_of_sq_le (by norm_num)
  have hu : Real.sqrt 3 ≤ (1.7320508075688773 : ℝ) := by rw [Real.sqrt_le_left (by norm_num)]; norm_num
  refine ⟨_, _, _, _, _, rfl, by rw [wav_low]; rfl, ?_, ?_, ?_, ?_⟩ <;> rw [abs_le] <;> constructor <;> norm_num <;> linarith

/-- A ramp has no details for Daubechies of order 3. -/
example : ∃ w y, Wavelet.new (some .daubechies) (3 : ℕ) = .ok w ∧ w.transform id (.vec [0, 1, 2, 3, 4, 5, 6, 7]) 1 false = .ok (.vec y) ∧ |at0 y 5| ≤ 1e-15 := by
  obtain ⟨w, hw⟩ : ∃ w, Wavelet.new (some .daubechies) (3 : ℕ) = .ok w := ⟨_, rfl⟩
  obtain ⟨y, h1, -, h3⟩ := C95_polynomial .daubechies 3 w hw [0, 1, 2, 3, 4, 5, 6, 7] 4 (by norm_num) rfl
  refine ⟨w, y, hw, h1, ?_⟩
  have := (h3 1 (by norm_num) (by norm_num) (fun m => m) (by
    intro k hk
    interval_cases k <;> norm_num [at0, vanishing, sum_range_succ])).2.2.2 rfl (by norm_num)
  refine this.trans ?_
  norm_num [vanishing, sum_range_succ]

end Verif.Props
