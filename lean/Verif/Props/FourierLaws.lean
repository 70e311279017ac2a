import Verif.Props.SpectrumFilter

/-
Property C154: the laws of the Fourier transform which hold of FourierTransform.transform (diamondback/transforms/fourier_transform.py:57-100).
-/

namespace Verif.Props

open Complex Finset Spec

/-- `z[n]` is the sum of `c x[(n - i) mod N]`: circular convolution. -/
def IsCircular (c x z : List ℂ) : Prop :=
  z.length = x.length ∧ ∀ n < x.length, at0 z n = ∑ i ∈ range c.length, at0 c i * at0 x ((n + x.length - i) % x.length)

theorem turn_conj (t : ℝ) : (starRingEnd ℂ) (turn t) = turn (-(t : ℂ)) := by
  unfold turn
  rw [← Complex.exp_conj]
  congr 1
  have h2 : (starRingEnd ℂ) 2 = 2 := Complex.conj_ofNat 2
  simp [h2]

/-- C154.  Linear in the signal. -/
theorem C154_linear (x y z b : List ℂ) (c d : ℂ) (hy : y.length = x.length) (hz : z.length = x.length) (hzv : ∀ n, at0 z n = c * at0 x n + d * at0 y n)
    (hlen : b.length ≤ x.length) (hb : ∃ v ∈ b, 1e-8 < ‖v‖) :
    ∃ X Y Z f, fourier x b false = .ok (X, f) ∧ fourier y b false = .ok (Y, f) ∧ fourier z b false = .ok (Z, f) ∧
      X.length = b.length ∧ Y.length = b.length ∧ Z.length = b.length ∧ ∀ k < b.length, at0 Z k = c * at0 X k + d * at0 Y k := by
  have hb' : ¬ ∀ v ∈ b, isClose0 v := by
    obtain ⟨v, hv, hv1⟩ := hb
    exact fun h => absurd (h v hv) (not_le.mpr hv1)
  obtain ⟨X, f, x1, x2, x3, x4⟩ := fourier_forward x b hlen hb'
  obtain ⟨Y, f2, y1, y2, y3, y4⟩ := fourier_forward y b (by omega) hb'
  obtain ⟨Z, f3, z1, z2, z3, z4⟩ := fourier_forward z b (by omega) hb'
  have e2 : f2 = f := y3.trans x3.symm
  have e3 : f3 = f := z3.trans x3.symm
  subst e2 e3
  refine ⟨X, Y, Z, _, x1, y1, z1, x2, y2, z2, fun k hk => ?_⟩
  rw [x4 k hk, y4 k hk, z4 k hk, mul_div_assoc', mul_div_assoc', ← add_div, mul_sum, mul_sum, ← sum_add_distrib]
  congr 1
  apply sum_congr rfl
  intro n _
  rw [hzv]
  ring

example : ∃ v ∈ ([0, 1] : List ℂ), 1e-8 < ‖v‖ := ⟨1, by simp, by rw [norm_one]; norm_num⟩

/-- Elements of a real signal and window whose indices in the discrete Fourier transform add up to a multiple of the length. -/
theorem real_mirror (x b : List ℂ) (hlen : b.length ≤ x.length) (hb : ∃ v ∈ b, 1e-8 < ‖v‖) (hx : ∀ v ∈ x, v.im = 0) (hbr : ∀ v ∈ b, v.im = 0) :
    ∃ y f, fourier x b false = .ok (y, f) ∧ y.length = b.length ∧ f = linspace (-1) (1 - 2 / (b.length : ℝ)) b.length ∧ ∀ k k', k < b.length → k' < b.length →
      b.length ∣ (k + b.length / 2) + (k' + b.length / 2) → at0 y k' = (starRingEnd ℂ) (at0 y k) := by
  have hb' : ¬ ∀ v ∈ b, isClose0 v := by
    obtain ⟨v, hv, hv1⟩ := hb
    exact fun h => absurd (h v hv) (not_le.mpr hv1)
  obtain ⟨y, f, h1, h2, h3, h4⟩ := fourier_forward x b hlen hb'
  refine ⟨y, f, h1, h2, h3, fun k k' hk hk' hd => ?_⟩
  have hpos : 0 < b.length := by omega
  rw [h4 k hk, h4 k' hk', map_div₀, map_sum, Complex.conj_natCast]
  congr 1
  apply sum_congr rfl
  intro n hn
  have hn := mem_range.mp hn
  have e1 : (starRingEnd ℂ) (at0 b n) = at0 b n := by
    rw [at0_of_lt _ _ hn]
    exact Complex.conj_eq_iff_im.mpr (hbr _ (List.getElem_mem _))
  have e2 : (starRingEnd ℂ) (at0 x n) = at0 x n := by
    rw [at0_of_lt _ _ (by omega)]
    exact Complex.conj_eq_iff_im.mpr (hx _ (List.getElem_mem _))
  rw [map_mul, map_mul, e1, e2]
  congr 1
  rw [turn_mod _ _ _ hpos, turn_mod _ _ _ hpos]
  have hN : (b.length : ℂ) ≠ 0 := by exact_mod_cast hpos.ne'
  have hc : turn (-(((k + b.length / 2 : ℕ) : ℂ) * (n : ℂ) / (b.length : ℂ))) = turn ((-(((k + b.length / 2 : ℕ) : ℝ) * (n : ℝ) / (b.length : ℝ)) : ℝ) : ℂ) := by
    congr 1; push_cast; ring
  rw [hc, turn_conj]
  obtain ⟨q, hq⟩ := hd
  have hq' : ((k' + b.length / 2 : ℕ) : ℂ) = b.length * q - ((k + b.length / 2 : ℕ) : ℂ) := by
    rw [eq_sub_iff_add_eq, add_comm]
    exact_mod_cast hq
  rw [hq']
  have := turn_add_int (-((((-(((k + b.length / 2 : ℕ) : ℝ) * (n : ℝ) / (b.length : ℝ)) : ℝ)) : ℂ))) (-((q : ℤ) * (n : ℤ)))
  rw [← this]
  congr 1
  push_cast
  field_simp
  ring

/-- C154.  Of a real signal and window of even length the elements at opposite frequencies are conjugates; those at the frequencies -1 and 0 are real. -/
theorem C154_real_even (x b : List ℂ) (hlen : b.length ≤ x.length) (hb : ∃ v ∈ b, 1e-8 < ‖v‖) (hx : ∀ v ∈ x, v.im = 0) (hbr : ∀ v ∈ b, v.im = 0)
    (he : Even b.length) :
    ∃ y f, fourier x b false = .ok (y, f) ∧ y.length = b.length ∧ f.length = b.length ∧
      (∀ k, 0 < k → k < b.length → at0 f (b.length - k) = -at0 f k ∧ at0 y (b.length - k) = (starRingEnd ℂ) (at0 y k)) ∧
      at0 f 0 = -1 ∧ (at0 y 0).im = 0 ∧ at0 f (b.length / 2) = 0 ∧ (at0 y (b.length / 2)).im = 0 := by
  obtain ⟨y, f, h1, h2, h3, h4⟩ := real_mirror x b hlen hb hx hbr
  obtain ⟨h, hh⟩ := he
  have hpos : 0 < b.length := by
    obtain ⟨v, hv, -⟩ := hb
    exact List.length_pos_of_mem hv
  have hf : ∀ k < b.length, at0 f k = -1 + 2 * (k : ℝ) / b.length := by
    intro k hk
    have := linspace_axis b.length k (by omega) hk
    simp [at0, List.getD, h3, this]
  have hN : (b.length : ℝ) ≠ 0 := by exact_mod_cast hpos.ne'
  refine ⟨y, f, h1, h2, by rw [h3]; simp [linspace], fun k hk hk' => ⟨?_, h4 k (b.length - k) hk' (by omega) ?_⟩, ?_, ?_, ?_, ?_⟩
  · rw [hf k hk', hf _ (by omega), Nat.cast_sub hk'.le]
    field_simp
    ring
  · exact ⟨2, by omega⟩
  · rw [hf 0 hpos]; simp
  · exact Complex.conj_eq_iff_im.mp (h4 0 0 hpos hpos ⟨1, by omega⟩).symm
  · rw [hf _ (by omega)]
    have : ((b.length / 2 : ℕ) : ℝ) = b.length / 2 := by
      have e : b.length / 2 = h := by omega
      rw [e]
      have : (b.length : ℝ) = h + h := by exact_mod_cast hh
      rw [this]; ring
    rw [this]
    field_simp
    ring
  · exact Complex.conj_eq_iff_im.mp (h4 (b.length / 2) (b.length / 2) (by omega) (by omega) ⟨2, by omega⟩).symm

/-- Real samples, and a real window of two. -/
example := C154_real_even [1, -2, 5] [1, 1] (by simp) ⟨1, by simp, by rw [norm_one]; norm_num⟩ (by simp) (by simp) ⟨1, rfl⟩

/-- C154.  Of odd length the conjugates are not at opposite frequencies of the axis: the sum of their frequencies is `2 / N`, as the axis is ahead by `1 / N`. -/
theorem C154_real_odd (x b : List ℂ) (hlen : b.length ≤ x.length) (hb : ∃ v ∈ b, 1e-8 < ‖v‖) (hx : ∀ v ∈ x, v.im = 0) (hbr : ∀ v ∈ b, v.im = 0)
    (ho : Odd b.length) (h3 : 3 ≤ b.length) :
    ∃ y f, fourier x b false = .ok (y, f) ∧ y.length = b.length ∧ f.length = b.length ∧
      (∀ k, 2 ≤ k → k < b.length → at0 f (b.length + 1 - k) + at0 f k = 2 / b.length ∧ at0 y (b.length + 1 - k) = (starRingEnd ℂ) (at0 y k)) ∧
      at0 y 1 = (starRingEnd ℂ) (at0 y 0) ∧ (at0 y (b.length / 2 + 1)).im = 0 := by
  obtain ⟨y, f, h1, h2, hf3, h4⟩ := real_mirror x b hlen hb hx hbr
  obtain ⟨h, hh⟩ := ho
  have hf : ∀ k < b.length, at0 f k = -1 + 2 * (k : ℝ) / b.length := by
    intro k hk
    have := linspace_axis b.length k (by omega) hk
    simp [at0, List.getD, hf3, this]
  have hN : (b.length : ℝ) ≠ 0 := by exact_mod_cast (by omega : b.length ≠ 0)
  refine ⟨y, f, h1, h2, by rw [hf3]; simp [linspace], fun k hk hk' => ⟨?_, h4 k (b.length + 1 - k) hk' (by omega) ⟨2, by omega⟩⟩, ?_, ?_⟩
  · rw [hf k hk', hf _ (by omega), Nat.cast_sub (by omega)]
    push_cast
    field_simp
    ring
  · exact h4 0 1 (by omega) (by omega) ⟨1, by omega⟩
  · exact Complex.conj_eq_iff_im.mp (h4 (b.length / 2 + 1) (b.length / 2 + 1) (by omega) (by omega) ⟨2, by omega⟩).symm

/-- Real samples with a complex type. -/
example : ∀ v ∈ ([1, -2, 5] : List ℂ), v.im = 0 := by simp

/-- C154.  The spectrum of a circular convolution is the product of the spectra times the length. -/
theorem C154_convolve (c x z : List ℂ) (hx : 2 ≤ x.length) (hc : c.length = x.length) (hz : IsCircular c x z) :
    ∃ C X Z f, fourier c (List.replicate x.length 1) false = .ok (C, f) ∧ fourier x (List.replicate x.length 1) false = .ok (X, f) ∧
      fourier z (List.replicate x.length 1) false = .ok (Z, f) ∧ C.length = x.length ∧ X.length = x.length ∧ Z.length = x.length ∧
      ∀ k < x.length, at0 Z k = x.length * (at0 C k * at0 X k) := by
  obtain ⟨e, he⟩ := period_parity x.length
  obtain ⟨C, f1, c1, c2, c3, c4⟩ := fourier_period c (by omega) e (by rwa [hc])
  obtain ⟨X, f, x1, x2, x3, x4⟩ := fourier_period x hx e he
  obtain ⟨Z, f2, z1, z2, z3, z4⟩ := fourier_period z (by have := hz.1; omega) e (by rwa [hz.1])
  rw [hc] at c1 c2 c3 c4
  rw [hz.1] at z1 z2 z3 z4
  have e1 : f1 = f := c3.trans x3.symm
  have e2 : f2 = f := z3.trans x3.symm
  subst e1 e2
  refine ⟨C, X, Z, _, c1, x1, z1, c2, x2, z2, fun k hk => ?_⟩
  rw [(c4 k hk).2, (x4 k hk).2, (z4 k hk).2]
  have hw := turn_period x.length k (by omega) e he
  generalize Complex.exp (-(Complex.I * Real.pi * ((axis x.length k - e : ℝ) : ℂ))) = w at hw ⊢
  have hN : (x.length : ℂ) ≠ 0 := by exact_mod_cast (by omega : x.length ≠ 0)
  have key : ∑ n ∈ range x.length, at0 z n * w ^ n = (∑ n ∈ range x.length, at0 c n * w ^ n) * ∑ n ∈ range x.length, at0 x n * w ^ n := by
    rw [sum_mul]
    calc ∑ n ∈ range x.length, at0 z n * w ^ n
        = ∑ n ∈ range x.length, ∑ i ∈ range x.length, at0 c i * (at0 x ((1 * x.length + n - i) % x.length) * w ^ n) := by
          apply sum_congr rfl
          intro n hn
          rw [hz.2 n (mem_range.mp hn), sum_mul, hc]
          apply sum_congr rfl
          intro i _
          rw [show n + x.length - i = 1 * x.length + n - i by omega]
          ring
      _ = ∑ i ∈ range x.length, ∑ n ∈ range x.length, at0 c i * (at0 x ((1 * x.length + n - i) % x.length) * w ^ n) := sum_comm
      _ = _ := by
          apply sum_congr rfl
          intro i hi
          have hi := mem_range.mp hi
          rw [← mul_sum, block_shift x.length (fun n => at0 x (n % x.length)) (fun n => by simp) w hw 1 i (by omega), mul_assoc]
          congr 2
          exact sum_congr rfl fun n hn => by rw [Nat.mod_eq_of_lt (mem_range.mp hn)]
  rw [key]
  field_simp

example := C154_convolve [1, 2] [3, 4] [11, 10] (by simp) rfl (by
  refine ⟨rfl, fun k hk => ?_⟩
  simp at hk
  interval_cases k <;> norm_num [sum_range_succ, at0])

/-- C154.  For even lengths the inverse transform of that product is the circular convolution. -/
theorem C154_fast (c x z : List ℂ) (hx : 2 ≤ x.length) (he : Even x.length) (hc : c.length = x.length) (hz : IsCircular c x z) :
    ∃ C X f g, fourier c (List.replicate x.length 1) false = .ok (C, f) ∧ fourier x (List.replicate x.length 1) false = .ok (X, f) ∧
      fourier (List.zipWith (fun u v : ℂ => x.length * (u * v)) C X) (List.replicate x.length 1) true = .ok (z, g) := by
  obtain ⟨C, X, Z, f, h1, h2, h3, l1, l2, l3, h4⟩ := C154_convolve c x z hx hc hz
  have hr : List.replicate x.length (1 : ℂ) ≠ [] := by
    intro h
    have := congrArg List.length h
    simp at this
    rw [this] at hx
    simp at hx
  have hends : 1e-8 < ‖at0 (List.replicate x.length (1 : ℂ)) 0‖ ∧ 1e-8 < ‖at0 (List.replicate x.length (1 : ℂ)) ((List.replicate x.length (1 : ℂ)).length - 1)‖ := by
    rw [List.length_replicate, at0_of_lt _ _ (by simp; omega), at0_of_lt _ _ (by simp; omega)]
    simp only [List.getElem_replicate, norm_one]
    constructor <;> norm_num
  obtain ⟨y, f', g, r1, r2⟩ := C40_fourier_roundtrip_even z (List.replicate x.length 1) (by simp [hz.1]) (by simpa using he) hr hends (by
    intro v hv
    rw [(List.mem_replicate.mp hv).2]
    exact one_ne_zero)
  rw [h3] at r1; cases r1
  have hZ : List.zipWith (fun u v : ℂ => x.length * (u * v)) C X = Z := by
    apply List.ext_getElem
    · simp; omega
    · intro k hk hk'
      have := h4 k (by omega)
      rw [at0_of_lt _ _ hk', at0_of_lt _ _ (by omega), at0_of_lt _ _ (by omega)] at this
      rw [this]
      simp
  refine ⟨C, X, _, g, h1, h2, ?_⟩
  rw [hZ, r2, List.length_replicate, List.take_of_length_le (by rw [hz.1])]

/-- The hypotheses of `C154_convolve` hold for two samples: the product of the spectra of [1, 2] and [3, 4] is that of [11, 10]. -/
example : IsCircular [1, 2] [3, 4] [11, 10] ∧ Even ([3, 4] : List ℂ).length := by
  refine ⟨⟨rfl, fun n hn => ?_⟩, by simp⟩
  have hn : n < 2 := hn
  interval_cases n <;> simp [sum_range_succ, at0] <;> norm_num

/-- C154.  A circular delay by `s` samples multiplies the element at the frequency `f` of the axis by `exp(-jπ(f - e)s)`, where `e` is zero for even lengths and `1 / N`
for odd ones, by which the axis is ahead. -/
theorem C154_shift (x : List ℂ) (s : ℕ) (hx : 2 ≤ x.length) (hs : s ≤ x.length) (e : ℝ)
    (he : Even (x.length : ℤ) ∧ e = 0 ∨ Odd (x.length : ℤ) ∧ e = 1 / ((x.length : ℤ) : ℝ)) :
    ∃ X Z f, fourier x (List.replicate x.length 1) false = .ok (X, f) ∧
      fourier (x.drop (x.length - s) ++ x.take (x.length - s)) (List.replicate x.length 1) false = .ok (Z, f) ∧ X.length = x.length ∧ Z.length = x.length ∧ f.length = x.length ∧
      ∀ k < x.length, at0 Z k = Complex.exp (-(Complex.I * Real.pi * ((at0 f k - e : ℝ) : ℂ) * s)) * at0 X k := by
  set z := x.drop (x.length - s) ++ x.take (x.length - s) with hzdef
  have hzl : z.length = x.length := by rw [hzdef]; simp
  obtain ⟨X, f, x1, x2, x3, x4⟩ := fourier_period x hx e he
  obtain ⟨Z, f2, z1, z2, z3, z4⟩ := fourier_period z (by omega) e (by rwa [hzl])
  rw [hzl] at z1 z2 z3 z4
  have e2 : f2 = f := z3.trans x3.symm
  subst e2
  refine ⟨X, Z, f2, x1, z1, x2, z2, by rw [x3]; simp [linspace], fun k hk => ?_⟩
  rw [(x4 k hk).2, (z4 k hk).2]
  have hw := turn_period x.length k (by omega) e he
  have hfk : at0 f2 k = axis x.length k := by simp [at0, List.getD, (x4 k hk).1]
  have hpow : Complex.exp (-(Complex.I * Real.pi * ((at0 f2 k - e : ℝ) : ℂ) * s)) = Complex.exp (-(Complex.I * Real.pi * ((axis x.length k - e : ℝ) : ℂ))) ^ s := by
    rw [← Complex.exp_nat_mul, hfk]
    congr 1
    push_cast
    ring
  rw [hpow, mul_div_assoc']
  generalize Complex.exp (-(Complex.I * Real.pi * ((axis x.length k - e : ℝ) : ℂ))) = w at hw ⊢
  congr 1
  have key := block_shift x.length (fun n => at0 x (n % x.length)) (fun n => by simp) w hw 1 s (by omega)
  have e1 : ∑ n ∈ range x.length, at0 x n * w ^ n = ∑ n ∈ range x.length, at0 x (n % x.length) * w ^ n :=
    sum_congr rfl fun n hn => by rw [Nat.mod_eq_of_lt (mem_range.mp hn)]
  rw [e1, ← key]
  apply sum_congr rfl
  intro n hn
  have hn := mem_range.mp hn
  congr 1
  rw [hzdef]
  unfold at0
  by_cases h : n < s
  · rw [List.getD_eq_getElem?_getD, List.getElem?_append_left (by simp; omega), List.getElem?_drop, List.getD_eq_getElem?_getD,
      Nat.mod_eq_of_lt (by omega), show x.length - s + n = 1 * x.length + n - s by omega]
  · rw [List.getD_eq_getElem?_getD, List.getElem?_append_right (by simp; omega), List.length_drop, List.getElem?_take, if_pos (by omega), List.getD_eq_getElem?_getD,
      show n - (x.length - (x.length - s)) = n - s by omega, show 1 * x.length + n - s = x.length + (n - s) by omega, Nat.add_mod_left, Nat.mod_eq_of_lt (by omega)]

example : Odd ((([1, 2, 3] : List ℂ).length : ℕ) : ℤ) ∧ (1 / 3 : ℝ) = 1 / (((([1, 2, 3] : List ℂ).length : ℕ) : ℤ) : ℝ) := ⟨⟨1, rfl⟩, by simp⟩

/-- C154.  Multiplication by the exponential of `m` turns over the length moves the spectrum by `m` places, round the ends. -/
theorem C154_modulate (x z b : List ℂ) (m : ℕ) (hlen : b.length ≤ x.length) (hz : z.length = x.length)
    (hzv : ∀ n < b.length, at0 z n = Complex.exp (2 * Real.pi * Complex.I * (m * n / b.length)) * at0 x n) (hb : ∃ v ∈ b, 1e-8 < ‖v‖) :
    ∃ X Z f, fourier x b false = .ok (X, f) ∧ fourier z b false = .ok (Z, f) ∧ X.length = b.length ∧ Z.length = b.length ∧
      ∀ k < b.length, at0 Z ((k + m) % b.length) = at0 X k := by
  have hb' : ¬ ∀ v ∈ b, isClose0 v := by
    obtain ⟨v, hv, hv1⟩ := hb
    exact fun h => absurd (h v hv) (not_le.mpr hv1)
  obtain ⟨X, f, x1, x2, x3, x4⟩ := fourier_forward x b hlen hb'
  obtain ⟨Z, f3, z1, z2, z3, z4⟩ := fourier_forward z b (by omega) hb'
  have e3 : f3 = f := z3.trans x3.symm
  subst e3
  refine ⟨X, Z, f3, x1, z1, x2, z2, fun k hk => ?_⟩
  have hpos : 0 < b.length := by omega
  have hN : (b.length : ℂ) ≠ 0 := by exact_mod_cast hpos.ne'
  rw [x4 k hk, z4 _ (Nat.mod_lt _ hpos)]
  congr 1
  apply sum_congr rfl
  intro n hn
  rw [hzv n (mem_range.mp hn), Nat.mod_add_mod, turn_mod _ _ _ hpos, turn_mod _ _ _ hpos]
  have : Complex.exp (2 * Real.pi * Complex.I * (m * n / b.length)) * turn (-(((k + m + b.length / 2 : ℕ) : ℂ) * (n : ℂ) / (b.length : ℂ)))
      = turn (-(((k + b.length / 2 : ℕ) : ℂ) * (n : ℂ) / (b.length : ℂ))) := by
    unfold turn
    rw [← Complex.exp_add]
    congr 1
    push_cast
    ring
  rw [← this]
  ring

/-- Four samples moved by one place: the factors are 1, j, -1, -j. -/
example : ∀ n < 4, at0 [1, 2 * Complex.I, -3, -4 * Complex.I] n = Complex.exp (2 * Real.pi * Complex.I * ((1 : ℕ) * n / (4 : ℕ))) * at0 [1, 2, 3, 4] n := by
  intro n hn
  have h : Complex.exp (2 * Real.pi * Complex.I * (1 / 4)) = Complex.I := by
    rw [show (2 * Real.pi * Complex.I * (1 / 4) : ℂ) = Real.pi / 2 * Complex.I by ring, Complex.exp_pi_div_two_mul_I]
  have hp : Complex.exp (2 * Real.pi * Complex.I * ((1 : ℕ) * n / (4 : ℕ))) = Complex.I ^ n := by
    rw [show (2 * Real.pi * Complex.I * ((1 : ℕ) * n / (4 : ℕ)) : ℂ) = n * (2 * Real.pi * Complex.I * (1 / 4)) by push_cast; ring, Complex.exp_nat_mul, h]
  rw [hp]
  interval_cases n
  · simp [at0]
  · simp [at0]; ring
  · simp [at0]
  · simp [at0, pow_succ]; ring

end Verif.Props
