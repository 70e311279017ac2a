import Verif.Lemmas.Dft
import Verif.Spec.Spectrum
import Verif.Props.Adaptive
import Mathlib.Algebra.BigOperators.Field
import Mathlib.Tactic.NormNum

/-
Properties C40–C41 of FourierTransform (diamondback/transforms/fourier_transform.py).
-/

namespace Verif.Props

open Complex Finset Spec

theorem at0_zipWith_mul (b u : List ℂ) (n : ℕ) (h : b.length = u.length) : 
    at0 (List.zipWith (· * ·) b u) n = at0 b n * at0 u n := by
  by_cases hn : n < b.length
  · rw [at0_of_lt _ _ (by simp; omega), at0_of_lt _ _ hn, at0_of_lt _ _ (by omega)]; simp
  · rw [at0_of_le _ _ (by simp; omega), at0_of_le b _ (by omega), zero_mul]

theorem at0_take (x : List ℂ) (N n : ℕ) (hn : n < N) : at0 (x.take N) n = at0 x n := by
  simp [at0, List.getD, hn]

theorem at0_map_div (y : List ℂ) (c : ℂ) (k : ℕ) : at0 (y.map (· / c)) k = at0 y k / c := by
  simp only [at0, List.getD, List.getElem?_map]
  cases y[k]? <;> simp

/-- Forward transform of accepted arguments, in terms of list operations. -/
theorem fourier_forward (x b : List ℂ) (hlen : b.length ≤ x.length) (hb : ¬ ∀ v ∈ b, isClose0 v) :
    ∃ y f, fourier x b false = .ok (y, f) ∧ y.length = b.length ∧ f = linspace (-1) (1 - 2 / (b.length : ℝ)) b.length ∧
      ∀ k, k < b.length → at0 y k = 
        (∑ n ∈ range b.length, at0 b n * at0 x n *
          turn (-((((k + b.length / 2) % b.length : ℕ) : ℂ) * (n : ℂ) / (b.length : ℂ)))) / (b.length : ℂ) := by
  have hb0 : b ≠ [] := by rintro rfl; simp at hb
  have hpos : 0 < b.length := List.length_pos_iff.mpr hb0
  have hx : ¬ x.length = 0 := by omega
  have hc : ¬ (b.length > x.length ∨ ∀ v ∈ b, isClose0 v) := by
    rintro (h | h)
    · omega
    · exact hb h
  have hu : (x.take b.length).length = b.length := by simp [hlen]
  have hz : (List.zipWith (· * ·) b (x.take b.length)).length = b.length := by simp [hlen]
  refine ⟨_, _, by simp only [fourier, hx, hc, if_false]; rfl, ?_, by rw [hu], fun k hk => ?_⟩
  · rw [halfRotate_length, List.length_map, fft_length, hz]
  · have hl : ((fft (List.zipWith (· * ·) b (x.take b.length))).map (· / ((x.take b.length).length : ℂ))).length = b.length := by
      rw [List.length_map, fft_length, hz]
    rw [at0_halfRotate _ k (by rw [hl]; exact hk), hl, at0_map_div, hu,
      at0_fft _ _ (by rw [hz]; exact Nat.mod_lt _ hpos), hz]
    congr 1
    apply sum_congr rfl
    intro n hn
    rw [at0_zipWith_mul _ _ _ hu.symm, at0_take _ _ _ (mem_range.mp hn)]

theorem turn_mod (a N n : ℕ) (hN : 0 < N) :
    turn (-(((a % N : ℕ) : ℂ) * (n : ℂ) / (N : ℂ))) = turn (-((a : ℂ) * (n : ℂ) / (N : ℂ))) := by
  have hN' : (N : ℂ) ≠ 0 := by exact_mod_cast hN.ne'
  have h : (a : ℂ) = ((a % N : ℕ) : ℂ) + (N : ℂ) * ((a / N : ℕ) : ℂ) := by
    exact_mod_cast (Nat.mod_add_div a N).symm
  generalize a / N = q at h
  have := turn_add_int (-((a : ℂ) * (n : ℂ) / (N : ℂ))) ((q : ℤ) * (n : ℤ))
  rw [← this]
  congr 1
  rw [h]
  push_cast
  field_simp
  ring

theorem turn_mod_pos (a N n : ℕ) (hN : 0 < N) :
    turn ((((a % N : ℕ) : ℂ) * (n : ℂ) / (N : ℂ))) = turn (((a : ℂ) * (n : ℂ) / (N : ℂ))) := by
  have hN' : (N : ℂ) ≠ 0 := by exact_mod_cast hN.ne'
  have h : (a : ℂ) = ((a % N : ℕ) : ℂ) + (N : ℂ) * ((a / N : ℕ) : ℂ) := by
    exact_mod_cast (Nat.mod_add_div a N).symm
  generalize a / N = q at h
  have := turn_add_int ((((a % N : ℕ) : ℂ) * (n : ℂ) / (N : ℂ))) ((q : ℤ) * (n : ℤ))
  rw [← this]
  congr 1
  rw [h]
  push_cast
  field_simp

theorem turn_phasor (t : ℝ) : turn ((t : ℂ) / 2) = phasor t := by
  unfold turn phasor; congr 1; ring

/-- The frequency axis is `-1 + 2k/N`. -/
theorem linspace_axis (N k : ℕ) (hN : 2 ≤ N) (hk : k < N) :
    (linspace (-1) (1 - 2 / (N : ℝ)) N)[k]? = some (-1 + 2 * (k : ℝ) / N) := by
  have h1 : (N : ℝ) ≠ 0 := by exact_mod_cast (by omega : N ≠ 0)
  have h2 : (N : ℝ) - 1 ≠ 0 := by
    have : (2 : ℝ) ≤ N := by exact_mod_cast hN
    linarith
  simp only [linspace, List.getElem?_map, List.getElem?_range hk, Option.map_some]
  congr 1
  field_simp
  ring

/-- C41.  Even length: the `k`-th value is the normalised spectrum of the windowed signal at the `k`-th returned frequency
`-1 + 2k/N`. -/
theorem C41_fourier_axis_even (x b : List ℂ) (hlen : b.length ≤ x.length) (hb : ∃ v ∈ b, 1e-8 < ‖v‖) (heven : Even b.length) :
    ∃ y f, fourier x b false = .ok (y, f) ∧ y.length = b.length ∧ f.length = b.length ∧
      ∀ k, k < b.length → ∃ fk, f[k]? = some fk ∧ fk = -1 + 2 * (k : ℝ) / (b.length : ℝ) ∧
        y[k]? = some (spectrumAt b.length (at0 b) (at0 x) fk) := by
  obtain ⟨v, hv, hv1⟩ := hb
  have hb' : ¬ ∀ v ∈ b, isClose0 v := fun h => absurd (h v hv) (not_le.mpr hv1)
  have hpos : 0 < b.length := List.length_pos_of_mem hv
  obtain ⟨y, f, h1, h2, h3, h4⟩ := fourier_forward x b hlen hb'
  obtain ⟨h, hh⟩ := heven
  refine ⟨y, f, h1, h2, by rw [h3]; simp [linspace], fun k hk => ⟨_, ?_, rfl, ?_⟩⟩
  · rw [h3, linspace_axis _ k (by omega) hk]
  · rw [List.getElem?_eq_getElem (by omega), ← at0_of_lt _ _ (by omega), h4 k hk]
    congr 2
    apply sum_congr rfl
    intro n _
    rw [turn_mod _ _ _ hpos, ← turn_phasor]
    congr 1
    have hN : (b.length : ℂ) ≠ 0 := by exact_mod_cast hpos.ne'
    have := turn_add_int (-(((k + b.length / 2 : ℕ) : ℂ) * (n : ℂ) / (b.length : ℂ))) (n : ℤ)
    rw [← this]
    congr 1
    have hd : b.length / 2 = h := by omega
    rw [hd]
    have hh' : (b.length : ℂ) = h + h := by exact_mod_cast hh
    push_cast
    field_simp
    rw [hh']; ring

/-- A window of two samples and three samples of a signal. -/
example := C41_fourier_axis_even [1, 2, 3] [1, 1] (by simp) ⟨1, by simp, by rw [norm_one]; norm_num⟩ ⟨1, rfl⟩

/-- C41.  Every accepted length: the values obey Parseval's identity. -/
theorem C41_fourier_parseval (x b : List ℂ) (hlen : b.length ≤ x.length) (hb : ∃ v ∈ b, 1e-8 < ‖v‖) :
    ∃ y f, fourier x b false = .ok (y, f) ∧
      ∑ k ∈ range b.length, ‖at0 y k‖ ^ 2 = (∑ n ∈ range b.length, ‖at0 b n * at0 x n‖ ^ 2) / b.length := by
  obtain ⟨v, hv, hv1⟩ := hb
  have hb' : ¬ ∀ v ∈ b, isClose0 v := fun h => absurd (h v hv) (not_le.mpr hv1)
  have hpos : 0 < b.length := List.length_pos_of_mem hv
  obtain ⟨y, f, h1, h2, h3, h4⟩ := fourier_forward x b hlen hb'
  refine ⟨y, f, h1, ?_⟩
  have hp := dft_parseval b.length (fun n => at0 b n * at0 x n)
  have hN : (b.length : ℝ) ≠ 0 := by exact_mod_cast hpos.ne'
  have hperm : ∑ k ∈ range b.length, ‖at0 y k‖ ^ 2 = ∑ k ∈ range b.length,
      ‖∑ m ∈ range b.length, at0 b m * at0 x m * turn (-((k : ℂ) * (m : ℂ) / (b.length : ℂ)))‖ ^ 2 / (b.length : ℝ) ^ 2 := by
    apply sum_bij (fun k _ => (k + b.length / 2) % b.length)
    · intro k _; exact mem_range.mpr (Nat.mod_lt _ hpos)
    · intro k hk k' hk' he
      have := Nat.ModEq.add_right_cancel' (b.length / 2) (he : k + b.length / 2 ≡ k' + b.length / 2 [MOD b.length])
      exact Nat.ModEq.eq_of_lt_of_lt this (mem_range.mp hk) (mem_range.mp hk')
    · intro k hk
      have hk' := mem_range.mp hk
      refine ⟨(k + (b.length - b.length / 2)) % b.length, mem_range.mpr (Nat.mod_lt _ hpos), ?_⟩
      rw [Nat.mod_add_mod, show k + (b.length - b.length / 2) + b.length / 2 = k + b.length by omega, Nat.add_mod_right,
        Nat.mod_eq_of_lt hk']
    · intro k hk
      rw [h4 k (mem_range.mp hk), norm_div, div_pow, Complex.norm_natCast]
  rw [hperm, ← Finset.sum_div, hp]
  field_simp

/-- A window of three samples, one of them null. -/
example := C41_fourier_parseval [1, 2, 3] [0, 1, 1] (by simp) ⟨1, by simp, by rw [norm_one]; norm_num⟩

/-- C41.  Odd length (three or more): the value `k` is the spectrum at the returned frequency minus `1/N`, i.e. the returned axis
is off by half a bin (recorded in DESIGN.md). -/
theorem C41_fourier_axis_odd (x b : List ℂ) (hlen : b.length ≤ x.length) (hb : ∃ v ∈ b, 1e-8 < ‖v‖) (hodd : Odd b.length)
    (h3 : 3 ≤ b.length) :
    ∃ y f, fourier x b false = .ok (y, f) ∧ 
      ∀ k, k < b.length → ∃ fk, f[k]? = some fk ∧
        y[k]? = some (spectrumAt b.length (at0 b) (at0 x) (fk - 1 / (b.length : ℝ))) := by
  obtain ⟨v, hv, hv1⟩ := hb
  have hb' : ¬ ∀ v ∈ b, isClose0 v := fun h => absurd (h v hv) (not_le.mpr hv1)
  have hpos : 0 < b.length := List.length_pos_of_mem hv
  obtain ⟨y, f, h1, h2, h3', h4⟩ := fourier_forward x b hlen hb'
  obtain ⟨h, hh⟩ := hodd
  refine ⟨y, f, h1, fun k hk => ⟨-1 + 2 * (k : ℝ) / (b.length : ℝ), ?_, ?_⟩⟩
  · rw [h3', linspace_axis _ k (by omega) hk]
  · rw [List.getElem?_eq_getElem (by omega), ← at0_of_lt _ _ (by omega), h4 k hk]
    congr 2
    apply sum_congr rfl
    intro n _
    rw [turn_mod _ _ _ hpos, ← turn_phasor]
    congr 1
    have hN : (b.length : ℂ) ≠ 0 := by exact_mod_cast hpos.ne'
    have := turn_add_int (-(((k + b.length / 2 : ℕ) : ℂ) * (n : ℂ) / (b.length : ℂ))) (n : ℤ)
    rw [← this]
    congr 1
    have hd : b.length / 2 = h := by omega
    rw [hd]
    have hh' : (b.length : ℂ) = 2 * h + 1 := by exact_mod_cast hh
    push_cast
    field_simp
    rw [hh']; ring

/-- The hypotheses hold for a Hann-like window with zero ends. -/
example : ∃ v ∈ ([0, 1, 1, 0] : List ℂ), (1e-8 : ℝ) < ‖v‖ := ⟨1, by simp, by rw [norm_one]; norm_num⟩

/-- C41, odd length, concrete disagreement: length 3, the tone at the returned frequency `1/3` does not give a unit value
there. -/
theorem C41_odd_axis_witness : ∃ x y f, fourier x [1, 1, 1] false = .ok (y, f) ∧ f[2]? = some (1/3) ∧
    y[2]? ≠ some (spectrumAt 3 (at0 [1, 1, 1]) (at0 x) (1/3)) := by
  refine ⟨[0, 1, 0], ?_⟩
  obtain ⟨y, f, h1, h2⟩ := C41_fourier_axis_odd [0, 1, 0] [1, 1, 1] (by simp) ⟨1, by simp, by rw [norm_one]; norm_num⟩ ⟨1, by simp⟩ (by simp)
  obtain ⟨fk, g1, g2⟩ := h2 2 (by simp)
  have hfk : fk = 1/3 := by
    obtain ⟨y', f', e1, _, e3, _⟩ := fourier_forward [0, 1, 0] [1, 1, 1] (by simp) (by simp [isClose0]; norm_num)
    rw [h1] at e1
    simp only [Except.ok.injEq, Prod.mk.injEq] at e1
    rw [e1.2, e3] at g1
    have := linspace_axis 3 2 (by norm_num) (by norm_num)
    simp only [List.length_cons, List.length_nil] at g1
    norm_num at g1 this
    rw [this] at g1
    exact (Option.some.inj g1).symm
  refine ⟨y, f, h1, by rw [g1, hfk], ?_⟩
  rw [g2, hfk]
  simp only [spectrumAt, List.length_cons, List.length_nil, sum_range_succ, range_zero, sum_empty, at0, ne_eq, Option.some.injEq]
  simp
  intro h
  have := congrArg (fun z => z.arg / Real.pi) h
  simp only [phasor_arg 0 (by norm_num) (by norm_num), phasor_arg (-3⁻¹) (by norm_num) (by norm_num)] at this
  norm_num at this

/-! ### Round trip (C40) -/

theorem sum_rotate (N c : ℕ) (hN : 0 < N) (G : ℕ → ℂ) : ∑ k ∈ range N, G ((k + c) % N) = ∑ k ∈ range N, G k := by
  apply sum_bij (fun k _ => (k + c) % N)
  · intro k _; exact mem_range.mpr (Nat.mod_lt _ hN)
  · intro k hk k' hk' he
    have := Nat.ModEq.add_right_cancel' c (he : k + c ≡ k' + c [MOD N])
    exact Nat.ModEq.eq_of_lt_of_lt this (mem_range.mp hk) (mem_range.mp hk')
  · intro k hk
    have hk' := mem_range.mp hk
    refine ⟨(k + (N - c % N)) % N, mem_range.mpr (Nat.mod_lt _ hN), ?_⟩
    have hc := Nat.mod_lt c hN
    have : k + (N - c % N) + c = k + N * (c / N + 1) := by
      have := Nat.mod_add_div c N
      rw [Nat.mul_add, mul_one]; omega
    rw [Nat.mod_add_mod, this, Nat.add_mul_mod_self_left, Nat.mod_eq_of_lt hk']
  · intro k _; rfl

open scoped Classical in
/-- Inverse transform of accepted arguments of equal length. -/
theorem fourier_inverse (y b v : List ℂ) (hlen : y.length = b.length) (hb : ¬ ∀ v ∈ b, isClose0 v)
    (hv : ((isClose0 (at0 b 0) ∨ isClose0 (at0 b (b.length - 1))) → patchEnds b = .ok v) ∧
      (¬ (isClose0 (at0 b 0) ∨ isClose0 (at0 b (b.length - 1))) → v = b)) (hvl : v.length = b.length) :
    ∃ z f, fourier y b true = .ok (z, f) ∧ z.length = b.length ∧ f = linspace 0 ((b.length : ℝ) - 1) b.length ∧
      ∀ n, n < b.length → at0 z n =
        (∑ k ∈ range b.length, at0 y ((k + b.length / 2) % b.length) * turn ((k : ℂ) * (n : ℂ) / (b.length : ℂ))) / at0 v n := by
  have hb0 : b ≠ [] := by rintro rfl; simp at hb
  have hpos : 0 < b.length := List.length_pos_iff.mpr hb0
  have hy : ¬ y.length = 0 := by omega
  have hc : ¬ (b.length > y.length ∨ ∀ v ∈ b, isClose0 v) := by
    rintro (h | h)
    · omega
    · exact hb h
  have hp : (if isClose0 (at0 b 0) ∨ isClose0 (at0 b (b.length - 1)) then patchEnds b else (.ok b : Res (List ℂ))) = .ok v := by
    split
    · rename_i h; exact hv.1 h
    · rename_i h; rw [hv.2 h]
  have hu : y.take b.length = y := by rw [← hlen]; exact List.take_length
  refine ⟨_, _, by simp only [fourier, hy, hc, if_false, if_true, hu, hp]; rfl, ?_, ?_, fun n hn => ?_⟩
  · simp [ifft_length, halfRotate_length, hlen, hvl]
  · rw [halfRotate_length, hlen]
  · have hl : (halfRotate y).length = b.length := by rw [halfRotate_length, hlen]
    have hN : (b.length : ℂ) ≠ 0 := by exact_mod_cast hpos.ne'
    rw [at0_of_lt _ _ (by simp [ifft_length, halfRotate_length, hlen, hvl, hn]), List.getElem_zipWith,
      ← at0_of_lt _ _, ← at0_of_lt _ _, at0_ifft _ n (by rw [hl]; exact hn), hl, div_mul_cancel₀ _ hN]
    congr 1
    apply sum_congr rfl
    intro k hk
    rw [at0_halfRotate _ _ (by rw [hlen]; exact mem_range.mp hk), hlen]

/-- Round trip, any length: sample `n` is multiplied by `exp(2πi (N mod 2) n / N)` and by `b_n / v_n`, `v` the patched window. -/
theorem fourier_roundtrip (x b v : List ℂ) (hlen : b.length ≤ x.length) (hb : ¬ ∀ v ∈ b, isClose0 v)
    (hv : ((isClose0 (at0 b 0) ∨ isClose0 (at0 b (b.length - 1))) → patchEnds b = .ok v) ∧
      (¬ (isClose0 (at0 b 0) ∨ isClose0 (at0 b (b.length - 1))) → v = b)) (hvl : v.length = b.length) :
    ∃ y f z g, fourier x b false = .ok (y, f) ∧ fourier y b true = .ok (z, g) ∧ z.length = b.length ∧
      g = linspace 0 ((b.length : ℝ) - 1) b.length ∧
      ∀ n, n < b.length → at0 z n =
        turn (((b.length % 2 : ℕ) : ℂ) * (n : ℂ) / (b.length : ℂ)) * (at0 b n * at0 x n) / at0 v n := by
  have hb0 : b ≠ [] := by rintro rfl; simp at hb
  have hpos : 0 < b.length := List.length_pos_iff.mpr hb0
  have hN : (b.length : ℂ) ≠ 0 := by exact_mod_cast hpos.ne'
  obtain ⟨y, f, h1, h2, _, h4⟩ := fourier_forward x b hlen hb
  obtain ⟨z, g, g1, g2, g3, g4⟩ := fourier_inverse y b v h2 hb hv hvl
  refine ⟨y, f, z, g, h1, g1, g2, g3, fun n hn => ?_⟩
  rw [g4 n hn]
  congr 1
  have e1 : ∀ k ∈ range b.length, at0 y ((k + b.length / 2) % b.length) * turn ((k : ℂ) * (n : ℂ) / (b.length : ℂ)) =
      turn (((b.length % 2 : ℕ) : ℂ) * (n : ℂ) / (b.length : ℂ)) / (b.length : ℂ) *
      (fun j : ℕ => (∑ m ∈ range b.length, at0 b m * at0 x m * turn (-((j : ℂ) * (m : ℂ) / (b.length : ℂ)))) *
        turn ((j : ℂ) * (n : ℂ) / (b.length : ℂ))) ((k + 2 * (b.length / 2)) % b.length) := by
    intro k _
    rw [h4 _ (Nat.mod_lt _ hpos), Nat.mod_add_mod, show k + b.length / 2 + b.length / 2 = k + 2 * (b.length / 2) by ring]
    simp only
    have e2 : turn ((k : ℂ) * (n : ℂ) / (b.length : ℂ)) = turn (((b.length % 2 : ℕ) : ℂ) * (n : ℂ) / (b.length : ℂ)) *
        turn ((((k + 2 * (b.length / 2)) % b.length : ℕ) : ℂ) * (n : ℂ) / (b.length : ℂ)) := by
      rw [turn_mod_pos _ _ _ hpos, ← turn_add, ← turn_add_int ((k : ℂ) * (n : ℂ) / (b.length : ℂ)) (n : ℤ)]
      congr 1
      have : (b.length : ℂ) = ((b.length % 2 : ℕ) : ℂ) + 2 * ((b.length / 2 : ℕ) : ℂ) := by
        exact_mod_cast (Nat.mod_add_div b.length 2).symm
      generalize b.length / 2 = q at this ⊢
      generalize b.length % 2 = r at this ⊢
      push_cast
      field_simp
      rw [this]; ring
    rw [e2]
    ring
  rw [sum_congr rfl e1, ← mul_sum,
    sum_rotate b.length (2 * (b.length / 2)) hpos (fun j : ℕ => (∑ m ∈ range b.length, at0 b m * at0 x m *
      turn (-((j : ℂ) * (m : ℂ) / (b.length : ℂ)))) * turn ((j : ℂ) * (n : ℂ) / (b.length : ℂ))),
    dft_inversion b.length (fun m => at0 b m * at0 x m) n hn]
  field_simp

/-- C40.  Even length, window without zeros (end coefficients above the `isclose` threshold): forward then inverse returns the
signal exactly. -/
theorem C40_fourier_roundtrip_even (x b : List ℂ) (hlen : b.length ≤ x.length) (heven : Even b.length) (hb0 : b ≠ [])
    (hends : 1e-8 < ‖at0 b 0‖ ∧ 1e-8 < ‖at0 b (b.length - 1)‖) (hnz : ∀ v ∈ b, v ≠ 0) :
    ∃ y f g, fourier x b false = .ok (y, f) ∧ fourier y b true = .ok (x.take b.length, g) := by
  have hpos : 0 < b.length := List.length_pos_iff.mpr hb0
  have hb : ¬ ∀ v ∈ b, isClose0 v := by
    intro h
    have := h (at0 b 0) (by rw [at0_of_lt _ _ hpos]; exact List.getElem_mem _)
    exact absurd this (not_le.mpr hends.1)
  have hc : ¬ (isClose0 (at0 b 0) ∨ isClose0 (at0 b (b.length - 1))) := by
    rintro (h | h)
    · exact absurd h (not_le.mpr hends.1)
    · exact absurd h (not_le.mpr hends.2)
  obtain ⟨y, f, z, g, h1, h2, h3, _, h4⟩ := fourier_roundtrip x b b hlen hb ⟨fun h => absurd h hc, fun _ => rfl⟩ rfl
  refine ⟨y, f, g, h1, ?_⟩
  rw [h2]
  congr 2
  apply List.ext_getElem
  · simp [h3, hlen]
  · intro n hn hn'
    have hn2 : n < b.length := by omega
    rw [← at0_of_lt _ _ hn, h4 n hn2, Nat.even_iff.mp heven]
    have hne : at0 b n ≠ 0 := by rw [at0_of_lt _ _ hn2]; exact hnz _ (List.getElem_mem _)
    rw [Nat.cast_zero, zero_mul, zero_div, turn_zero, one_mul, mul_div_cancel_left₀ _ hne, at0_of_lt _ _ (by omega)]
    simp

example : ∃ b : List ℂ, Even b.length ∧ b ≠ [] ∧ (1e-8 < ‖at0 b 0‖ ∧ 1e-8 < ‖at0 b (b.length - 1)‖) ∧ ∀ v ∈ b, v ≠ 0 := by
  refine ⟨[1, 2, 3, 4], ⟨2, rfl⟩, by simp, ⟨?_, ?_⟩, by simp⟩ <;> simp [at0] <;> norm_num

/-- C40.  Even length of at least four, a window whose end coefficients vanish (within the `isclose` threshold): every interior
sample is returned exactly. -/
theorem C40_fourier_roundtrip_tapered (x b : List ℂ) (hlen : b.length ≤ x.length) (heven : Even b.length) (h4 : 4 ≤ b.length)
    (hends : ‖at0 b 0‖ ≤ 1e-8 ∨ ‖at0 b (b.length - 1)‖ ≤ 1e-8) (hb : ∃ v ∈ b, 1e-8 < ‖v‖)
    (hnz : ∀ n, 1 ≤ n → n < b.length - 1 → at0 b n ≠ 0) :
    ∃ y f z g, fourier x b false = .ok (y, f) ∧ fourier y b true = .ok (z, g) ∧ z.length = b.length ∧
      ∀ n, 1 ≤ n → n < b.length - 1 → z[n]? = x[n]? := by
  obtain ⟨w, hw, hw1⟩ := hb
  have hb' : ¬ ∀ v ∈ b, isClose0 v := fun h => absurd (h w hw) (not_le.mpr hw1)
  have hp : patchEnds b = .ok ((b.set 0 (at0 b 1)).set (b.length - 1) (at0 b (b.length - 2))) := by
    unfold patchEnds; rw [if_neg (by omega)]
  obtain ⟨y, f, z, g, h1, h2, h3, _, h5⟩ := fourier_roundtrip x b _ hlen hb' ⟨fun _ => hp, fun h => absurd hends h⟩ (by simp)
  refine ⟨y, f, z, g, h1, h2, h3, fun n hn1 hn2 => ?_⟩
  have hv : at0 ((b.set 0 (at0 b 1)).set (b.length - 1) (at0 b (b.length - 2))) n = at0 b n := by
    simp only [at0, List.getD]
    rw [List.getElem?_set_ne (by omega), List.getElem?_set_ne (by omega)]
  have := h5 n (by omega)
  rw [hv, Nat.even_iff.mp heven, Nat.cast_zero, zero_mul, zero_div, turn_zero, one_mul, mul_div_cancel_left₀ _ (hnz n hn1 hn2),
    at0_of_lt _ _ (by omega), at0_of_lt _ _ (by omega)] at this
  rw [List.getElem?_eq_getElem (by omega), List.getElem?_eq_getElem (by omega), this]

example : ∃ b : List ℂ, Even b.length ∧ 4 ≤ b.length ∧ (‖at0 b 0‖ ≤ 1e-8 ∨ ‖at0 b (b.length - 1)‖ ≤ 1e-8) ∧
    (∃ v ∈ b, 1e-8 < ‖v‖) ∧ ∀ n, 1 ≤ n → n < b.length - 1 → at0 b n ≠ 0 := by
  refine ⟨[0, 1, 1, 0], ⟨2, rfl⟩, by simp, .inl ?_, ⟨1, by simp, by rw [norm_one]; norm_num⟩, ?_⟩
  · simp [at0]; norm_num
  · intro n h1 h2
    simp only [List.length_cons, List.length_nil] at h2
    have : n = 1 ∨ n = 2 := by omega
    rcases this with rfl | rfl <;> simp [at0]

/-- C40.  Odd length, window without zeros: the round trip multiplies sample `n` by the unit phase `exp(j 2π n/N)`. -/
theorem C40_fourier_roundtrip_odd (x b : List ℂ) (hlen : b.length ≤ x.length) (hodd : Odd b.length)
    (hends : 1e-8 < ‖at0 b 0‖ ∧ 1e-8 < ‖at0 b (b.length - 1)‖) (hnz : ∀ v ∈ b, v ≠ 0) :
    ∃ y f z g, fourier x b false = .ok (y, f) ∧ fourier y b true = .ok (z, g) ∧ z.length = b.length ∧
      ∀ n, n < b.length → at0 z n = phasor (2 * n / b.length) * at0 x n := by
  have hpos : 0 < b.length := hodd.pos
  have hb : ¬ ∀ v ∈ b, isClose0 v := by
    intro h
    have := h (at0 b 0) (by rw [at0_of_lt _ _ hpos]; exact List.getElem_mem _)
    exact absurd this (not_le.mpr hends.1)
  have hc : ¬ (isClose0 (at0 b 0) ∨ isClose0 (at0 b (b.length - 1))) := by
    rintro (h | h)
    · exact absurd h (not_le.mpr hends.1)
    · exact absurd h (not_le.mpr hends.2)
  obtain ⟨y, f, z, g, h1, h2, h3, _, h4⟩ := fourier_roundtrip x b b hlen hb ⟨fun h => absurd h hc, fun _ => rfl⟩ rfl
  refine ⟨y, f, z, g, h1, h2, h3, fun n hn => ?_⟩
  have hne : at0 b n ≠ 0 := by rw [at0_of_lt _ _ hn]; exact hnz _ (List.getElem_mem _)
  rw [h4 n hn, Nat.odd_iff.mp hodd, ← turn_phasor, Nat.cast_one, one_mul, ← mul_assoc, mul_right_comm, mul_div_assoc,
    div_self hne, mul_one]
  congr 2
  push_cast; ring

/-- An odd window without zeros. -/
example := C40_fourier_roundtrip_odd [1, 2, 3] [1, 2, 1] (by simp) ⟨1, rfl⟩ (by constructor <;> simp [at0] <;> norm_num) (by simp)

/-- C40.  Arguments both directions reject: an empty signal, a window longer than the signal, and a window that vanishes. -/
theorem C40_fourier_rejects (x b : List ℂ) (inverse : Bool) (h : x = [] ∨ x.length < b.length ∨ ∀ v ∈ b, ‖v‖ ≤ 1e-8) :
    fourier x b inverse = .error .valueError := by
  unfold fourier
  rcases h with rfl | h | h
  · simp
  · by_cases hx : x.length = 0
    · simp [hx]
    · simp only [hx, if_false]; rw [if_pos (.inl h)]
  · by_cases hx : x.length = 0
    · simp [hx]
    · simp only [hx, if_false]; rw [if_pos (.inr h)]

/-- A window of zeros. -/
example := C40_fourier_rejects [1, 2] [0, 0] false (.inr (.inr (by simp; norm_num)))

end Verif.Props
