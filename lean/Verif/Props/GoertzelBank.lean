import Verif.Props.Goertzel
import Verif.Props.Spectral
import Verif.Props.Selectivity
import Verif.Lemmas.Dft

/-
Property C176: a bank of GoertzelFilters, one at each of the equidistant frequencies, determines the signal (diamondback/filters/goertzel_filter.py).
-/

namespace Verif.Props

open Complex Finset Spec

private theorem bank_carrier (s : ℝ) (N k m : ℕ) : phasor (-((s + 2 * (k : ℝ) / (N : ℝ)) * m)) = phasor (-(s * m)) * turn (-((k : ℂ) * (m : ℂ) / (N : ℂ))) := by
  unfold phasor turn
  rw [← Complex.exp_add]
  congr 1; push_cast; ring

private theorem bank_inversion (s : ℝ) (N : ℕ) (f : ℕ → ℂ) (n : ℕ) (hn : n < N) :
    ∑ k ∈ range N, (∑ m ∈ range N, f m * phasor (-((s + 2 * (k : ℝ) / (N : ℝ)) * m))) * phasor ((s + 2 * (k : ℝ) / (N : ℝ)) * n) = N * f n := by
  have h := dft_inversion N (fun m => f m * phasor (-(s * m))) n hn
  have hp : phasor (-(s * n)) * phasor (s * n) = 1 := by
    rw [← phasor_add, neg_add_cancel, phasor_zero]
  have e : ∀ k ∈ range N, (∑ m ∈ range N, f m * phasor (-((s + 2 * (k : ℝ) / (N : ℝ)) * m))) * phasor ((s + 2 * (k : ℝ) / (N : ℝ)) * n)
      = (∑ m ∈ range N, f m * phasor (-(s * m)) * turn (-((k : ℂ) * (m : ℂ) / (N : ℂ)))) * turn ((k : ℂ) * (n : ℂ) / (N : ℂ)) * phasor (s * n) := by
    intro k _
    have e1 : phasor ((s + 2 * (k : ℝ) / (N : ℝ)) * n) = turn ((k : ℂ) * (n : ℂ) / (N : ℂ)) * phasor (s * n) := by
      unfold phasor turn
      rw [← Complex.exp_add]
      congr 1; push_cast; ring
    rw [e1, ← mul_assoc]
    congr 2
    apply sum_congr rfl
    intro m _
    rw [bank_carrier]; ring
  rw [sum_congr rfl e, ← sum_mul, h, mul_assoc, mul_assoc, hp, mul_one]

private theorem bank_parseval (s : ℝ) (N : ℕ) (f : ℕ → ℂ) :
    ∑ k ∈ range N, ‖∑ m ∈ range N, f m * phasor (-((s + 2 * (k : ℝ) / (N : ℝ)) * m))‖ ^ 2 = N * ∑ m ∈ range N, ‖f m‖ ^ 2 := by
  have h := dft_parseval N (fun m => f m * phasor (-(s * m)))
  have h1 : ∀ m : ℕ, ‖phasor (-(s * m))‖ = 1 := fun m => by rw [phasor, Complex.norm_exp]; simp
  simp only [norm_mul, h1, mul_one] at h
  rw [← h]
  apply sum_congr rfl
  intro k _
  congr 2
  apply sum_congr rfl
  intro m _
  rw [bank_carrier]; ring

/-- What one filter returns for block `m`. -/
private theorem bank_value (w : List ℂ) (isComplex : Bool) (calls : List (List ℂ)) (f : ℝ) (m : ℕ) (hm : m < calls.flatten.length / w.length) :
    at0 ((blocks w.length calls.flatten).map (fun blk =>
        cexp (I * Real.pi * f * (w.length - 1)) * dftSum (if isComplex then 1 else 2) f w blk)) m =
      phasor (f * (w.length - 1)) * ((if isComplex then 1 else 2) / w.length *
        ∑ n ∈ range w.length, (at0 w n * at0 calls.flatten (m * w.length + n)) * phasor (-(f * n))) := by
  rw [at0_of_lt _ _ (by simpa [blocks] using hm)]
  simp only [blocks, List.getElem_map, List.getElem_range, dftSum]
  congr 1
  · unfold phasor; congr 1; push_cast; ring
  · congr 1
    apply sum_congr rfl
    intro n hn
    rw [at0_take _ _ _ (mem_range.mp hn)]
    congr 1
    · congr 1
      simp only [at0, List.getD_eq_getElem?_getD, List.getElem?_drop]
    · unfold phasor; congr 1; push_cast; ring

private theorem axis_range (N k : ℕ) (hk : k < N) : -1 ≤ axis N k ∧ axis N k ≤ 1 := by
  have hk' : (k : ℝ) < N := by exact_mod_cast hk
  have hN : (0 : ℝ) < N := by exact_mod_cast (by omega : 0 < N)
  have h2 : 2 * (k : ℝ) / N ≤ 2 := by rw [div_le_iff₀ hN]; linarith
  have h0 : 0 ≤ 2 * (k : ℝ) / N := by positivity
  unfold axis
  push_cast
  constructor <;> linarith

/-- C176.  As many GoertzelFilters as the window has samples, at equidistant frequencies: the tones with the amplitudes and phases which they put out for a block
sum to the windowed block, for real signals to twice the windowed block.  The phases are those of the last sample of the block.  However the signal is divided
between calls, for every block and whether the length is even or odd. -/
theorem C176_bank (w : List ℂ) (isComplex : Bool) (hw : ∃ v ∈ w, 1e-8 < ‖v‖) (calls : List (List ℂ)) (hne : ∀ c ∈ calls, c ≠ []) :
    ∃ vs : ℕ → List ℂ,
      (∀ k < w.length, ∃ g g', Goertzel.new w (axis w.length k) = .ok g ∧
        callChunks (Goertzel.filter (goertzelGain isComplex)) g calls = (.ok (vs k), g') ∧ (vs k).length = calls.flatten.length / w.length) ∧
      ∀ m < calls.flatten.length / w.length, ∀ n < w.length,
        ∑ k ∈ range w.length, at0 (vs k) m * phasor (axis w.length k * (n - (w.length - 1))) =
          (if isComplex then 1 else 2) * (at0 w n * at0 calls.flatten (m * w.length + n)) := by
  have hpos : 0 < w.length := by obtain ⟨v, hv, -⟩ := hw; exact List.length_pos_of_mem hv
  have hN : (w.length : ℂ) ≠ 0 := by exact_mod_cast hpos.ne'
  refine ⟨fun k => (blocks w.length calls.flatten).map (fun blk =>
        cexp (I * Real.pi * (axis w.length k) * (w.length - 1)) * dftSum (if isComplex then 1 else 2) (axis w.length k) w blk), ?_, ?_⟩
  · intro k hk
    obtain ⟨g, vs, g', h1, h2, h3⟩ := C22_goertzel_dft w (axis w.length k) isComplex hw (axis_range _ _ hk) calls hne
    exact ⟨g, g', h1, by rw [h2, h3], by simp [blocks]⟩
  · intro m hm n hn
    have h := bank_inversion (-1) w.length (fun n => at0 w n * at0 calls.flatten (m * w.length + n)) n hn
    have e : ∀ k ∈ range w.length, at0 ((blocks w.length calls.flatten).map (fun blk =>
        cexp (I * Real.pi * (axis w.length k) * (w.length - 1)) * dftSum (if isComplex then 1 else 2) (axis w.length k) w blk)) m
          * phasor (axis w.length k * (n - (w.length - 1))) = (if isComplex then 1 else 2) / w.length *
        ((∑ i ∈ range w.length, (at0 w i * at0 calls.flatten (m * w.length + i)) * phasor (-((-1 + 2 * (k : ℝ) / (w.length : ℝ)) * i)))
          * phasor ((-1 + 2 * (k : ℝ) / (w.length : ℝ)) * n)) := by
      intro k _
      rw [bank_value w isComplex calls _ m hm]
      have e1 : phasor ((-1 + 2 * (k : ℝ) / (w.length : ℝ)) * n) = phasor (axis w.length k * (w.length - 1)) * phasor (axis w.length k * (n - (w.length - 1))) := by
        rw [← phasor_add]; congr 1; simp only [axis]; push_cast; ring
      have e2 : axis w.length k = -1 + 2 * (k : ℝ) / (w.length : ℝ) := by simp only [axis]; push_cast; ring
      rw [e1]
      simp only [← e2]
      ring
    rw [sum_congr rfl e, ← mul_sum, h]
    field_simp

/-- A block of three samples, an odd number, in two calls. -/
example := C176_bank [1, 2, 1] true ⟨1, by simp, by rw [norm_one]; norm_num⟩ [[1, I], [2, 0, 5]] (by simp)

/-- C176.  The powers which the bank puts out for a block sum to the mean power of the windowed block, times four for real signals. -/
theorem C176_power (w : List ℂ) (isComplex : Bool) (hw : ∃ v ∈ w, 1e-8 < ‖v‖) (calls : List (List ℂ)) (hne : ∀ c ∈ calls, c ≠ []) :
    ∃ vs : ℕ → List ℂ,
      (∀ k < w.length, ∃ g g', Goertzel.new w (axis w.length k) = .ok g ∧
        callChunks (Goertzel.filter (goertzelGain isComplex)) g calls = (.ok (vs k), g')) ∧
      ∀ m < calls.flatten.length / w.length,
        ∑ k ∈ range w.length, ‖at0 (vs k) m‖ ^ 2 =
          (if isComplex then 1 else 4) * ((∑ n ∈ range w.length, ‖at0 w n * at0 calls.flatten (m * w.length + n)‖ ^ 2) / w.length) := by
  have hpos : 0 < w.length := by obtain ⟨v, hv, -⟩ := hw; exact List.length_pos_of_mem hv
  have hN : (w.length : ℝ) ≠ 0 := by exact_mod_cast hpos.ne'
  refine ⟨fun k => (blocks w.length calls.flatten).map (fun blk =>
        cexp (I * Real.pi * (axis w.length k) * (w.length - 1)) * dftSum (if isComplex then 1 else 2) (axis w.length k) w blk), ?_, ?_⟩
  · intro k hk
    obtain ⟨g, vs, g', h1, h2, h3⟩ := C22_goertzel_dft w (axis w.length k) isComplex hw (axis_range _ _ hk) calls hne
    exact ⟨g, g', h1, by rw [h2, h3]⟩
  · intro m hm
    have h := bank_parseval (-1) w.length (fun n => at0 w n * at0 calls.flatten (m * w.length + n))
    have e : ∀ k ∈ range w.length, ‖at0 ((blocks w.length calls.flatten).map (fun blk =>
        cexp (I * Real.pi * (axis w.length k) * (w.length - 1)) * dftSum (if isComplex then 1 else 2) (axis w.length k) w blk)) m‖ ^ 2 =
        (if isComplex then 1 else 4) / (w.length : ℝ) ^ 2 *
        ‖∑ i ∈ range w.length, (at0 w i * at0 calls.flatten (m * w.length + i)) * phasor (-((-1 + 2 * (k : ℝ) / (w.length : ℝ)) * i))‖ ^ 2 := by
      intro k _
      rw [bank_value w isComplex calls _ m hm]
      have e2 : axis w.length k = -1 + 2 * (k : ℝ) / (w.length : ℝ) := by simp only [axis]; push_cast; ring
      simp only [← e2]
      have e3 : ∀ t : ℝ, ‖phasor t‖ = 1 := fun t => by rw [phasor, Complex.norm_exp]; simp
      rw [norm_mul, e3, one_mul, norm_mul, mul_pow, norm_div, div_pow, Complex.norm_natCast]
      cases isComplex <;> norm_num
    rw [sum_congr rfl e, ← mul_sum, h]
    field_simp

/-- Four times, since the amplitudes of real tones are put out doubled. -/
example := C176_power [1, 2, 1] false ⟨1, by simp, by rw [norm_one]; norm_num⟩ [[1, 3], [2, 0, 5]] (by simp)

/-- C176.  Of a real signal, with a real window of even length `2 h`, the `h + 1` filters at the frequencies zero to Nyquist suffice: the real parts of their
tones, of the first and the last one half, sum to the windowed block. -/
theorem C176_real (w : List ℂ) (h : ℕ) (hlen : w.length = 2 * h) (hw : ∃ v ∈ w, 1e-8 < ‖v‖) (hwr : ∀ v ∈ w, v.im = 0)
    (calls : List (List ℂ)) (hne : ∀ c ∈ calls, c ≠ []) (hxr : ∀ v ∈ calls.flatten, v.im = 0) :
    ∃ vs : ℕ → List ℂ,
      (∀ k ≤ h, ∃ g g', Goertzel.new w ((k : ℝ) / h) = .ok g ∧
        callChunks (Goertzel.filter (goertzelGain false)) g calls = (.ok (vs k), g') ∧ (vs k).length = calls.flatten.length / w.length) ∧
      ∀ m < calls.flatten.length / w.length, ∀ n < w.length,
        (at0 (vs 0) m).re / 2 + (∑ k ∈ Finset.Ico 1 h, at0 (vs k) m * phasor ((k : ℝ) / h * (n - (w.length - 1)))).re
            + (at0 (vs h) m * phasor (n - (w.length - 1))).re / 2 =
          (at0 w n * at0 calls.flatten (m * w.length + n)).re := by
  have hpos : 0 < w.length := by obtain ⟨v, hv, -⟩ := hw; exact List.length_pos_of_mem hv
  have hh : 0 < h := by omega
  have hhr : (0 : ℝ) < h := by exact_mod_cast hh
  have hN : (w.length : ℂ) ≠ 0 := by exact_mod_cast hpos.ne'
  refine ⟨fun k => (blocks w.length calls.flatten).map (fun blk =>
        cexp (I * Real.pi * ((k : ℝ) / h : ℝ) * (w.length - 1)) * dftSum (if false then 1 else 2) ((k : ℝ) / h) w blk), ?_, ?_⟩
  · intro k hk
    have hk' : (k : ℝ) ≤ h := by exact_mod_cast hk
    have h0 : 0 ≤ (k : ℝ) / h := by positivity
    have h1 : (k : ℝ) / h ≤ 1 := by rw [div_le_one hhr]; exact hk'
    obtain ⟨g, vs, g', h1, h2, h3⟩ := C22_goertzel_dft w ((k : ℝ) / h) false hw ⟨by linarith, h1⟩ calls hne
    exact ⟨g, g', h1, by rw [h2, h3], by simp [blocks]⟩
  · intro m hm n hn
    have hb := fun k : ℕ => bank_value w false calls ((k : ℝ) / h) m hm
    set x : ℕ → ℂ := fun i => at0 w i * at0 calls.flatten (m * w.length + i) with hx
    have hreal : ∀ l : List ℂ, (∀ v ∈ l, v.im = 0) → ∀ i, (at0 l i).im = 0 := by
      intro l hl i
      by_cases hi : i < l.length
      · rw [at0_of_lt _ _ hi]; exact hl _ (List.getElem_mem _)
      · simp [at0, List.getD_eq_getElem?_getD, List.getElem?_eq_none (not_lt.mp hi)]
    have hxc : ∀ i, (starRingEnd ℂ) (x i) = x i := by
      intro i
      rw [Complex.conj_eq_iff_im]
      simp only [hx, Complex.mul_im, hreal w hwr, hreal _ hxr]; ring
    set T : ℕ → ℂ := fun k => (∑ i ∈ range w.length, x i * phasor (-((0 + 2 * (k : ℝ) / (w.length : ℝ)) * i))) * phasor ((0 + 2 * (k : ℝ) / (w.length : ℝ)) * n) with hT
    have hfr : ∀ k : ℕ, (0 : ℝ) + 2 * (k : ℝ) / (w.length : ℝ) = (k : ℝ) / h := by
      intro k; rw [hlen]; push_cast; field_simp; ring
    have hv : ∀ k : ℕ, at0 ((blocks w.length calls.flatten).map (fun blk =>
        cexp (I * Real.pi * ((k : ℝ) / h : ℝ) * (w.length - 1)) * dftSum (if false then 1 else 2) ((k : ℝ) / h) w blk)) m
          * phasor ((k : ℝ) / h * (n - (w.length - 1))) = 2 / w.length * T k := by
      intro k
      have := hb k
      simp only [Bool.false_eq_true, if_false] at this ⊢
      rw [this]
      simp only [hT, hfr]
      have e1 : phasor ((k : ℝ) / h * n) = phasor ((k : ℝ) / h * (w.length - 1)) * phasor ((k : ℝ) / h * (n - (w.length - 1))) := by
        rw [← phasor_add]; congr 1; ring
      rw [e1]; ring
    have hsum : ∑ k ∈ range w.length, T k = w.length * x n := bank_inversion 0 w.length x n hn
    have hmir : ∀ k ≤ w.length, T (w.length - k) = (starRingEnd ℂ) (T k) := by
      intro k hk
      have hNr : (w.length : ℝ) ≠ 0 := by exact_mod_cast hpos.ne'
      have e1 : ∀ j : ℕ, phasor (-((0 + 2 * ((w.length - k : ℕ) : ℝ) / (w.length : ℝ)) * j)) = phasor ((0 + 2 * (k : ℝ) / (w.length : ℝ)) * j) := by
        intro j
        rw [show -((0 + 2 * ((w.length - k : ℕ) : ℝ) / (w.length : ℝ)) * j) = (0 + 2 * (k : ℝ) / (w.length : ℝ)) * j + 2 * ((-(j : ℤ) : ℤ) : ℝ) by
          rw [Nat.cast_sub hk]; push_cast; field_simp; ring, phasor_add, phasor_even, mul_one]
      have e2 : ∀ j : ℕ, phasor ((0 + 2 * ((w.length - k : ℕ) : ℝ) / (w.length : ℝ)) * j) = phasor (-((0 + 2 * (k : ℝ) / (w.length : ℝ)) * j)) := by
        intro j
        rw [← phasor_conj, ← e1, phasor_conj, neg_neg]
      simp only [hT, map_mul, map_sum, hxc, phasor_conj, neg_neg, e1, e2]
    have hsplit : ∑ k ∈ range w.length, T k = T 0 + ∑ k ∈ Finset.Ico 1 h, T k + T h + ∑ k ∈ Finset.Ico 1 h, (starRingEnd ℂ) (T k) := by
      have e3 : ∑ k ∈ Finset.Ico 1 h, (starRingEnd ℂ) (T k) = ∑ k ∈ Finset.Ico (h + 1) w.length, T k := by
        apply sum_bij (fun k _ => w.length - k)
        · intro k hk; rw [mem_Ico] at hk ⊢; omega
        · intro a ha b hb' e; rw [mem_Ico] at ha hb'; omega
        · intro b hb'; rw [mem_Ico] at hb'; exact ⟨w.length - b, by rw [mem_Ico]; omega, by omega⟩
        · intro k hk; rw [mem_Ico] at hk; exact (hmir k (by omega)).symm
      rw [e3, range_eq_Ico, ← sum_Ico_consecutive _ (by omega : 0 ≤ 1) (by omega : 1 ≤ w.length),
        ← sum_Ico_consecutive _ (by omega : 1 ≤ h) (by omega : h ≤ w.length),
        ← sum_Ico_consecutive _ (by omega : h ≤ h + 1) (by omega : h + 1 ≤ w.length)]
      simp only [Nat.Ico_succ_singleton, sum_singleton]
      ring
    have hre : (T 0).re + 2 * (∑ k ∈ Finset.Ico 1 h, T k).re + (T h).re = (w.length : ℝ) * (x n).re := by
      have := congrArg Complex.re (hsplit.symm.trans hsum)
      rw [← map_sum] at this
      simp only [Complex.add_re, Complex.conj_re, Complex.mul_re, Complex.natCast_re, Complex.natCast_im, zero_mul, sub_zero] at this
      linarith
    have hmid : (∑ k ∈ Finset.Ico 1 h, at0 ((blocks w.length calls.flatten).map (fun blk =>
        cexp (I * Real.pi * ((k : ℝ) / h : ℝ) * (w.length - 1)) * dftSum (if false then 1 else 2) ((k : ℝ) / h) w blk)) m
          * phasor ((k : ℝ) / h * (n - (w.length - 1)))) = 2 / w.length * ∑ k ∈ Finset.Ico 1 h, T k := by
      rw [mul_sum]; exact sum_congr rfl fun k _ => hv k
    have hv0 := hv 0
    have hvh := hv h
    rw [show (((0 : ℕ) : ℝ) / h * (n - (w.length - 1))) = 0 by push_cast; ring, phasor_zero, mul_one] at hv0
    rw [show ((h : ℝ) / h * ((n : ℝ) - (w.length - 1))) = n - (w.length - 1) by rw [div_self hhr.ne', one_mul]] at hvh
    simp only [] at hv0 hvh hmid ⊢
    rw [hv0, hmid, hvh]
    have hc : ∀ z : ℂ, (2 / (w.length : ℂ) * z).re = 2 / (w.length : ℝ) * z.re := by
      intro z
      rw [show (2 / (w.length : ℂ)) = ((2 / (w.length : ℝ) : ℝ) : ℂ) by push_cast; rfl, Complex.re_ofReal_mul]
    rw [hc, hc, hc]
    have hNr : (w.length : ℝ) ≠ 0 := by exact_mod_cast hpos.ne'
    field_simp
    linarith

/-- Three filters for real blocks of four samples. -/
example := C176_real [1, 2, 2, 1] 2 rfl ⟨1, by simp, by rw [norm_one]; norm_num⟩ (by simp) [[1, 3], [2, 0, 5]] (by simp) (by simp)

end Verif.Props
