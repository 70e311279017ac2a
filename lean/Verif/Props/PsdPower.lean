import Verif.Props.ToneSpectrum
import Verif.Model.PsdIndex
import Mathlib.Tactic.Linarith

/- Property C142: what PsdTransform keeps of the power of a signal, and any integer as its index (diamondback/transforms/psd_transform.py:68-107). -/

namespace Verif.Props

open Complex Finset Spec

theorem pyRange_pos (n index : ℕ) (hi : 0 < index) : pyRange ((n : ℤ) + 1) index = .ok ((stride (n + 1) index).map fun k : ℕ => (k : ℤ)) := by
  have h1 : ¬ ((index : ℤ) = 0) := by omega
  have h2 : (0 : ℤ) < index := by omega
  simp only [pyRange, h1, h2, if_false, if_true, stride, List.map_map]
  have : (((n : ℤ) + 1 + index - 1) / index).toNat = (n + 1 + index - 1) / index := by
    rw [show (n : ℤ) + 1 + index - 1 = ((n + index : ℕ) : ℤ) by push_cast; ring, show n + 1 + index - 1 = n + index by omega]
    exact_mod_cast Int.toNat_natCast _
  rw [this]
  simp [Function.comp_def]

theorem pyRange_neg (n : ℕ) (index : ℤ) (hi : index < 0) : pyRange ((n : ℤ) + 1) index = .ok [] := by
  have h1 : ¬ (index = 0) := by omega
  have h2 : ¬ (0 < index) := by omega
  simp only [pyRange, h1, h2, if_false]
  have : ((-((n : ℤ) + 1) + -index - 1) / -index).toNat = 0 := by
    rw [Int.toNat_eq_zero]
    have : (-((n : ℤ) + 1) + -index - 1) / -index < 1 := by
      rw [Int.ediv_lt_iff_lt_mul (by omega)]
      omega
    omega
  rw [this]
  simp

/-- The output for a positive index, as the shape with three cases. -/
def psdAny : PsdOut → PsdAny
  | .mean y => .mean y
  | .spectrogram y => .spectrogram y

/-- C142.  Whatever the index, an empty signal, a window without any value that differs from zero and a signal shorter than the window are refused. -/
theorem C142_refused (x b : List ℂ) (h : x = [] ∨ (∀ v ∈ b, ‖v‖ ≤ 1e-8) ∨ x.length < b.length) (index : ℤ) (spectrogram : Bool) :
    psdInt x b index spectrogram = .error .valueError := by
  unfold psdInt
  by_cases h1 : x.length = 0
  · rw [if_pos h1]
  by_cases h2 : b.length = 0 ∨ ∀ v ∈ b, isClose0 v
  · rw [if_neg h1, if_pos h2]
  by_cases h3 : x.length < b.length
  · rw [if_neg h1, if_neg h2, if_pos h3]
  rcases h with h | h | h
  · exact absurd (by rw [h]; rfl) h1
  · exact absurd (.inr h) h2
  · exact absurd h h3

example := C142_refused [1, 2] [1, 2, 3] (by simp) (-1) true

/-- C142: a positive index gives the means or rows of `psd`, zero raises ValueError, and a negative index gives nan or, with spectrogram, raises ValueError; other arguments are refused
before. -/
theorem C142_index (x b : List ℂ) (hlen : b.length ≤ x.length) (hb : ∃ v ∈ b, 1e-8 < ‖v‖) (index : ℤ) (spectrogram : Bool) :
    (∀ n : ℕ, 0 < n → index = n → ∃ out f, psd x b n spectrogram = .ok (out, f) ∧ psdInt x b index spectrogram = .ok (psdAny out, f)) ∧
    (index = 0 → psdInt x b index spectrogram = .error .valueError) ∧
    (index < 0 → psdInt x b index true = .error .valueError ∧ ∃ f, psdInt x b index false = .ok (.nan, f)) := by
  obtain ⟨v, hv, hv1⟩ := hb
  have hb' : ¬ (b.length = 0 ∨ ∀ v ∈ b, isClose0 v) := by
    have := List.length_pos_of_mem hv
    rintro (h | h)
    · omega
    · exact absurd (h v hv) (not_le.mpr hv1)
  have hpos : 0 < b.length := List.length_pos_of_mem hv
  have hx : ¬ x.length = 0 := by omega
  have hstop : (x.length : ℤ) - b.length + 1 = ((x.length - b.length : ℕ) : ℤ) + 1 := by omega
  refine ⟨?_, ?_, ?_⟩
  · rintro n hn rfl
    have hn' : ¬ n = 0 := by omega
    have hne : (stride (x.length - b.length + 1) n).map (psdFrame x b) ≠ [] := by
      rw [psd_frames x b n hn hlen]
      simp
    cases spectrogram with
    | true =>
      refine ⟨_, _, by simp only [psd, hx, hb', not_lt.mpr hlen, hn', if_false, if_true]; rfl, ?_⟩
      simp only [psdInt, hx, hb', not_lt.mpr hlen, if_false, if_true, hstop, pyRange_pos _ n hn, List.map_map, Function.comp_def, Int.toNat_natCast, hne, psdAny]
    | false =>
      refine ⟨_, _, by simp only [psd, hx, hb', not_lt.mpr hlen, hn', if_false, Bool.false_eq_true]; rfl, ?_⟩
      simp only [psdInt, hx, hb', not_lt.mpr hlen, if_false, Bool.false_eq_true, hstop, pyRange_pos _ n hn, List.map_map, Function.comp_def, Int.toNat_natCast, hne, psdAny]
  · rintro rfl
    simp [psdInt, hx, not_lt.mpr hlen, pyRange]
  · intro hi
    simp only [psdInt, hx, hb', not_lt.mpr hlen, if_false, hstop, pyRange_neg _ _ hi, List.map_nil, if_true, Bool.false_eq_true]
    exact ⟨trivial, _, rfl⟩

example : ∃ f, psdInt [1, 2, 3] [1, 1] (-2) false = .ok (.nan, f) :=
  ((C142_index [1, 2, 3] [1, 1] (by simp) ⟨1, by simp, by rw [norm_one]; norm_num⟩ (-2) false).2.2 (by norm_num)).2

/-- C142: only the samples in the frames count: two signals of the same length which agree at the positions `i * index + n`, `n < len(b)`, of the frames have the same power spectral density and
spectrogram. -/
theorem C142_unseen (x z b : List ℂ) (index : ℕ) (hi : 0 < index) (hl : x.length = z.length) (hlen : b.length ≤ x.length) (hb : ∃ v ∈ b, 1e-8 < ‖v‖)
    (h : ∀ i ≤ (x.length - b.length) / index, ∀ n < b.length, at0 x (i * index + n) = at0 z (i * index + n)) (spectrogram : Bool) :
    ∃ out f, psd x b index spectrogram = .ok (out, f) ∧ psd z b index spectrogram = .ok (out, f) := by
  obtain ⟨v, hv, hv1⟩ := hb
  have hb' : ¬ (b.length = 0 ∨ ∀ v ∈ b, isClose0 v) := by
    have := List.length_pos_of_mem hv
    rintro (h | h)
    · omega
    · exact absurd (h v hv) (not_le.mpr hv1)
  have hpos : 0 < b.length := List.length_pos_of_mem hv
  have hx : ¬ x.length = 0 := by omega
  have hz : ¬ z.length = 0 := by omega
  have hi' : ¬ index = 0 := by omega
  have hf : (stride (z.length - b.length + 1) index).map (psdFrame z b) = (stride (x.length - b.length + 1) index).map (psdFrame x b) := by
    rw [psd_frames x b index hi hlen, psd_frames z b index hi (by omega), ← hl]
    refine List.map_congr_left fun i hii => List.map_congr_left fun k _ => ?_
    have := List.mem_range.mp hii
    simp only [framePower, spectrumAt]
    congr 3
    refine sum_congr rfl fun n hn => ?_
    rw [h i (by omega) n (mem_range.mp hn)]
  cases spectrogram with
  | true =>
    refine ⟨_, _, by simp only [psd, hx, hb', not_lt.mpr hlen, hi', if_false, if_true]; rfl, ?_⟩
    simp only [psd, hz, hb', not_lt.mpr (hl ▸ hlen : b.length ≤ z.length), hi', if_false, if_true, hf]
  | false =>
    refine ⟨_, _, by simp only [psd, hx, hb', not_lt.mpr hlen, hi', if_false, Bool.false_eq_true]; rfl, ?_⟩
    simp only [psd, hz, hb', not_lt.mpr (hl ▸ hlen : b.length ≤ z.length), hi', if_false, Bool.false_eq_true, hf]

/-- The index 3 and a window of two samples: every third sample is not seen, nor is the last. -/
example : ∃ out f, psd [1, 2, 3, 4, 5, 6] [1, 1] 3 false = .ok (out, f) ∧ psd [1, 2, 100, 4, 5, -7] [1, 1] 3 false = .ok (out, f) := by
  refine C142_unseen _ _ [1, 1] 3 (by norm_num) rfl (by simp) ⟨1, by simp, by rw [norm_one]; norm_num⟩ ?_ false
  intro i hi n hn
  simp at hi hn
  rcases (by omega : i = 0 ∨ i = 1) with rfl | rfl <;> rcases (by omega : n = 0 ∨ n = 1) with rfl | rfl <;> simp [at0]

theorem fold_spectrum (N : ℕ) (hN : 0 < N) (P : ℕ → ℝ) (hP : ∀ k, 0 < k → k < N → P (N - k) = P k) :
    ∑ k ∈ range N, P k = 2 * ∑ k ∈ range (N / 2), P k - P 0 + (if Even N then 1 else 2) * P (N / 2) := by
  have hrefl : ∀ m (g : ℕ → ℝ), ∑ j ∈ range m, g (m - 1 - j) = ∑ j ∈ range m, g j := fun m g => sum_range_reflect g m
  rcases Nat.even_or_odd' N with ⟨h, rfl | rfl⟩
  · obtain ⟨m, rfl⟩ : ∃ m, h = m + 1 := ⟨h - 1, by omega⟩
    rw [if_pos ⟨m + 1, by ring⟩, show 2 * (m + 1) / 2 = m + 1 by omega, show 2 * (m + 1) = (m + 1) + (m + 1) by ring, sum_range_add _ (m + 1) (m + 1), sum_range_succ' (fun j => P (m + 1 + j)) m,
      sum_range_succ' P m]
    have : ∑ j ∈ range m, P (m + 1 + (j + 1)) = ∑ j ∈ range m, P (j + 1) := by
      rw [← hrefl m fun j => P (j + 1)]
      refine sum_congr rfl fun j hj => ?_
      have := mem_range.mp hj
      rw [← hP (m + 1 + (j + 1)) (by omega) (by omega)]
      congr 1
      omega
    rw [this]
    simp
    ring
  · rw [if_neg (by simp), show (2 * h + 1) / 2 = h by omega, show 2 * h + 1 = (h + 1) + h by ring, sum_range_add _ (h + 1) h, sum_range_succ]
    have : ∑ j ∈ range h, P (h + 1 + j) = ∑ j ∈ range h, P (j + 1) := by
      rw [← hrefl h fun j => P (j + 1)]
      refine sum_congr rfl fun j hj => ?_
      have := mem_range.mp hj
      rw [← hP (h + 1 + j) (by omega) (by omega)]
      congr 1
      omega
    have h2 := sum_range_succ' P h
    rw [sum_range_succ] at h2
    rw [this]
    linarith

theorem framePower_turn (x b : List ℂ) (index i k : ℕ) : framePower x b index i k =
    ‖∑ n ∈ range b.length, (at0 b n * at0 x (i * index + n)) * turn (-((k : ℂ) * (n : ℂ) / (b.length : ℂ)))‖ ^ 2 / (b.length : ℝ) ^ 2 := by
  simp only [framePower, spectrumAt]
  rw [norm_div, div_pow, Complex.norm_natCast]
  congr 3
  refine sum_congr rfl fun n _ => ?_
  rw [← turn_phasor]
  congr 2
  push_cast
  ring

theorem frame_total (x b : List ℂ) (index i : ℕ) (hN : 0 < b.length) :
    ∑ k ∈ range b.length, framePower x b index i k = (∑ n ∈ range b.length, ‖at0 b n * at0 x (i * index + n)‖ ^ 2) / b.length := by
  have hN' : (b.length : ℝ) ≠ 0 := by exact_mod_cast hN.ne'
  simp only [framePower_turn]
  rw [← sum_div, dft_parseval b.length fun n => at0 b n * at0 x (i * index + n)]
  field_simp

theorem frame_mirror (x b : List ℂ) (hx : ∀ v ∈ x, v.im = 0) (hb : ∀ v ∈ b, v.im = 0) (index i k : ℕ) (hk : k < b.length) :
    framePower x b index i (b.length - k) = framePower x b index i k := by
  have hreal : ∀ l : List ℂ, (∀ v ∈ l, v.im = 0) → ∀ n, (starRingEnd ℂ) (at0 l n) = at0 l n := by
    intro l hl n
    rw [Complex.conj_eq_iff_im]
    rcases lt_or_ge n l.length with h | h
    · rw [at0_of_lt _ _ h]
      exact hl _ (List.getElem_mem h)
    · rw [at0_of_le _ _ h]
      rfl
  have hN : (b.length : ℂ) ≠ 0 := by exact_mod_cast (by omega : b.length ≠ 0)
  rw [framePower_turn, framePower_turn]
  congr 2
  rw [← Complex.norm_conj, map_sum]
  congr 1
  refine sum_congr rfl fun n _ => ?_
  rw [map_mul, map_mul, hreal b hb, hreal x hx]
  congr 1
  have h1 := turn_conj (-(((b.length - k : ℕ) : ℝ) * n / b.length))
  push_cast at h1
  rw [h1, neg_neg]
  have h2 := turn_add_int (-((k : ℂ) * (n : ℂ) / (b.length : ℂ))) (n : ℤ)
  rw [← h2]
  congr 1
  rw [Nat.cast_sub hk.le]
  push_cast
  field_simp
  ring

/-- C142: real signals and windows: twice the sum of the power spectral density, less its value at zero frequency, is the mean power of the windowed frames except for what is at Nyquist (with an odd
length: at the last frequency below it, twice), which the transform leaves out. -/
theorem C142_power (x b : List ℂ) (hx : ∀ v ∈ x, v.im = 0) (hbr : ∀ v ∈ b, v.im = 0) (index : ℕ) (hi : 0 < index) (hlen : b.length ≤ x.length) (hb : ∃ v ∈ b, 1e-8 < ‖v‖) (h2 : 2 ≤ b.length) :
    ∃ y f, psd x b index false = .ok (.mean y, f) ∧ y.length = b.length / 2 ∧
      2 * y.sum - at0 y 0 + (if Even b.length then 1 else 2) * ((∑ i ∈ range ((x.length - b.length) / index + 1), framePower x b index i (b.length / 2)) / (((x.length - b.length) / index + 1 : ℕ) : ℝ)) =
        (∑ i ∈ range ((x.length - b.length) / index + 1), (∑ n ∈ range b.length, ‖at0 b n * at0 x (i * index + n)‖ ^ 2) / b.length) / (((x.length - b.length) / index + 1 : ℕ) : ℝ) := by
  obtain ⟨y, f, h1, hy, -, h4⟩ := C42_psd_mean x b index hi hlen hb
  refine ⟨y, f, h1, hy, ?_⟩
  set K := (x.length - b.length) / index + 1 with hK
  set P : ℕ → ℝ := fun k => (∑ i ∈ range K, framePower x b index i k) / (K : ℝ) with hP
  have hsum : y.sum = ∑ k ∈ range (b.length / 2), P k := by
    rw [← list_sum_range]
    congr 1
    apply List.ext_getElem
    · simp [hy]
    · intro k hk hk'
      obtain ⟨p, p1, -, p3⟩ := h4 k (by omega)
      rw [List.getElem?_eq_getElem hk, Option.some.injEq] at p1
      rw [p1, p3]; simp [hP]
  have hy0 : at0 y 0 = P 0 := by
    obtain ⟨p, p1, -, p3⟩ := h4 0 (by omega)
    rw [at0, List.getD_eq_getElem?_getD, p1, p3]
    rfl
  have hfold := fold_spectrum b.length (by omega) P (by
    intro k _ hk
    simp only [hP]
    congr 1
    exact sum_congr rfl fun i _ => frame_mirror x b hx hbr index i k hk)
  rw [hsum, hy0]
  have : (∑ i ∈ range K, framePower x b index i (b.length / 2)) / (K : ℝ) = P (b.length / 2) := rfl
  rw [this, ← hfold]
  simp only [hP]
  rw [← sum_div, sum_comm]
  congr 1
  exact sum_congr rfl fun i _ => frame_total x b index i (by omega)

/-- C142: tones of a complex signal at negative frequencies of the axis, and at Nyquist, do not appear: with the rectangular window their power spectral density is zero. -/
theorem C142_negative (N j M index : ℕ) (h1 : 1 ≤ j) (h2 : 2 * j ≤ N) (hM : N ≤ M) (hi : 0 < index) (A : ℂ) (p : ℝ) :
    ∃ f, psd (tone A (-(2 * j / N)) p M) (List.replicate N 1) index false = .ok (.mean (List.replicate (N / 2) 0), f) := by
  obtain ⟨y, s, f, e1, -, e3, e4, -⟩ := C107_psd (List.replicate N 1) ⟨1, by simp; omega, by rw [norm_one]; norm_num⟩ A (-(2 * j / N)) p M (by simpa using hM) index hi
  refine ⟨f, ?_⟩
  rw [e1]
  congr 3
  rw [List.length_replicate] at e3 e4
  apply List.ext_getElem?
  intro k
  rcases lt_or_ge k (N / 2) with hk | hk
  · rw [e4 k hk, List.getElem?_replicate, if_pos hk]
    have hN : (N : ℂ) ≠ 0 := by exact_mod_cast (by omega : N ≠ 0)
    have : windowResponse (List.replicate N 1) (2 * k / N - -(2 * j / N)) = 0 := by
      rw [windowResponse, spectrumAt, List.length_replicate, div_eq_zero_iff]
      left
      have h := turn_orthogonal N 0 (k + j) (by omega) (by omega)
      rw [if_neg (by omega)] at h
      rw [← h]
      refine sum_congr rfl fun n hn => ?_
      rw [at0_of_lt _ _ (by simpa using mem_range.mp hn), ← turn_phasor]
      simp only [List.getElem_replicate, one_mul]
      congr 1
      push_cast
      field_simp
      ring
    rw [this]
    simp
  · rw [List.getElem?_eq_none (by omega), List.getElem?_eq_none (by simpa using hk)]

/-- The real signal 1, -1, 1, -1, ... is one of these. -/
example : ∃ f, psd (tone 1 (-(2 * (2 : ℕ) / (4 : ℕ))) 0 8) (List.replicate 4 1) 2 false = .ok (.mean [0, 0], f) :=
  C142_negative 4 2 8 2 (by norm_num) (by norm_num) (by norm_num) (by norm_num) 1 0

example : at0 (tone 1 (-(2 * (2 : ℕ) / (4 : ℕ))) 0 8) 1 = -1 := by
  rw [at0_tone _ _ _ _ _ (by norm_num), phasor]
  norm_num
  rw [mul_comm, Complex.exp_neg, Complex.exp_pi_mul_I]
  norm_num

/-- The power of a real signal. -/
example : ∃ y f, psd [1, 2, 0, 3] [1, 1] 1 false = .ok (.mean y, f) ∧ y.length = 1 := by
  obtain ⟨y, f, h1, h2, -⟩ := C142_power [1, 2, 0, 3] [1, 1] (by simp) (by simp) 1 one_pos (by simp) ⟨1, by simp, by rw [norm_one]; norm_num⟩ (by simp)
  exact ⟨y, f, h1, by simpa using h2⟩

end Verif.Props
