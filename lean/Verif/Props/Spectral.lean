import Verif.Props.Goertzel
import Verif.Props.Fourier
import Verif.Props.Psd
import Verif.Spec.Linear
import Verif.Spec.Response

/-
Property C81: agreement of GoertzelFilter, FourierTransform and PsdTransform (diamondback/filters/goertzel_filter.py,
diamondback/transforms/fourier_transform.py, diamondback/transforms/psd_transform.py), and the spectra of tones, of sums and of real signals.
-/

namespace Verif.Props

open Complex Finset Spec

theorem at0_of_getElem? (y : List ℂ) (k : ℕ) (v : ℂ) (h : y[k]? = some v) : at0 y k = v := by
  unfold at0; rw [List.getD_eq_getElem?_getD, h]; rfl

theorem phasor_add (s t : ℝ) : phasor (s + t) = phasor s * phasor t := by
  unfold phasor; rw [← Complex.exp_add]; congr 1; push_cast; ring

theorem phasor_even (n : ℤ) : phasor (2 * n) = 1 := by
  unfold phasor
  rw [show I * Real.pi * ((2 * n : ℝ) : ℂ) = (n : ℂ) * (2 * Real.pi * I) by push_cast; ring]
  exact Complex.exp_int_mul_two_pi_mul_I n

/-- C81.  A GoertzelFilter at a frequency of the FourierTransform axis computes that bin: for every stream of calls the output of block `m` is the bin of the
transform of that block, up to a phase factor of magnitude one. -/
theorem C81_goertzel_is_fourier_bin (w : List ℂ) (hw : ∃ v ∈ w, 1e-8 < ‖v‖) (heven : Even w.length) (calls : List (List ℂ)) (hne : ∀ c ∈ calls, c ≠ [])
    (k : ℕ) (hk : k < w.length) :
    ∃ g vs g', Goertzel.new w (axis w.length k) = .ok g ∧ callChunks (Goertzel.filter (goertzelGain true)) g calls = (.ok vs, g') ∧
      vs.length = calls.flatten.length / w.length ∧ ∀ m < calls.flatten.length / w.length,
        ∃ y f, fourier (calls.flatten.drop (m * w.length)) w false = .ok (y, f) ∧ f[k]? = some (axis w.length k) ∧
          at0 vs m = phasor (axis w.length k * (w.length - 1)) * at0 y k := by
  have hpos : 0 < w.length := by omega
  have hN : (0 : ℝ) < w.length := by exact_mod_cast hpos
  have hax : -1 ≤ axis w.length k ∧ axis w.length k ≤ 1 := by
    have hk' : (k : ℝ) < w.length := by exact_mod_cast hk
    have h2 : 2 * (k : ℝ) / w.length ≤ 2 := by rw [div_le_iff₀ hN]; linarith
    have h0 : 0 ≤ 2 * (k : ℝ) / w.length := by positivity
    unfold axis
    push_cast
    constructor <;> linarith
  obtain ⟨g, vs, g', h1, h2, h3⟩ := C22_goertzel_dft w (axis w.length k) true hw hax calls hne
  refine ⟨g, vs, g', h1, h2, by rw [h3]; simp [blocks], ?_⟩
  intro m hm
  have hml : m * w.length + w.length ≤ calls.flatten.length := by
    have h1 : (m + 1) * w.length ≤ calls.flatten.length / w.length * w.length := Nat.mul_le_mul_right _ hm
    have h2 := Nat.div_mul_le_self calls.flatten.length w.length
    rw [Nat.add_mul, one_mul] at h1
    exact h1.trans h2
  obtain ⟨y, f, y1, y2, y3, y4⟩ := C41_fourier_axis_even (calls.flatten.drop (m * w.length)) w (by rw [List.length_drop]; omega) hw heven
  obtain ⟨fk, e1, e2, e3⟩ := y4 k hk
  have hfk : fk = axis w.length k := by rw [e2]; simp [axis]
  refine ⟨y, f, y1, hfk ▸ e1, ?_⟩
  rw [at0_of_getElem? _ _ _ e3, h3, hfk]
  rw [at0_of_lt _ _ (by simpa [blocks] using hm)]
  simp only [blocks, List.getElem_map, List.getElem_range, if_true]
  congr 1
  · unfold phasor; congr 1; push_cast; ring
  · simp only [dftSum, spectrumAt]
    rw [div_mul_eq_mul_div, one_mul]
    congr 1
    apply sum_congr rfl
    intro n hn
    rw [at0_take _ _ _ (mem_range.mp hn)]
    congr 1
    unfold phasor; congr 1; push_cast; ring

/-- A window of four samples and the bin at half the Nyquist frequency. -/
example : (∃ v ∈ ([1, 2, 2, 1] : List ℂ), 1e-8 < ‖v‖) ∧ Even ([1, 2, 2, 1] : List ℂ).length ∧ axis 4 3 = 1 / 2 := by
  refine ⟨⟨1, by simp, by rw [norm_one]; norm_num⟩, ⟨2, rfl⟩, ?_⟩
  norm_num [axis]

/-- C81.  The rows of a PsdTransform spectrogram are squared magnitudes of the nonnegative half of the FourierTransform of the frames. -/
theorem C81_psd_is_fourier (x b : List ℂ) (index : ℕ) (hi : 0 < index) (hlen : b.length ≤ x.length) (hb : ∃ v ∈ b, 1e-8 < ‖v‖) (heven : Even b.length) :
    ∃ y f, psd x b index true = .ok (.spectrogram y, f) ∧ y.length = (x.length - b.length) / index + 1 ∧ ∀ i < (x.length - b.length) / index + 1,
      ∃ r z fz, y[i]? = some r ∧ fourier (x.drop (i * index)) b false = .ok (z, fz) ∧
        ∀ k < b.length / 2, r[k]? = some (‖at0 z (b.length / 2 + k)‖ ^ 2) ∧ f[k]? = fz[b.length / 2 + k]? := by
  obtain ⟨y, f, h1, h2, h3⟩ := C42_psd_spectrogram x b index hi hlen hb
  have hpos : 0 < b.length := by obtain ⟨v, hv, -⟩ := hb; exact List.length_pos_of_mem hv
  refine ⟨y, f, h1, h2, fun i hii => ?_⟩
  obtain ⟨r, r1, r2, r3⟩ := h3 i hii
  have hil : i * index + b.length ≤ x.length := by
    have h1 : i * index ≤ (x.length - b.length) / index * index := Nat.mul_le_mul_right _ (by omega)
    have h2 := Nat.div_mul_le_self (x.length - b.length) index
    omega
  obtain ⟨z, fz, z1, z2, z3, z4⟩ := C41_fourier_axis_even (x.drop (i * index)) b (by rw [List.length_drop]; omega) hb heven
  refine ⟨r, z, fz, r1, z1, fun k hk => ?_⟩
  obtain ⟨h, hh⟩ := heven
  have hN : (b.length : ℝ) ≠ 0 := by exact_mod_cast hpos.ne'
  obtain ⟨fk, e1, e2, e3⟩ := z4 (b.length / 2 + k) (by omega)
  have hfk : fk = 2 * (k : ℝ) / b.length := by
    rw [e2]
    have : ((b.length / 2 + k : ℕ) : ℝ) = (b.length : ℝ) / 2 + k := by
      rw [show b.length / 2 = h by omega, hh]; push_cast; ring
    rw [this]; field_simp; ring
  constructor
  · rw [r3 k hk, at0_of_getElem? _ _ _ e3, framePower, hfk]
    congr 4
    funext n
    simp only [at0, List.getD_eq_getElem?_getD, List.getElem?_drop]
  · rw [C42_psd_axis_even x b index true _ f h1 ⟨h, hh⟩ k hk, e1, hfk]

/-- Three frames. -/
example := C81_psd_is_fourier [1, 2, 3, 4, 5, 6] [1, 1] 2 (by norm_num) (by simp) ⟨1, by simp, by rw [norm_one]; norm_num⟩ ⟨1, rfl⟩

/-- C81.  The sum of a mean PSD is at most the mean power of the windowed frames (Parseval, half of the bins). -/
theorem C81_psd_energy (x b : List ℂ) (index : ℕ) (hi : 0 < index) (hlen : b.length ≤ x.length) (hb : ∃ v ∈ b, 1e-8 < ‖v‖) (heven : Even b.length) :
    ∃ y f, psd x b index false = .ok (.mean y, f) ∧ y.sum ≤ (∑ i ∈ range ((x.length - b.length) / index + 1),
      (∑ n ∈ range b.length, ‖at0 b n * at0 x (i * index + n)‖ ^ 2) / b.length) / (((x.length - b.length) / index + 1 : ℕ) : ℝ) := by
  obtain ⟨y, f, h1, h2, -, h4⟩ := C42_psd_mean x b index hi hlen hb
  refine ⟨y, f, h1, ?_⟩
  have hpos : 0 < b.length := by obtain ⟨v, hv, -⟩ := hb; exact List.length_pos_of_mem hv
  set K := (x.length - b.length) / index + 1 with hK
  have hsum : y.sum = ∑ k ∈ range (b.length / 2), (∑ i ∈ range K, framePower x b index i k) / (K : ℝ) := by
    rw [← list_sum_range]
    congr 1
    apply List.ext_getElem
    · simp [h2]
    · intro k hk hk'
      obtain ⟨p, p1, -, p3⟩ := h4 k (by omega)
      rw [List.getElem?_eq_getElem hk, Option.some.injEq] at p1
      rw [p1, p3]; simp
  rw [hsum, ← sum_div, sum_comm]
  apply div_le_div_of_nonneg_right _ (Nat.cast_nonneg _)
  refine sum_le_sum fun i hii => ?_
  have hil : i * index + b.length ≤ x.length := by
    have h1 : i * index ≤ (x.length - b.length) / index * index := Nat.mul_le_mul_right _ (by have := mem_range.mp hii; omega)
    have h2 := Nat.div_mul_le_self (x.length - b.length) index
    omega
  obtain ⟨z, fz, z1, z2, z3, z4⟩ := C41_fourier_axis_even (x.drop (i * index)) b (by rw [List.length_drop]; omega) hb heven
  obtain ⟨z', fz', p1, p2⟩ := C41_fourier_parseval (x.drop (i * index)) b (by rw [List.length_drop]; omega) hb
  rw [z1] at p1
  simp only [Except.ok.injEq, Prod.mk.injEq] at p1
  rw [← p1.1] at p2
  obtain ⟨h, hh⟩ := heven
  have hN : (b.length : ℝ) ≠ 0 := by exact_mod_cast hpos.ne'
  have hdrop : ∀ n, at0 (x.drop (i * index)) n = at0 x (i * index + n) := by
    intro n; simp only [at0, List.getD_eq_getElem?_getD, List.getElem?_drop]
  simp only [hdrop] at p2
  rw [← p2]
  have hfp : ∀ k ∈ range (b.length / 2), framePower x b index i k = ‖at0 z (b.length / 2 + k)‖ ^ 2 := by
    intro k hk
    have hk' := mem_range.mp hk
    obtain ⟨fk, e1, e2, e3⟩ := z4 (b.length / 2 + k) (by omega)
    have hfk : fk = 2 * (k : ℝ) / b.length := by
      rw [e2]
      have : ((b.length / 2 + k : ℕ) : ℝ) = (b.length : ℝ) / 2 + k := by
        rw [show b.length / 2 = h by omega, hh]; push_cast; ring
      rw [this]; field_simp; ring
    rw [at0_of_getElem? _ _ _ e3, framePower, hfk]
    congr 3
    funext n
    exact (hdrop n).symm
  rw [sum_congr rfl hfp]
  have : range b.length = range (b.length / 2 + b.length / 2) := by congr 1; omega
  rw [this, sum_range_add]
  have : 0 ≤ ∑ k ∈ range (b.length / 2), ‖at0 z k‖ ^ 2 := sum_nonneg fun _ _ => by positivity
  linarith

/-- Three frames. -/
example := C81_psd_energy [1, 2, 3, 4, 5, 6] [1, 1] 2 (by norm_num) (by simp) ⟨1, by simp, by rw [norm_one]; norm_num⟩ ⟨1, rfl⟩

/-- C81.  The spectrum of a tone at a frequency of the axis, in a rectangular window: its amplitude in that bin and zero in all others. -/
theorem C81_fourier_tone (N : ℕ) (h2 : 2 ≤ N) (heven : Even N) (A : ℂ) (p : ℝ) (j : ℕ) (hj : j < N) :
    ∃ y f, fourier (tone A (axis N j) p N) (List.replicate N 1) false = .ok (y, f) ∧ y.length = N ∧
      ∀ k < N, y[k]? = some (if k = j then A * phasor p else 0) := by
  have hN : (N : ℂ) ≠ 0 := by exact_mod_cast (by omega : N ≠ 0)
  have hNr : (N : ℝ) ≠ 0 := by exact_mod_cast (by omega : N ≠ 0)
  obtain ⟨y, f, y1, y2, y3, y4⟩ := C41_fourier_axis_even (tone A (axis N j) p N) (List.replicate N 1) (by simp [tone])
    ⟨1, by simp; omega, by rw [norm_one]; norm_num⟩ (by simpa using heven)
  simp only [List.length_replicate] at y2 y3 y4
  refine ⟨y, f, y1, y2, fun k hk => ?_⟩
  obtain ⟨fk, -, e2, e3⟩ := y4 k hk
  rw [e3]
  congr 1
  unfold spectrumAt
  have hterm : ∀ n ∈ range N, at0 (List.replicate N (1 : ℂ)) n * at0 (tone A (axis N j) p N) n * phasor (-(fk * (n : ℝ))) =
      A * phasor p * turn ((n : ℂ) * ((j : ℂ) - (k : ℂ)) / (N : ℂ)) := by
    intro n hn
    have hn' := mem_range.mp hn
    rw [at0_of_lt _ _ (by simpa using hn'), at0_of_lt _ _ (by simpa [tone] using hn')]
    simp only [List.getElem_replicate, tone, List.getElem_map, List.getElem_range, one_mul]
    rw [mul_assoc, mul_assoc, ← phasor_add]
    congr 1
    rw [show p + axis N j * (n : ℝ) + -(fk * (n : ℝ)) = p + (axis N j - fk) * n by ring, phasor_add]
    congr 1
    rw [e2]
    unfold phasor turn axis
    congr 1
    push_cast
    field_simp
    ring
  rw [sum_congr rfl hterm, ← mul_sum, turn_orthogonal N j k hj hk]
  by_cases h : j = k
  · subst h; simp only [if_true]; field_simp
  · rw [if_neg h, if_neg (Ne.symm h)]; simp

/-- Frequency zero is on the axis of a window of length eight. -/
example : axis 8 4 = 0 := by norm_num [axis]

/-- C81.  The forward transform is linear. -/
theorem C81_fourier_linear (x z b : List ℂ) (hxz : x.length = z.length) (hlen : b.length ≤ x.length) (hb : ∃ v ∈ b, 1e-8 < ‖v‖) (α β : ℂ) :
    ∃ u v f, fourier x b false = .ok (u, f) ∧ fourier z b false = .ok (v, f) ∧ fourier (Spec.lin α β x z) b false = .ok (Spec.lin α β u v, f) := by
  have hb' : ¬ ∀ v ∈ b, isClose0 v := by
    obtain ⟨v, hv, hv1⟩ := hb
    exact fun h => absurd (h v hv) (not_le.mpr hv1)
  obtain ⟨u, f, u1, u2, u3, u4⟩ := fourier_forward x b hlen hb'
  obtain ⟨v, f', v1, v2, v3, v4⟩ := fourier_forward z b (hxz ▸ hlen) hb'
  have hll : (Spec.lin α β x z).length = x.length := by simp [Spec.lin]; omega
  obtain ⟨w, f'', w1, w2, w3, w4⟩ := fourier_forward (Spec.lin α β x z) b (by rw [hll]; exact hlen) hb'
  have hff : f' = f := by rw [u3, v3]
  have hff' : f'' = f := by rw [u3, w3]
  refine ⟨u, v, f, u1, hff ▸ v1, ?_⟩
  rw [w1, hff']
  have hat : ∀ (p q : List ℂ) n, p.length = q.length → at0 (Spec.lin α β p q) n = α * at0 p n + β * at0 q n := by
    intro p q n hpq
    by_cases hn : n < p.length
    · rw [at0_of_lt _ _ (by simp [Spec.lin]; omega), at0_of_lt _ _ hn, at0_of_lt _ _ (by omega)]; simp [Spec.lin]
    · rw [at0_of_le _ _ (by simp [Spec.lin]; omega), at0_of_le p _ (by omega), at0_of_le q _ (by omega)]; simp
  have hw : w = Spec.lin α β u v := by
    apply List.ext_getElem
    · simp [Spec.lin, u2, v2, w2]
    · intro k hk hk'
      have e := w4 k (by omega)
      have hl := hat u v k (by omega)
      rw [at0_of_lt _ _ hk] at e
      rw [at0_of_lt _ _ hk'] at hl
      rw [e, hl, u4 k (by omega), v4 k (by omega), mul_div_assoc', mul_div_assoc', ← add_div]
      congr 1
      rw [mul_sum, mul_sum, ← sum_add_distrib]
      apply sum_congr rfl
      intro n _
      rw [hat x z n hxz]; ring
  rw [hw]

/-- Two signals. -/
example := C81_fourier_linear [1, 2, 3] [0, I, 5] [1, 1] rfl (by simp) ⟨1, by simp, by rw [norm_one]; norm_num⟩ 2 I

/-- C81.  A real signal in a real window of even length has a conjugate symmetric spectrum about frequency zero. -/
theorem C81_fourier_real (x b : List ℂ) (hlen : b.length ≤ x.length) (hb : ∃ v ∈ b, 1e-8 < ‖v‖) (heven : Even b.length)
    (hx : ∀ v ∈ x, v.im = 0) (hbr : ∀ v ∈ b, v.im = 0) :
    ∃ y f, fourier x b false = .ok (y, f) ∧ ∀ k < b.length / 2, at0 y (b.length / 2 - k) = (starRingEnd ℂ) (at0 y (b.length / 2 + k)) := by
  obtain ⟨y, f, y1, y2, y3, y4⟩ := C41_fourier_axis_even x b hlen hb heven
  refine ⟨y, f, y1, fun k hk => ?_⟩
  obtain ⟨h, hh⟩ := heven
  have hpos : 0 < b.length := by omega
  have hN : (b.length : ℝ) ≠ 0 := by exact_mod_cast hpos.ne'
  obtain ⟨f1, -, a2, a3⟩ := y4 (b.length / 2 - k) (by omega)
  obtain ⟨f2, -, b2, b3⟩ := y4 (b.length / 2 + k) (by omega)
  have hf1 : f1 = -(2 * (k : ℝ) / b.length) := by
    rw [a2]
    have : ((b.length / 2 - k : ℕ) : ℝ) = (b.length : ℝ) / 2 - k := by
      rw [Nat.cast_sub hk.le, show b.length / 2 = h by omega, hh]; push_cast; ring
    rw [this]; field_simp; ring
  have hf2 : f2 = 2 * (k : ℝ) / b.length := by
    rw [b2]
    have : ((b.length / 2 + k : ℕ) : ℝ) = (b.length : ℝ) / 2 + k := by
      rw [show b.length / 2 = h by omega, hh]; push_cast; ring
    rw [this]; field_simp; ring
  have hreal : ∀ (l : List ℂ), (∀ v ∈ l, v.im = 0) → ∀ n, (starRingEnd ℂ) (at0 l n) = at0 l n := by
    intro l hl n
    rw [Complex.conj_eq_iff_im]
    by_cases hn : n < l.length
    · rw [at0_of_lt _ _ hn]; exact hl _ (List.getElem_mem hn)
    · rw [at0_of_le _ _ (by omega)]; rfl
  have hph : ∀ t : ℝ, (starRingEnd ℂ) (phasor t) = phasor (-t) := by
    intro t
    unfold phasor
    rw [← Complex.exp_conj]
    congr 1
    simp only [map_mul, Complex.conj_ofReal, Complex.conj_I]
    push_cast; ring
  rw [at0_of_getElem? _ _ _ a3, at0_of_getElem? _ _ _ b3, hf1, hf2]
  simp only [spectrumAt, map_div₀, map_sum, map_mul, hreal x hx, hreal b hbr, hph, Complex.conj_natCast]
  congr 1
  apply sum_congr rfl
  intro n _
  congr 2; ring

/-- A real signal of six samples and a real window of four, for the last five theorems. -/
example : ([1, 1, 1, 1] : List ℂ).length ≤ ([1, 2, 3, 4, 5, 6] : List ℂ).length ∧ (∃ v ∈ ([1, 1, 1, 1] : List ℂ), 1e-8 < ‖v‖) ∧
    Even ([1, 1, 1, 1] : List ℂ).length ∧ (∀ v ∈ ([1, 2, 3, 4, 5, 6] : List ℂ), v.im = 0) ∧ ∀ v ∈ ([1, 1, 1, 1] : List ℂ), v.im = 0 := by
  refine ⟨by simp, ⟨1, by simp, by rw [norm_one]; norm_num⟩, ⟨2, rfl⟩, ?_, by simp⟩
  simp

end Verif.Props
