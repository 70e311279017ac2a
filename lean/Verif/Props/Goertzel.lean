import Verif.Lemmas.Goertzel
import Verif.Model.GoertzelC
import Mathlib.RingTheory.PowerSeries.WellKnown

/-
Properties C22–C24 of GoertzelFilter (diamondback/filters/goertzel_filter.py).
-/

namespace Verif.Props

open Finset Spec Complex

/-- C23, in any arithmetic: on a freshly built filter (zero state `i0`, window `w`), any sequence of nonempty calls
returns, in total, exactly one value per full block of `len(w)` samples of the concatenated signal; every value is the
same function of its own block; no call raises (in particular the output buffer never overflows). -/
theorem C23_goertzel_blocks {R F : Type*} [Zero R] [Add R] [Mul R] [Dot R] (g : Goertzel R F) (gain : ℕ → R)
    (hwf : g.iir.WF) (hz : g.iir.Zeroed) (hi : g.index = 0) (hw : g.w ≠ []) :
    ∃ F' : List R → R, ∀ calls : List (List R), (∀ c ∈ calls, c ≠ []) →
      ∃ vs g', callChunks (Goertzel.filter gain) g calls = (.ok vs, g') ∧
        vs = (blocks g.w.length calls.flatten).map F' ∧ g'.index = calls.flatten.length % g.w.length := by
  have hN : 0 < g.w.length := List.length_pos_iff.mpr hw
  have hinv : g.Inv g.iir (gain g.w.length) [] := by
    refine ⟨hwf, hz, by simp [hi], by simpa using hN, ?_⟩
    simp [feed, weighted, runLoop]
  refine ⟨fun blk => (blockValue g.iir (gain g.w.length) g.w blk).getD 0, fun calls hne => ?_⟩
  obtain ⟨vs, g', h1, h2, h3, h4, h5⟩ := Goertzel.chunks_spec g.iir gain calls g [] hinv hne
  refine ⟨vs, g', h1, ?_, ?_⟩
  · simp only [List.nil_append] at h4
    have : vs = (vs.map some).map (fun o => o.getD 0) := by simp [List.map_map, Function.comp_def]
    rw [this, h4, List.map_map]
    rfl
  · rw [h5.2.2.1, rest_length, List.nil_append]

/-- An integer instance at frequency 0 (window (1, 1)). -/
example := C23_goertzel_blocks (F := Unit) (⟨⟨id, [0, 2, -1], [1, -1, 0], [0, 0, 0]⟩, 0, [1, 1], ()⟩ : Goertzel ℤ Unit) (fun _ => 1) ⟨rfl, rfl, by decide⟩ rfl rfl (by simp)

/-- C23.  Number of values returned by one call when `g.index` samples are already buffered.  The buffered samples
`pre` are those of an incomplete block fed to a filter in zero state. -/
theorem C23_goertzel_count {R F : Type*} [Zero R] [Add R] [Mul R] [Dot R] (g : Goertzel R F) (gain : ℕ → R)
    (hwf : g.iir.WF) (hz : g.iir.Zeroed) (hi : g.index = 0) (hw : g.w ≠ []) (calls : List (List R))
    (hne : ∀ c ∈ calls, c ≠ []) (x : List R) (hx : x ≠ []) :
    ∃ vs g' ys g'', callChunks (Goertzel.filter gain) g calls = (.ok vs, g') ∧ g'.filter gain x = (.ok ys, g'') ∧
      ys.length = (g'.index + x.length) / g.w.length ∧ g''.index = (g'.index + x.length) % g.w.length := by
  have hN : 0 < g.w.length := List.length_pos_iff.mpr hw
  have hinv : g.Inv g.iir (gain g.w.length) [] := by
    refine ⟨hwf, hz, by simp [hi], by simpa using hN, ?_⟩
    simp [feed, weighted, runLoop]
  obtain ⟨vs, g', h1, h2, h3, h4, h5⟩ := Goertzel.chunks_spec g.iir gain calls g [] hinv hne
  obtain ⟨ys, g'', k1, k2, k3, k4, k5⟩ := Goertzel.filter_spec g.iir gain g' _ x (by rw [h2]; exact h5) hx
  refine ⟨vs, g', ys, g'', h1, k1, ?_, ?_⟩
  · have := congrArg List.length k4
    rw [List.length_map, List.length_map, blocks_length, List.length_append, h2] at this
    rw [this, h5.2.2.1]
  · rw [k5.2.2.1, rest_length, List.length_append, h2, h5.2.2.1]

/-- The hypotheses of both C23 theorems hold for an integer instance at frequency 0 (window (1, 1)); three calls. -/
example : ∃ g : Goertzel ℤ Unit, g.iir.WF ∧ g.iir.Zeroed ∧ g.index = 0 ∧ g.w ≠ [] ∧
    (callChunks (Goertzel.filter (fun _ => 1)) g [[1], [2, 3], [4, 5]]).1 = .ok [3, 7] :=
  ⟨⟨⟨id, [0, 2, -1], [1, -1, 0], [0, 0, 0]⟩, 0, [1, 1], ()⟩, ⟨rfl, rfl, by decide⟩, rfl, rfl, by decide, rfl⟩

/-- What the constructor yields. -/
theorem Goertzel.new_spec (b : List ℂ) (f : ℝ) (hb : ∃ v ∈ b, 1e-8 < ‖v‖) (hf : -1 ≤ f ∧ f ≤ 1) :
    Goertzel.new b f = .ok ⟨⟨id, [0, goertzelC f, -1], [1, -(goertzelE f), 0], [0, 0, 0]⟩, 0, b, f⟩ := by
  have h1 : ¬ (b.length = 0 ∨ allClose0 b) := by
    obtain ⟨v, hv, hn⟩ := hb
    rintro (h | h)
    · have := List.length_pos_of_mem hv; omega
    · rw [allClose0, decide_eq_true_eq] at h
      exact absurd (h v hv) (not_le.mpr hn)
  have h2 : inUnit f = true := by
    rw [inUnit, decide_eq_true_eq]
    rintro (h | h)
    · linarith [hf.1]
    · linarith [hf.2]
  simp only [Goertzel.new, Goertzel.make, h1, h2, if_false, not_true]
  simp [Iir.new, Fir.new, padTo]

/-- The spectral sum of one block, written without reference to the filter. -/
noncomputable def dftSum (c : ℂ) (f : ℝ) (w x : List ℂ) : ℂ :=
  c / w.length * ∑ k ∈ range w.length, at0 w k * at0 x k * cexp (-(I * Real.pi * f * k))

theorem geom_mul (E : ℂ) : (1 - ser [0, E]) * PowerSeries.mk (fun n => E ^ n) = 1 := by
  ext n
  rw [sub_mul, one_mul, map_sub, PowerSeries.coeff_mk, PowerSeries.coeff_mul,
    Finset.Nat.sum_antidiagonal_eq_sum_range_succ_mk]
  simp only [coeff_ser, PowerSeries.coeff_mk]
  rcases n with _ | n
  · simp [at0]
  · rw [sum_range_succ', sum_range_succ']
    rw [sum_eq_zero (fun i _ => by simp [at0])]
    simp [at0, PowerSeries.coeff_one]
    ring

theorem ser_factor (E E' c : ℂ) (h1 : E * E' = 1) (h2 : E + E' = c) :
    1 - ser [0, c, -1] = (1 - ser [0, E]) * (1 - ser [0, E']) := by
  have hmono : ∀ p : ℂ, ser [0, p] = PowerSeries.C p * PowerSeries.X := by
    intro p; ext n
    rw [coeff_ser, PowerSeries.coeff_C_mul, PowerSeries.coeff_X]
    rcases n with _ | _ | n <;> simp [at0]
  have h3 : ser [0, c, -1] = PowerSeries.C c * PowerSeries.X - PowerSeries.X ^ 2 := by
    ext n
    rw [coeff_ser, map_sub, PowerSeries.coeff_C_mul, PowerSeries.coeff_X, PowerSeries.coeff_X_pow]
    rcases n with _ | _ | _ | n <;> simp [at0]
  have h4 : (PowerSeries.C E * PowerSeries.C E' : PowerSeries ℂ) = 1 := by rw [← map_mul, h1, map_one]
  rw [h3, hmono, hmono, ← h2, map_add]
  linear_combination (-(PowerSeries.X : PowerSeries ℂ)^2) * h4

/-- C22.  Every value returned by a fresh `GoertzelFilter(w, f)`, for any chunking of the signal, is the windowed DFT
sum of its block at frequency `f`, times the unit factor `e^{jπf(N-1)}`; the gain is 2 for real signals and 1 for complex
ones. -/
theorem C22_goertzel_dft (w : List ℂ) (f : ℝ) (isComplex : Bool) (hw : ∃ v ∈ w, 1e-8 < ‖v‖) (hf : -1 ≤ f ∧ f ≤ 1)
    (calls : List (List ℂ)) (hne : ∀ c ∈ calls, c ≠ []) :
    ∃ g vs g', Goertzel.new w f = .ok g ∧
      callChunks (Goertzel.filter (goertzelGain isComplex)) g calls = (.ok vs, g') ∧
      vs = (blocks w.length calls.flatten).map (fun blk =>
        cexp (I * Real.pi * f * (w.length - 1)) * dftSum (if isComplex then 1 else 2) f w blk) := by
  have hnew := Goertzel.new_spec w f hw hf
  set i0 : Iir ℂ := ⟨id, [0, goertzelC f, -1], [1, -(goertzelE f), 0], [0, 0, 0]⟩ with hi0
  set g : Goertzel ℂ ℝ := ⟨i0, 0, w, f⟩ with hg
  have hwf : i0.WF := ⟨by simp [hi0], by simp [hi0], by simp [hi0]⟩
  have hz : i0.Zeroed := by simp [Iir.Zeroed, hi0]
  have hN : 0 < w.length := by obtain ⟨v, hv, _⟩ := hw; exact List.length_pos_of_mem hv
  have hinv : g.Inv i0 (goertzelGain isComplex g.w.length) [] := by
    refine ⟨hwf, hz, rfl, by simpa [hg] using hN, ?_⟩
    simp [feed, weighted, runLoop, hg]
  obtain ⟨vs, g', h1, h2, h3, h4, h5⟩ := Goertzel.chunks_spec i0 (goertzelGain isComplex) calls g [] hinv hne
  refine ⟨g, vs, g', hnew, h1, ?_⟩
  have hvs : vs = (vs.map some).map (fun o => o.getD 0) := by simp [List.map_map, Function.comp_def]
  rw [hvs, h4, List.map_map, List.nil_append]
  apply List.map_congr_left
  intro blk hblk
  -- the block has full length
  have hbl : blk.length = w.length := by
    simp only [blocks, List.mem_map, List.mem_range, hg] at hblk
    obtain ⟨m, hm, rfl⟩ := hblk
    rw [List.length_take, List.length_drop]
    have : (m + 1) * w.length ≤ calls.flatten.length :=
      le_trans (Nat.mul_le_mul_right _ hm) (Nat.div_mul_le_self _ _)
    rw [Nat.succ_mul] at this
    omega
  simp only [Function.comp, hg]
  set u := goertzelGain isComplex w.length with hu
  set v := weighted u w blk with hv
  have hvl : v.length = w.length := by simp [hv, weighted, hbl]
  have hvne : v ≠ [] := by intro h; rw [h] at hvl; simp at hvl; omega
  have hvat : ∀ k, at0 v k = u * at0 w k * at0 blk k := by
    intro k
    by_cases hk : k < w.length
    · rw [at0_of_lt _ _ (by omega), at0_of_lt _ _ hk, at0_of_lt _ _ (by omega)]
      simp [hv, weighted]
    · rw [at0_of_le _ _ (by omega), at0_of_le w _ (by omega)]; simp
  obtain ⟨ys, f', k1, k2, k3⟩ := Iir.filter_series i0 hwf rfl rfl (by simp [hi0]) v hvne
  have hvl0 : v.length ≠ 0 := by omega
  have hfeed : feed i0 u w blk = (.ok ys, f') := by
    rw [feed, ← hv]
    simpa [Iir.filter, hvl0] using k1
  have hlast : ys.getLast? = ys[w.length - 1]? := by rw [List.getLast?_eq_getElem?, k2, hvl]
  rw [blockValue, hfeed]
  simp only [hlast]
  rw [k3 (w.length - 1) (by omega)]
  simp only [Option.getD_some]
  -- the transfer function is a geometric series
  set E := cexp (I * Real.pi * f) with hE
  have hE' : goertzelE f = E⁻¹ := by rw [goertzelE, hE, ← Complex.exp_neg]
  have hEne : E ≠ 0 := Complex.exp_ne_zero _
  have hEE : E * goertzelE f = 1 := by rw [hE']; exact mul_inv_cancel₀ hEne
  have hsum : E + goertzelE f = goertzelC f := by
    rw [goertzelC, goertzelE, hE, Complex.ofReal_cos, Complex.cos]
    push_cast
    rw [show I * (Real.pi : ℂ) * f = (Real.pi : ℂ) * f * I by ring,
      show -((Real.pi : ℂ) * f * I) = -((Real.pi : ℂ) * f) * I by ring]
    ring
  have hfac := ser_factor E (goertzelE f) (goertzelC f) hEE hsum
  have hb : ser i0.b = 1 - ser [0, goertzelE f] := by
    ext n
    rw [coeff_ser, map_sub, coeff_ser, PowerSeries.coeff_one]
    rcases n with _ | _ | _ | n <;> simp [hi0, at0]
  have hH : ser i0.b * recip i0.a = PowerSeries.mk (fun n => E ^ n) := by
    have hr := mul_recip i0.a (by simp [hi0, at0])
    have hg2 := geom_mul E
    have ha : (1 - ser i0.a) = (1 - ser [0, E]) * (1 - ser [0, goertzelE f]) := hfac
    rw [hb]
    rw [ha] at hr
    calc (1 - ser [0, goertzelE f]) * recip i0.a
        = ((1 - ser [0, E]) * PowerSeries.mk (fun n => E ^ n)) * ((1 - ser [0, goertzelE f]) * recip i0.a) := by
          rw [hg2, one_mul]
      _ = ((1 - ser [0, E]) * (1 - ser [0, goertzelE f]) * recip i0.a) * PowerSeries.mk (fun n => E ^ n) := by ring
      _ = _ := by rw [hr, one_mul]
  rw [← mul_assoc, hH, mul_comm, PowerSeries.coeff_mul, Finset.Nat.sum_antidiagonal_eq_sum_range_succ_mk]
  simp only [coeff_ser, PowerSeries.coeff_mk, hvat]
  rw [show (w.length - 1).succ = w.length by omega]
  have hgain : u = (if isComplex then 1 else 2) / (w.length : ℂ) := by
    rw [hu, goertzelGain]; cases isComplex <;> norm_num
  rw [dftSum, hgain, mul_sum, mul_sum]
  apply sum_congr rfl
  intro k hk
  have hk' : k < w.length := mem_range.mp hk
  have hpow : E ^ (w.length - 1 - k) = cexp (I * Real.pi * f * (w.length - 1)) * cexp (-(I * Real.pi * f * k)) := by
    rw [hE, ← Complex.exp_nat_mul, ← Complex.exp_add]
    congr 1
    push_cast [Nat.cast_sub (show k ≤ w.length - 1 by omega), Nat.cast_sub (show 1 ≤ w.length by omega)]
    ring
  rw [hpow]; ring

example := C22_goertzel_dft [1, 2] (1 / 4) true ⟨1, by simp, by norm_num⟩ (by norm_num) [[1, 2, 3], [Complex.I]] (by simp)

/-- The phase factor of C22 has unit magnitude, so the magnitude of each output is that of the DFT sum. -/
theorem C22_goertzel_phase_unit (f : ℝ) (n : ℕ) : ‖cexp (I * Real.pi * f * (n - 1))‖ = 1 := by
  rw [Complex.norm_exp]
  simp

/-- The hypotheses of `C22_goertzel_dft` hold for a two-point window and three calls. -/
example : (∃ v ∈ ([1, 1] : List ℂ), 1e-8 < ‖v‖) ∧ (-1 : ℝ) ≤ 1/2 ∧ (1/2 : ℝ) ≤ 1 ∧
    ∀ c ∈ ([[1], [2, 3], [4]] : List (List ℂ)), c ≠ [] := by
  refine ⟨⟨1, by simp, by norm_num⟩, by norm_num, by norm_num, by simp⟩

/-- C24, refuted: assigning `frequency` changes nothing in what later calls return; the new value is only stored. -/
theorem C24_frequency_setter_does_not_retune (g : Goertzel ℂ ℝ) (f' : ℝ) (hf : -1 ≤ f' ∧ f' ≤ 1)
    (isComplex : Bool) (x : List ℂ) :
    ∃ g', g.setFrequency inUnit f' = (.ok (), g') ∧ g'.frequency = f' ∧
      (g'.filter (goertzelGain isComplex) x).1 = (g.filter (goertzelGain isComplex) x).1 := by
  have h2 : inUnit f' = true := by
    rw [inUnit, decide_eq_true_eq]
    rintro (h | h)
    · linarith [hf.1]
    · linarith [hf.2]
  refine ⟨{ g with frequency := f' }, by simp [Goertzel.setFrequency, h2], rfl, ?_⟩
  have hstep : ∀ (u : ℂ) (g : Goertzel ℂ ℝ) (v : ℂ),
      Goertzel.step u { g with frequency := f' } v = ((g.step u v).1, { (g.step u v).2 with frequency := f' }) := by
    intro u g v
    simp only [Goertzel.step]
    rcases g.w[g.index]? with _ | wi
    · rfl
    · simp only
      rcases Iir.filter g.iir [u * wi * v] with ⟨_ | ys, i'⟩
      · rfl
      · simp only
        split
        · cases ys <;> rfl
        · rfl
  have hloop : ∀ (u : ℂ) (cap : ℕ) (xs : List ℂ) (g : Goertzel ℂ ℝ) (acc : List ℂ),
      (Goertzel.loop u cap { g with frequency := f' } acc xs).1 = (Goertzel.loop u cap g acc xs).1 := by
    intro u cap xs
    induction xs with
    | nil => intro g acc; rfl
    | cons v xs ih =>
      intro g acc
      simp only [Goertzel.loop, hstep]
      rcases g.step u v with ⟨_ | _ | o, g1⟩
      · rfl
      · exact ih g1 acc
      · simp only
        split
        · exact ih g1 _
        · rfl
  simp only [Goertzel.filter]
  split
  · rfl
  · exact hloop _ _ _ _ _

/-- Half of the limit frequency. -/
example (g : Goertzel ℂ ℝ) := C24_frequency_setter_does_not_retune g (1 / 2) (by norm_num) true [1, 2, 3]

/-- C24, witness: a filter built for `f = 0`, assigned `f = 1`, still evaluates at 0: for the block `(1, 1)` it returns
the sum at `f = 0`, whose magnitude 2 differs from the magnitude 0 of the sum at `f = 1`. -/
theorem C24_retune_witness : ∃ g g' y, Goertzel.new [1, 1] 0 = .ok g ∧ g.setFrequency inUnit 1 = (.ok (), g') ∧
    (g'.filter (goertzelGain false) [1, 1]).1 = .ok [y] ∧ ‖y‖ ≠ ‖dftSum 2 1 [1, 1] [1, 1]‖ := by
  obtain ⟨g, vs, g2, h1, h2, h3⟩ := C22_goertzel_dft [1, 1] 0 false ⟨1, by simp, by norm_num⟩ (by norm_num)
    [[1, 1]] (by simp)
  obtain ⟨g', k1, k2, k3⟩ := C24_frequency_setter_does_not_retune g 1 (by norm_num) false [1, 1]
  have hv : vs = [2] := by
    rw [h3]
    simp [blocks, dftSum, sum_range_succ, at0, List.range_succ]
    norm_num
  have hfil : (g.filter (goertzelGain false) [1, 1]).1 = .ok vs := by
    simp only [callChunks] at h2
    rcases hq : g.filter (goertzelGain false) [1, 1] with ⟨_ | ys, g3⟩
    · rw [hq] at h2; simp at h2
    · rw [hq] at h2; simp at h2; rw [h2.1]
  refine ⟨g, g', 2, h1, k1, by rw [k3, hfil, hv], ?_⟩
  have : dftSum 2 1 [1, 1] [1, 1] = 0 := by
    simp [dftSum, sum_range_succ, at0]
    rw [show -(I * (Real.pi : ℂ)) = -(Real.pi * I) by ring, Complex.exp_neg, Complex.exp_pi_mul_I]
    norm_num
  rw [this]; simp

/-- C24, proved part: the setter accepts exactly `[-1, 1]`, a rejected value changes nothing, and a filter *constructed*
with a frequency evaluates every block at it (C22).  Missing for the full claim: that a filter assigned a frequency
evaluates at the assigned value, which is false (`C24_retune_witness`). -/
theorem C24_frequency_setter_partial (g : Goertzel ℂ ℝ) (f' : ℝ) :
    (-1 ≤ f' ∧ f' ≤ 1 → g.setFrequency inUnit f' = (.ok (), { g with frequency := f' })) ∧
    (¬ (-1 ≤ f' ∧ f' ≤ 1) → g.setFrequency inUnit f' = (.error .valueError, g)) := by
  constructor
  · intro hf
    have h2 : inUnit f' = true := by
      rw [inUnit, decide_eq_true_eq]
      rintro (h | h)
      · linarith [hf.1]
      · linarith [hf.2]
    simp [Goertzel.setFrequency, h2]
  · intro hf
    have h2 : inUnit f' = false := by
      rw [inUnit, decide_eq_false_iff_not, not_not]
      by_contra h
      push Not at h
      exact hf h
    simp [Goertzel.setFrequency, h2]

end Verif.Props
