import Verif.Props.Adaptive
import Verif.Props.Rank
import Verif.Props.Iir
import Verif.Props.Pid
import Verif.Props.Goertzel
import Verif.Props.Fourier
import Verif.Props.Diversity
import Verif.Props.PolyRate
import Verif.Props.Tables
import Verif.Props.ZTransform

/- Property C101: arguments out of the documented range are refused with ValueError, the instance is unchanged, and all others are accepted. -/

namespace Verif.Props

open Verif Verif.Spec

/-- C101: an empty signal is refused by each filter, and the state is kept. -/
theorem C101_empty_signal {R K F : Type*} [Field R] [Dot R] [LT K] [DecidableLT K] (iir : Iir R) (rank : Rank R) (argsort : List K → List ℕ) (key : R → K) (pid : Pid R K) (mag : R → K)
    (goertzel : Goertzel R F) (gain : ℕ → R) (hilbert : List ℂ → List ℂ) (band : Bandpass) (freq : FreqF) (osc : CExp) :
    iir.filter [] = (.error .valueError, iir) ∧ rank.filter argsort key [] = (.error .valueError, rank) ∧ pid.filter mag [] = (.error .valueError, pid) ∧
    goertzel.filter gain [] = (.error .valueError, goertzel) ∧ band.filter hilbert [] = (.error .valueError, band) ∧ freq.filter hilbert [] = (.error .valueError, freq) ∧
    osc.filter [] = (.error .valueError, osc) := by
  refine ⟨rfl, rfl, rfl, rfl, ?_, ?_, ?_⟩
  · simp [Bandpass.filter]
  · simp [FreqF.filter]
  · simp [CExp.filter]

/-- C101: reset takes a scalar only. -/
theorem C101_reset {R : Type*} [Field R] (iir : Iir R) (rank : Rank R) (freq : FreqF) :
    iir.reset .nonScalar = (.error .valueError, iir) ∧ rank.reset .nonScalar = (.error .valueError, rank) ∧ freq.reset .nonScalar = (.error .valueError, freq) :=
  ⟨rfl, rfl, rfl⟩

example := C101_reset (⟨id, [0, 1 / 2], [1, 2], [0, 3]⟩ : Iir ℚ) ⟨[1, 2, 3], 1⟩

/-- C101: ComplexFrequencyFilter.reset with a scalar is accepted; the state is the direction of the scalar, and one for a scalar which numpy.isclose takes
for zero, the bound included. -/
theorem C101_frequency_reset (freq : FreqF) (x : ℂ) :
    (‖x‖ ≤ 1 / 10 ^ 8 → freq.reset (.scalar x) = (.ok (), { freq with s := 1 })) ∧ (1 / 10 ^ 8 < ‖x‖ → freq.reset (.scalar x) = (.ok (), { freq with s := x / ‖x‖ })) := by
  have e : (1e-8 : ℝ) = 1 / 10 ^ 8 := by norm_num
  unfold FreqF.reset
  rw [e]
  dsimp only
  exact ⟨fun h => by rw [if_pos h], fun h => by rw [if_neg (not_le.mpr h)]⟩

example : FreqF.reset ⟨1, 1, 0, 1⟩ (.scalar (((1 / 10 ^ 8 : ℝ)) : ℂ)) = (.ok (), ⟨1, 1, 0, 1⟩) :=
  (C101_frequency_reset ⟨1, 1, 0, 1⟩ _).1 (by rw [Complex.norm_real]; norm_num)

/-- C101: phase, frequency and rate of the complex filters. -/
theorem C101_complex (v w : ℝ) (osc : CExp) (band : Bandpass) (freq : FreqF) :
    ((-1 ≤ v ∧ v ≤ 1) → CExp.new v = .ok ⟨v⟩ ∧ osc.setPhase v = (.ok (), ⟨v⟩) ∧ band.setFrequency v = (.ok (), { band with frequency := v }) ∧
      freq.setFrequency v = (.ok (), { freq with frequency := v, b := Complex.exp (Complex.I * Real.pi * v) })) ∧
    (¬ (-1 ≤ v ∧ v ≤ 1) → CExp.new v = .error .valueError ∧ osc.setPhase v = (.error .valueError, osc) ∧ band.setFrequency v = (.error .valueError, band) ∧
      freq.setFrequency v = (.error .valueError, freq)) ∧
    ((0 ≤ w ∧ w ≤ 1) → band.setRate w = (.ok (), { band with rate := w }) ∧ freq.setRate w = (.ok (), { freq with rate := w })) ∧
    (¬ (0 ≤ w ∧ w ≤ 1) → band.setRate w = (.error .valueError, band) ∧ freq.setRate w = (.error .valueError, freq)) ∧
    ((-1 ≤ v ∧ v ≤ 1) → (0 ≤ w ∧ w ≤ 1) → (∃ f, Bandpass.new v w = .ok f ∧ f.frequency = v ∧ f.rate = w ∧ f.osc.phase = 0 ∧ f.b = (2 : ℂ)⁻¹ ^ 52) ∧
      ∃ f, FreqF.new v w = .ok f ∧ f.frequency = v ∧ f.rate = w ∧ f.s = 1) ∧
    (¬ ((-1 ≤ v ∧ v ≤ 1) ∧ 0 ≤ w ∧ w ≤ 1) → Bandpass.new v w = .error .valueError ∧ FreqF.new v w = .error .valueError) := by
  have e1 : (v < -1 ∨ v > 1) ↔ ¬ (-1 ≤ v ∧ v ≤ 1) := by rw [not_and_or, not_le, not_le]
  have e2 : (w < 0 ∨ w > 1) ↔ ¬ (0 ≤ w ∧ w ≤ 1) := by rw [not_and_or, not_le, not_le]
  simp only [CExp.new, CExp.setPhase, Bandpass.setFrequency, FreqF.setFrequency, Bandpass.setRate, FreqF.setRate, Bandpass.new, FreqF.new, e1, e2]
  refine ⟨fun h => ?_, fun h => ?_, fun h => ?_, fun h => ?_, fun h g => ?_, fun h => ?_⟩
  · simp [h]
  · simp only [h, not_false_eq_true, if_true, and_self]
  · simp [h]
  · simp only [h, not_false_eq_true, if_true, and_self]
  · simp [h, g, eps]
  · by_cases h1 : -1 ≤ v ∧ v ≤ 1
    · have h2 : ¬ (0 ≤ w ∧ w ≤ 1) := fun h2 => h ⟨h1, h2⟩
      simp only [h1, h2, not_true_eq_false, not_false_eq_true, if_true, if_false, and_self]
    · simp only [h1, not_false_eq_true, if_true, and_self]

/-- C101: a window which is empty or close to zero, and a frequency out of range, are refused by GoertzelFilter. -/
theorem C101_goertzel {R F : Type*} [Zero R] [One R] [Neg R] [DecidableEq R] (allZero : List R → Bool) (inRange : F → Bool) (c e : F → R) (b : List R) (f : F) :
    (∃ g, Goertzel.make allZero inRange c e b f = .ok g ∧ g.w = b ∧ g.frequency = f ∧ g.index = 0) ∧ b ≠ [] ∧ allZero b = false ∧ inRange f = true ∨
    Goertzel.make allZero inRange c e b f = .error .valueError ∧ (b = [] ∨ allZero b = true ∨ inRange f = false) := by
  unfold Goertzel.make
  by_cases h1 : b = []
  · right; simp [h1]
  by_cases h2 : allZero b = true
  · right; simp [h2]
  by_cases h3 : inRange f = true
  · left
    simp [h1, h2, h3, Iir.new, padTo, Fir.new]
  · right; simp [h1, h2, h3]

/-- C101: signal, window and index of PsdTransform. -/
theorem C101_psd (x b : List ℂ) (index : ℕ) (spectrogram : Bool) :
    (∃ y, psd x b index spectrogram = .ok y) ∧ (x ≠ [] ∧ (∃ v ∈ b, 1e-8 < ‖v‖) ∧ b.length ≤ x.length ∧ 0 < index) ∨
    psd x b index spectrogram = .error .valueError ∧ ¬ (x ≠ [] ∧ (∃ v ∈ b, 1e-8 < ‖v‖) ∧ b.length ≤ x.length ∧ 0 < index) := by
  unfold psd
  by_cases h1 : x = []
  · right; simp [h1]
  have h1' : x.length ≠ 0 := by simpa using h1
  by_cases h2 : ∃ v ∈ b, 1e-8 < ‖v‖
  · have h2' : ¬ (b.length = 0 ∨ ∀ v ∈ b, isClose0 v) := by
      rintro (h | h)
      · obtain ⟨v, hv, -⟩ := h2
        rw [List.length_eq_zero_iff] at h
        rw [h] at hv; simp at hv
      · obtain ⟨v, hv, hn⟩ := h2
        have := h v hv
        rw [isClose0] at this
        linarith
    by_cases h3 : b.length ≤ x.length
    · by_cases h4 : index = 0
      · right; simp [h1', h3, h4]
      · left
        refine ⟨?_, h1, h2, h3, by omega⟩
        rw [if_neg h1', if_neg h2', if_neg (by omega), if_neg h4]
        split <;> exact ⟨_, rfl⟩
    · right
      rw [if_neg h1', if_neg h2', if_pos (by omega)]
      exact ⟨rfl, fun h => h3 h.2.2.1⟩
  · right
    have h2' : b.length = 0 ∨ ∀ v ∈ b, isClose0 v := by
      right
      intro v hv
      rw [isClose0]
      by_contra hn
      exact h2 ⟨v, hv, not_le.mp hn⟩
    rw [if_neg h1', if_pos h2']
    exact ⟨rfl, fun h => h2 h.2.1⟩

/-- C101: signal and window of FourierTransform. -/
theorem C101_fourier (x b : List ℂ) (inverse : Bool) (h : x = [] ∨ b = [] ∨ x.length < b.length ∨ ∀ v ∈ b, ‖v‖ ≤ 1e-8) : fourier x b inverse = .error .valueError := by
  unfold fourier
  by_cases h1 : x.length = 0
  · rw [if_pos h1]
  rw [if_neg h1, if_pos]
  rcases h with h | h | h | h
  · simp [h] at h1
  · right; simp [h]
  · exact .inl h
  · exact .inr h

/-- A window longer than the signal. -/
example := C101_fourier [1, 2] [1, 1, 1] true (.inr (.inr (.inl (by simp))))

/-- C101: style and order of DiversityModel. -/
theorem C101_diversity (style : Option (List ℝ → List ℝ → WithTop ℝ)) (order : ℤ) : Diversity.new style order = .error .valueError ↔ style = none ∨ order < 0 := by
  unfold Diversity.new
  rcases style with _ | d
  · simp
  · by_cases h : order < 0 <;> simp [h]

example : Diversity.new none 3 = .error .valueError ∧ Diversity.new (some fun _ _ => 1) 3 ≠ .error .valueError :=
  ⟨(C101_diversity none 3).mpr (.inl rfl), fun h => by simpa using (C101_diversity _ 3).mp h⟩

/-- C101: rate and order of PolynomialRateFilter. -/
theorem C101_polynomial_rate (p : PolyRate) (rate : ℝ) (order : ℤ) :
    p.setRate rate = (if 0 ≤ rate then (.ok (), { p with rate := rate }) else (.error .valueError, p)) ∧
    p.setOrder order = (if 0 < order then (.ok (), { p with order := order }) else (.error .valueError, p)) ∧
    PolyRate.new rate order = (if 0 ≤ rate ∧ 0 < order then .ok { order := order, rate := rate } else .error .valueError) := by
  unfold PolyRate.setRate PolyRate.setOrder PolyRate.new
  refine ⟨?_, ?_, ?_⟩
  · by_cases h : rate < 0
    · rw [if_pos h, if_neg (not_le.mpr h)]
    · rw [if_neg h, if_pos (not_lt.mp h)]
  · by_cases h : order ≤ 0
    · rw [if_pos h, if_neg (not_lt.mpr h)]
    · rw [if_neg h, if_pos (not_le.mp h)]
  · by_cases h : rate < 0
    · rw [if_pos h, if_neg (fun g => absurd g.1 (not_le.mpr h))]
    · by_cases g : order ≤ 0
      · rw [if_neg h, if_pos g, if_neg (fun k => absurd k.2 (not_lt.mpr g))]
      · rw [if_neg h, if_neg g, if_pos ⟨not_lt.mp h, not_le.mp g⟩]

/-- C101: order of IntegralFilter. -/
theorem C101_integral {K : Type*} [Field K] [DecidableEq K] (order : ℤ) : (Integral.new order : Res (Iir K)) = .error .valueError ↔ ¬ (0 ≤ order ∧ order ≤ 4) := by
  by_cases h : 0 ≤ order ∧ order ≤ 4
  · obtain ⟨h0, h1⟩ := h
    interval_cases order <;> simp [Integral.new, Integral.table, Iir.new, padTo, Fir.new, scaled]
  · have : (Integral.table order : Option (List K)) = none := by
      unfold Integral.table
      split <;> first | rfl | omega
    simp [Integral.new, this, h]

/-- C101: ZTransform refuses zero arrays and frequencies which are not positive. -/
theorem C101_ztransform (residue : List ℝ → List ℝ → List ℂ × List ℂ) (u v : List ℝ) (f : ℝ) (bilinear : Bool) (h : (∀ c ∈ u, c = 0) ∨ (∀ c ∈ v, c = 0) ∨ f ≤ 0) :
    zt.transform residue u v f bilinear = .error .valueError := by
  classical
  unfold zt.transform
  by_cases h1 : ∀ c ∈ u, c = 0
  · rw [if_pos h1]
  by_cases h2 : ∀ c ∈ v, c = 0
  · rw [if_neg h1, if_pos h2]
  · rw [if_neg h1, if_neg h2, if_pos ((h.resolve_left h1).resolve_left h2)]

/-- C101: IirFilter without coefficients. -/
theorem C101_iir {R : Type*} [Zero R] [DecidableEq R] (cast : R → R) (s : Option (List R)) (a b : Option (List R)) (ha : a = none ∨ a = some []) (hb : b = none ∨ b = some []) :
    Iir.new cast a b s = .error .valueError := by
  rcases ha with rfl | rfl <;> rcases hb with rfl | rfl <;> rfl

/-- Values at and beyond the limits. -/
example : CExp.new 1 = .ok ⟨1⟩ ∧ CExp.new (-1) = .ok ⟨-1⟩ ∧ CExp.new (5 / 4) = .error .valueError ∧ Bandpass.new (1 / 2) 2 = .error .valueError := by
  refine ⟨((C101_complex 1 0 ⟨0⟩ ⟨0, ⟨0⟩, 0, 0⟩ ⟨0, 0, 0, 0⟩).1 (by norm_num)).1, ((C101_complex (-1) 0 ⟨0⟩ ⟨0, ⟨0⟩, 0, 0⟩ ⟨0, 0, 0, 0⟩).1 (by norm_num)).1,
    ((C101_complex (5 / 4) 0 ⟨0⟩ ⟨0, ⟨0⟩, 0, 0⟩ ⟨0, 0, 0, 0⟩).2.1 (by norm_num)).1, ((C101_complex (1 / 2) 2 ⟨0⟩ ⟨0, ⟨0⟩, 0, 0⟩ ⟨0, 0, 0, 0⟩).2.2.2.2.2 (by norm_num)).1⟩

example : (∃ y, psd [1, 2, 3] [1, 1] 1 false = .ok y) ∧ psd [1] [1, 1] 1 false = .error .valueError := by
  constructor
  · rcases C101_psd [1, 2, 3] [1, 1] 1 false with h | h
    · exact h.1
    · exact absurd ⟨by simp, ⟨1, by simp, by norm_num⟩, by simp, by norm_num⟩ h.2
  · rcases C101_psd [1] [1, 1] 1 false with h | h
    · exact absurd h.2.2.2.1 (by simp)
    · exact h.1

example : (Integral.new 4 : Res (Iir ℚ)) ≠ .error .valueError ∧ (Integral.new 5 : Res (Iir ℚ)) = .error .valueError :=
  ⟨fun h => (C101_integral 4).mp h (by norm_num), (C101_integral 5).mpr (by norm_num)⟩

example (residue : List ℝ → List ℝ → List ℂ × List ℂ) : zt.transform residue [1, 1] [0, 0] (1 / 2) true = .error .valueError :=
  C101_ztransform residue _ _ _ _ (.inr (.inl (by simp)))

end Verif.Props
