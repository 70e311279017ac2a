import Verif.Props.Chebyshev
import Verif.Props.FirDesign
import Verif.Props.Fir
import Verif.Props.Iir

/- Property C90: complement constructs a mirror image (diamondback/filters/fir_filter.py:169-197, iir_filter.py:169-191). -/

namespace Verif.Props

open Finset Spec

/-- `y` is `x` with the sign of every second element changed. -/
def Mirror (x y : List ℝ) : Prop := y.length = x.length ∧ ∀ n, at0 y n = (-1) ^ n * at0 x n

theorem mirror_alternate (x : List ℝ) : Mirror x (alternate x) := ⟨alternate_length x, fun n => by rw [at0_alternate, mul_comm]⟩

theorem Mirror.eq {x y : List ℝ} (h : Mirror x y) : y = alternate x := by
  apply List.ext_getElem (by rw [h.1, alternate_length])
  intro n h1 h2
  have := h.2 n
  rw [← (mirror_alternate x).2 n] at this
  simpa [at0, List.getD_eq_getElem?_getD, h1, h2] using this

theorem alternate_scale (b : List ℝ) (g : ℝ) : (alternate b).map (· * g) = alternate (b.map (· * g)) := by
  apply Mirror.eq
  refine ⟨by simp [alternate_length], fun n => ?_⟩
  have : ∀ c : List ℝ, at0 (c.map (· * g)) n = at0 c n * g := by
    intro c
    simp only [at0, List.getD_eq_getElem?_getD, List.getElem?_map]
    cases c[n]? <;> simp
  rw [this, this, at0_alternate]
  ring

theorem fir.design_mirror (style : WStyle) (f : ℝ) (hf : 0 < f) (hf1 : f < 1) (order count : ℤ) (ho : 0 < order) (hcount : 0 < count)
    (h : ¬ ((style = .blackman ∨ style = .hann) ∧ order = 1)) (gain : ℝ) :
    ∃ b, b ≠ [] ∧ fir.design (some style) (1 - f) order count false gain = .ok b ∧ fir.design (some style) f order count true gain = .ok (alternate b) := by
  have hon : 0 < order.toNat := by omega
  have h' : ¬ ((style = .blackman ∨ style = .hann) ∧ order.toNat = 1) := fun q => h ⟨q.1, by omega⟩
  have hfpos : 0 < 1 - f := by linarith
  unfold fir.design
  simp only [show ¬ (f ≤ 0 ∨ f ≥ 1) by push Not; exact ⟨hf, hf1⟩, show ¬ (1 - f ≤ 0 ∨ 1 - f ≥ 1) by push Not; constructor <;> linarith,
    show ¬ order ≤ 0 by omega, show ¬ count ≤ 0 by omega, if_false, if_true, Bool.false_eq_true]
  rcases search.run_result (fir.candidate style order.toNat (1 - f)) (fir.deviation (1 - f) count.toNat) 3.0e-2 with
    ⟨x, b0, hx, h1, h2⟩ | ⟨x, e, hx, h1, h2⟩
  · rw [h2]
    obtain ⟨v, g1, g2, g3, g4⟩ := fir.candidate_spec style order.toNat hon h' (1 - f) hfpos x hx
    rw [g1] at h1
    cases h1
    refine ⟨b0.map (· * gain), ?_, rfl, ?_⟩
    · intro q
      have := congrArg List.length q
      rw [List.length_map, g2] at this
      simp at this
    · rw [← alternate_scale]
      simp [alternate_alternate, g3]
  · obtain ⟨v, g1, -⟩ := fir.candidate_spec style order.toNat hon h' (1 - f) hfpos x hx
    rw [g1] at h1
    cases h1

theorem iir.design_mirror (residue : List ℝ → List ℝ → List ℂ × List ℂ) (hres : ResidueSpec residue) (style : IStyle) (f : ℝ) (hf : 0 < f)
    (hf1 : f < 1) (order count : ℤ) (ho : 0 < order) (hcount : 0 < count) (gain : ℝ) :
    ∃ a b, iir.design residue (some style) (1 - f) order count false gain = .ok (a, b) ∧
      iir.design residue (some style) f order count true gain = .ok (alternate a, alternate b) := by
  have hfpos : 0 < 1 - f := by linarith
  have hon : 0 < order.toNat := by omega
  unfold iir.design
  simp only [show ¬ (f ≤ 0 ∨ f ≥ 1) by push Not; exact ⟨hf, hf1⟩, show ¬ (1 - f ≤ 0 ∨ 1 - f ≥ 1) by push Not; constructor <;> linarith,
    show ¬ order ≤ 0 by omega, show ¬ count ≤ 0 by omega, if_false, if_true, Bool.false_eq_true]
  rcases search.run_result (fun scale => iir.evaluate residue style (scale * (1 - f)) order.toNat)
    (iir.deviation (1 - f) count.toNat) (iir.rate order.toNat count.toNat) with ⟨x, ⟨a, b⟩, hx, h1, h2⟩ | ⟨x, e, hx, h1, h2⟩
  · rw [h2]
    obtain ⟨a', b', g1, g2, g3, g4, g5, g6, g7⟩ := iir.evaluate_spec residue hres style (x * (1 - f)) (mul_pos hx hfpos) order.toNat hon
    rw [g1] at h1
    cases h1
    have hane : a ≠ [] := by intro h; rw [h] at g3; simp at g3
    refine ⟨a, b.map (· * gain), rfl, ?_⟩
    simp only [alternate_alternate]
    have hden := alternate_one_sub a g2 hane
    have hne := stable_sum_ne a g2 hane g5
    rw [hden, g6, div_self hne]
    simp only [div_one, List.map_id', alternate_scale]
  · exfalso
    obtain ⟨a', b', g1, -⟩ := iir.evaluate_spec residue hres style (x * (1 - f)) (mul_pos hx hfpos) order.toNat hon
    rw [g1] at h1
    cases h1

theorem dtft_mirror (c : List ℝ) (θ : ℝ) : dtft (alternate c) (1 - θ) = (starRingEnd ℂ) (dtft c θ) := by
  rw [dtft_alternate, dtft_neg]

theorem freqResp_mirror (a b : List ℝ) (θ : ℝ) : freqResp (alternate a) (alternate b) (1 - θ) = (starRingEnd ℂ) (freqResp a b θ) := by
  unfold freqResp
  rw [dtft_mirror, dtft_mirror, map_div₀, map_sub, map_one]

theorem recursion_mirror (a b x y y' : List ℝ) (h : Recursion a b x y) (h' : Recursion (alternate a) (alternate b) (alternate x) y') : Mirror y y' := by
  have hl : y'.length = y.length := by rw [h'.1, h.1, alternate_length]
  refine ⟨hl, fun n => ?_⟩
  induction n using Nat.strong_induction_on with
  | _ n ih =>
    by_cases hn : n < x.length
    · rw [h'.2 n (by rw [alternate_length]; exact hn), h.2 n hn, mul_add, mul_sum, mul_sum]
      have hpow : ∀ i, i ≤ n → ((-1 : ℝ)) ^ i * (-1) ^ (n - i) = (-1) ^ n := by
        intro i hi; rw [← pow_add, Nat.add_sub_cancel' hi]
      congr 1
      · apply sum_congr rfl
        intro i hi
        have hi := mem_Icc.mp hi
        rw [ih (n - i) (by omega), at0_alternate, ← hpow i hi.2]
        ring
      · apply sum_congr rfl
        intro i hi
        have hi := mem_range.mp hi
        rw [at0_alternate, at0_alternate, ← hpow i (by omega)]
        ring
    · have h1 : y[n]? = none := List.getElem?_eq_none (by rw [h.1]; omega)
      have h2 : y'[n]? = none := List.getElem?_eq_none (by rw [hl, h.1]; omega)
      simp [at0, List.getD_eq_getElem?_getD, h1, h2]

/-- C90.  The complement of an FIR design at `f` is the mirror image of the design at `1 - f`: alternating coefficients, the response reflected at half of
Nyquist, and for every signal with alternating signs the output of the other design with alternating signs. -/
theorem C90_fir (style : WStyle) (f : ℝ) (hf : 0 < f) (hf1 : f < 1) (order count : ℤ) (ho : 0 < order) (hcount : 0 < count)
    (h : ¬ ((style = .blackman ∨ style = .hann) ∧ order = 1)) (gain : ℝ) :
    ∃ g g', Fir.newDesign (some style) (1 - f) order count false gain none = .ok g ∧ Fir.newDesign (some style) f order count true gain none = .ok g' ∧
      Mirror g.b g'.b ∧ (∀ θ, freqResp [] g'.b (1 - θ) = (starRingEnd ℂ) (freqResp [] g.b θ)) ∧
      ∀ x x', x ≠ [] → Mirror x x' → ∃ y y', (g.filter x).1 = .ok y ∧ (g'.filter x').1 = .ok y' ∧ Mirror y y' := by
  obtain ⟨b, h0, h1, h2⟩ := fir.design_mirror style f hf hf1 order count ho hcount h gain
  have h0' : alternate b ≠ [] := by
    intro q; have := congrArg List.length q; rw [alternate_length] at this; simp at this; exact h0 this
  obtain ⟨g, g1, g2, g3, g4, g5⟩ := Fir.new_spec (id : ℝ → ℝ) b none h0
  obtain ⟨g', g1', g2', g3', g4', g5'⟩ := Fir.new_spec (id : ℝ → ℝ) (alternate b) none h0'
  have hb : g.b = b := by rw [g4]; simp [padTo]
  have hb' : g'.b = alternate b := by rw [g4']; simp [padTo]
  refine ⟨g, g', ?_, ?_, by rw [hb, hb']; exact mirror_alternate b, ?_, ?_⟩
  · unfold Fir.newDesign; rw [h1]; exact g1
  · unfold Fir.newDesign; rw [h2]; exact g1'
  · intro θ
    rw [hb, hb', ← freqResp_mirror]
    rfl
  · intro x x' hx hm
    have hx' : x' ≠ [] := by intro q; rw [q] at hm; exact hx (List.length_eq_zero_iff.mp hm.1.symm)
    obtain ⟨p, y, s, p1, p2, p3, p4⟩ := C01_fir_convolution b x h0 hx
    obtain ⟨p', y', s', p1', p2', p3', p4'⟩ := C01_fir_convolution (alternate b) x' h0' hx'
    rw [g1] at p1; cases p1
    rw [g1'] at p1'; cases p1'
    refine ⟨y, y', by rw [p2], by rw [p2'], by rw [p3, p3', hm.1], fun n => ?_⟩
    by_cases hn : n < x.length
    · rw [at0, at0, List.getD_eq_getElem?_getD, List.getD_eq_getElem?_getD, p4 n hn, p4' n (by rw [hm.1]; exact hn)]
      simp only [Option.getD_some]
      rw [mul_sum]
      apply sum_congr rfl
      intro i hi
      have hi := mem_range.mp hi
      have hpow : ((-1 : ℝ)) ^ i * (-1) ^ (n - i) = (-1) ^ n := by rw [← pow_add, Nat.add_sub_cancel' (by omega)]
      rw [at0_alternate, hm.2, ← hpow]
      ring
    · have e1 : y[n]? = none := List.getElem?_eq_none (by rw [p3]; omega)
      have e2 : y'[n]? = none := List.getElem?_eq_none (by rw [p3', hm.1]; omega)
      simp [at0, List.getD_eq_getElem?_getD, e1, e2]

example : ¬ ((WStyle.kaiser = .blackman ∨ WStyle.kaiser = .hann) ∧ (1 : ℤ) = 1) ∧ Mirror [1, 2, 3] [1, -2, 3] := by
  refine ⟨by simp, rfl, fun n => ?_⟩
  match n with
  | 0 => simp [at0]
  | 1 => simp [at0]
  | 2 => simp [at0]
  | n + 3 => simp [at0]

/-- C90.  The complement of an IIR design at `f` is the mirror image of the design at `1 - f`. -/
theorem C90_iir (residue : List ℝ → List ℝ → List ℂ × List ℂ) (hres : ResidueSpec residue) (style : IStyle) (f : ℝ) (hf : 0 < f)
    (hf1 : f < 1) (order count : ℤ) (ho : 0 < order) (hcount : 0 < count) (gain : ℝ) :
    ∃ g g', Iir.newDesign residue (some style) (1 - f) order count false gain none = .ok g ∧
      Iir.newDesign residue (some style) f order count true gain none = .ok g' ∧
      Mirror g.a g'.a ∧ Mirror g.b g'.b ∧ (∀ θ, freqResp g'.a g'.b (1 - θ) = (starRingEnd ℂ) (freqResp g.a g.b θ)) ∧
      ∀ x x', x ≠ [] → Mirror x x' → ∃ y y', (g.filter x).1 = .ok y ∧ (g'.filter x').1 = .ok y' ∧ Mirror y y' := by
  classical
  obtain ⟨a, b, h1, h2⟩ := iir.design_mirror residue hres style f hf hf1 order count ho hcount gain
  obtain ⟨a0, b0, q1, q2, q3, q4, -⟩ := iir.design_spec residue hres style (1 - f) (by linarith) (by linarith) order count ho hcount false gain
  rw [h1] at q1
  cases q1
  have hane : a ≠ [] := by intro h; rw [h] at q3; simp at q3; omega
  have hane' : alternate a ≠ [] := by
    intro q; have := congrArg List.length q; rw [alternate_length] at this; simp at this; exact hane this
  have h0' : at0 (alternate a) 0 = 0 := by rw [at0_alternate, q2]; ring
  have hl : a.length = b.length := by omega
  obtain ⟨g, g1, g2, g3, g4, g5⟩ := Iir.new_spec (id : ℝ → ℝ) a b none (Or.inl hane) q2
  obtain ⟨g', g1', g2', g3', g4', g5'⟩ := Iir.new_spec (id : ℝ → ℝ) (alternate a) (alternate b) none (Or.inl hane') h0'
  have ha : g.a = a := by rw [g3, hl]; simp [padTo, hl]
  have hb : g.b = b := by rw [g4, hl]; simp [padTo]
  have ha' : g'.a = alternate a := by rw [g3', alternate_length, alternate_length, hl]; simp [padTo, alternate_length, hl]
  have hb' : g'.b = alternate b := by rw [g4', alternate_length, alternate_length, hl]; simp [padTo, alternate_length]
  refine ⟨g, g', ?_, ?_, by rw [ha, ha']; exact mirror_alternate a, by rw [hb, hb']; exact mirror_alternate b, ?_, ?_⟩
  · unfold Iir.newDesign; rw [h1]; simp only; convert g1
  · unfold Iir.newDesign; rw [h2]; simp only; convert g1'
  · intro θ
    rw [ha, ha', hb, hb', freqResp_mirror]
  · intro x x' hx hm
    have hx' : x' ≠ [] := by intro q; rw [q] at hm; exact hx (List.length_eq_zero_iff.mp hm.1.symm)
    obtain ⟨p, y, s, p1, p2, p3⟩ := C07_iir_difference_equation a b x (Or.inl hane) q2 hx
    obtain ⟨p', y', s', p1', p2', p3'⟩ := C07_iir_difference_equation (alternate a) (alternate b) x' (Or.inl hane') h0' hx'
    have e : p = g := by
      have : Except.ok p = (Except.ok g : Res (Iir ℝ)) := by rw [← p1, ← g1]
      cases this; rfl
    have e' : p' = g' := by
      have : Except.ok p' = (Except.ok g' : Res (Iir ℝ)) := by rw [← p1', ← g1']
      cases this; rfl
    subst e; subst e'
    rw [hm.eq] at p3'
    exact ⟨y, y', by rw [p2], by rw [p2'], recursion_mirror a b x y y' p3 p3'⟩

/-- A Butterworth filter of order 4 in two sections. -/
example (residue : List ℝ → List ℝ → List ℂ × List ℂ) (hres : ResidueSpec residue) := C90_iir residue hres .butterworth (1 / 10) (by norm_num) (by norm_num) 4 2 (by norm_num) (by norm_num) 3

end Verif.Props
