import Verif.Lemmas.IirDesign
import Verif.Lemmas.Bibo
import Verif.Props.ZTransform
import Verif.Spec.Search
import Verif.Lemmas.Response

/-
Properties C11, C12, C13, C15 (IIR part) of the design branch of IirFilter (diamondback/filters/iir_filter.py).
-/

namespace Verif.Props

open Polynomial Spec Finset

theorem sum_eq_range (b : List ℝ) : b.sum = ∑ n ∈ range b.length, at0 b n := by
  induction b with
  | nil => simp
  | cons x b ih =>
    rw [List.sum_cons, ih, List.length_cons, sum_range_succ']
    simp [at0, add_comm]

theorem altSum_scale (l : List ℝ) (k : ℝ) : altSum (l.map (· * k)) = altSum l * k := by
  unfold altSum
  rw [sum_mul, List.length_map]
  apply sum_congr rfl
  intro n _
  rw [at0_map_mul]; ring

theorem at0_alternate (b : List ℝ) (n : ℕ) : at0 (alternate b) n = at0 b n * (-1) ^ n := by
  simp only [alternate, at0, List.getD_eq_getElem?_getD, List.getElem?_map, List.getElem?_zipIdx]
  cases b[n]? <;> simp

theorem alternate_length (b : List ℝ) : (alternate b).length = b.length := by simp [alternate]

theorem alternate_sum (b : List ℝ) : (alternate b).sum = altSum b := by
  rw [sum_eq_range, alternate_length]
  apply sum_congr rfl
  intro n _
  rw [at0_alternate, mul_comm]

theorem alternate_alternate (b : List ℝ) : alternate (alternate b) = b := by
  apply List.ext_getElem (by simp [alternate])
  intro i h1 h2
  have := at0_alternate (alternate b) i
  rw [at0_alternate b, mul_assoc, ← pow_add, ← two_mul, pow_mul] at this
  simp only [even_two, Even.neg_pow, one_pow, mul_one] at this
  rwa [at0_of_lt _ _ h1, at0_of_lt _ _ h2] at this

/-- The poles of the alternated recursion are the negated poles. -/
theorem pole_alternate (a : List ℝ) (z : ℂ) (h : Pole (alternate a) z) : Pole a (-z) := by
  unfold Pole at *
  rw [alternate_length] at h
  rw [neg_pow, h, mul_sum]
  apply sum_congr rfl
  intro i hi
  obtain ⟨h1, h2⟩ := mem_Icc.mp hi
  rw [at0_alternate]
  push_cast
  rw [neg_pow z]
  have : ((-1 : ℂ)) ^ (a.length - 1) * (-1) ^ i = (-1) ^ (a.length - 1 - i) := by
    conv_lhs => rw [show a.length - 1 = (a.length - 1 - i) + i by omega]
    rw [pow_add, mul_assoc, ← pow_add, ← two_mul, pow_mul]; simp
  linear_combination (((at0 a i : ℝ) : ℂ) * z ^ (a.length - 1 - i)) * this

/-- A stable recursion has no pole at one. -/
theorem stable_sum_ne (a : List ℝ) (h0 : at0 a 0 = 0) (ha : a ≠ []) (hst : Stable a) : 1 - a.sum ≠ 0 := by
  intro h
  have : Pole a 1 := by
    unfold Pole
    simp only [one_pow, mul_one]
    have hl : 0 < a.length := List.length_pos_of_ne_nil ha
    have hs : a.sum = ∑ i ∈ Icc 1 (a.length - 1), at0 a i := by
      rw [sum_eq_range]
      conv_lhs => rw [show a.length = (a.length - 1) + 1 by omega]
      rw [sum_range_succ', h0, add_zero, range_eq_Ico, Finset.sum_Ico_add' (fun i => at0 a i) 0 (a.length - 1) 1]
      congr 1
    have : (1 : ℝ) = ∑ i ∈ Icc 1 (a.length - 1), at0 a i := by rw [← hs]; linarith
    exact_mod_cast this
  have := hst 1 this
  rw [norm_one] at this
  exact lt_irrefl _ this

theorem real_sum_poly (r : List ℝ) : (np.poly r).sum = (r.map fun z => 1 - z).prod := by
  have h : ∀ c : List ℝ, c.sum = (np.toPoly c).eval 1 := by
    intro c
    induction c with
    | nil => simp [np.toPoly]
    | cons x c ih => rw [List.sum_cons, ih]; simp [np.toPoly]
  rw [h, np.toPoly_poly, Polynomial.eval_list_prod, List.map_map]
  congr 1
  apply List.map_congr_left
  intro z _
  simp

/-- One evaluation of the design: for every style, order and positive frequency it succeeds with a stable recursion of the
requested order and unity gain at zero frequency. -/
theorem iir.evaluate_spec (residue : List ℝ → List ℝ → List ℂ × List ℂ) (hres : ResidueSpec residue) (style : IStyle) (f : ℝ) (hf : 0 < f)
    (order : ℕ) (ho : 0 < order) :
    ∃ a b, iir.evaluate residue style f order = .ok (a, b) ∧ at0 a 0 = 0 ∧ a.length = order + 1 ∧ b.length = order + 1 ∧
      Stable a ∧ b.sum = 1 - a.sum ∧ altSum b = 0 := by
  have hH := iir.denominator_hurwitz style order ho
  set c := iir.denominator style order with hc
  obtain ⟨x, t, hct⟩ : ∃ x t, c = x :: t := by
    cases h : c with
    | nil => have := hH.len; rw [h] at this; simp at this
    | cons x t => exact ⟨x, t, rfl⟩
  have hx1 : x = 1 := by have := hH.head; rw [hct] at this; simpa using this
  -- the last coefficient is not zero
  have hd : c.getLastD 0 ≠ 0 := by
    intro h0
    have hne : c ≠ [] := by rw [hct]; simp
    have hl : c = c.dropLast ++ [0] := by
      conv_lhs => rw [← List.dropLast_append_getLast hne]
      rw [List.getLastD_eq_getLast?, List.getLast?_eq_some_getLast hne, Option.getD_some] at h0
      rw [h0]
    have : (np.toPoly (np.complexOf c)).eval 0 = 0 := by
      rw [hl]
      simp only [np.complexOf, List.map_append, List.map_cons, List.map_nil]
      rw [np.toPoly_append_singleton]
      simp
    have := hH.root 0 this
    simp at this
  set d := c.getLastD 0 with hdd
  have hroots : ∀ s, IsRootOf (c.map (· / d)) s ↔ (np.toPoly (np.complexOf c)).eval s = 0 := by
    intro s
    rw [isRootOf_iff, zt.complexOf_div, np.toPoly_map_mul, eval_mul, eval_C]
    simp [hd]
  have hst : ∀ s, IsRootOf (c.map (· / d)) s → s.re < 0 := fun s hs => hH.root s ((hroots s).mp hs)
  have hroot : ∃ s, IsRootOf (c.map (· / d)) s := by
    have hdeg : 0 < (np.toPoly (np.complexOf c)).degree := by
      rw [← Polynomial.natDegree_pos_iff_degree_pos, hct]
      simp only [np.complexOf, List.map_cons]
      rw [np.natDegree_toPoly _ _ (by rw [hx1]; norm_num)]
      have := hH.len
      rw [hct] at this
      simp at this ⊢
      omega
    obtain ⟨s, hs⟩ := Complex.exists_root hdeg
    exact ⟨s, (hroots s).mpr hs⟩
  have hnz : ∃ y ∈ c.map (· / d), y ≠ 0 := by
    refine ⟨x / d, ?_, ?_⟩
    · rw [List.mem_map]; exact ⟨x, by rw [hct]; simp, rfl⟩
    · rw [hx1]; exact div_ne_zero one_ne_zero hd
  have hhead : (c.map (· / d)).head? ≠ some 0 := by
    rw [hct, List.map_cons, List.head?_cons, hx1]
    intro h
    exact div_ne_zero one_ne_zero hd (Option.some.inj h)
  have hzt : ∃ a b, zt.transform residue (c.map (· / d)) [1] f (style ≠ .bessel) = .ok (some a, b) ∧ at0 a 0 = 0 ∧ Stable a ∧
      a.length = order + 1 := by
    have hlen : (c.map (· / d)).length = order + 1 := by rw [List.length_map, hH.len]
    by_cases hb : style = .bessel
    · rw [show (decide (style ≠ .bessel)) = false by simp [hb]]
      obtain ⟨a, b, h1, h2, h3⟩ := C43_impulse_stable residue hres (c.map (· / d)) [1] f hf hroot hnz hst ⟨1, by simp, one_ne_zero⟩
      exact ⟨a, b, h1, h2, h3, by rw [(C43_impulse_poles residue hres _ _ f a b h1).2.1 hhead, hlen]⟩
    · rw [show (decide (style ≠ .bessel)) = true by simp [hb]]
      obtain ⟨a, b, h1, h2, h3⟩ := C43_bilinear_stable residue (c.map (· / d)) [1] f hf hroot hnz hst ⟨1, by simp, one_ne_zero⟩
      exact ⟨a, b, h1, h2, h3, by rw [(C43_bilinear_poles residue _ _ f a b h1).2.1 hhead, hlen]⟩
  obtain ⟨a, b, h1, h2, h3, h4⟩ := hzt
  have hbs : (np.poly (List.replicate order (-1 : ℝ))).sum ≠ 0 := by
    rw [real_sum_poly]
    simp only [List.map_replicate, List.prod_replicate]
    norm_num
  refine ⟨a, (np.poly (List.replicate order (-1 : ℝ))).map (· * ((1 - a.sum) / (np.poly (List.replicate order (-1 : ℝ))).sum)),
    ?_, h2, h4, ?_, h3, ?_, ?_⟩
  · unfold iir.evaluate
    simp only
    rw [← hc, ← hdd, h1]
  · rw [List.length_map, np.poly_length, List.length_replicate]
  · rw [sum_map_mul]; field_simp
  · rw [altSum_scale]
    have h0 : altSum (np.poly (List.replicate order (-1 : ℝ))) = 0 := by
      have hev : (np.toPoly (np.poly (List.replicate order (-1 : ℝ)))).eval (-1) = 0 := by
        rw [np.toPoly_poly, Polynomial.eval_list_prod, List.prod_eq_zero_iff]
        simp only [List.map_map, List.mem_map, Function.comp_apply, eval_sub, eval_X, eval_C]
        exact ⟨-1, List.mem_replicate.mpr ⟨ho.ne', rfl⟩, by norm_num⟩
      rw [np.eval_toPoly, np.poly_length, List.length_replicate] at hev
      unfold altSum
      rw [np.poly_length, List.length_replicate]
      have : ∑ n ∈ range (order + 1), (-1 : ℝ) ^ n * at0 (np.poly (List.replicate order (-1 : ℝ))) n =
          (-1) ^ order * ∑ i ∈ range (order + 1), at0 (np.poly (List.replicate order (-1 : ℝ))) i * (-1) ^ (order + 1 - 1 - i) := by
        rw [mul_sum]
        apply sum_congr rfl
        intro i hi
        have hi' : i ≤ order := Nat.lt_succ_iff.mp (mem_range.mp hi)
        have : ((-1 : ℝ)) ^ order * (-1) ^ (order - i) = (-1) ^ i := by
          conv_lhs => rw [show order = (order - i) + i by omega]
          rw [Nat.add_sub_cancel, pow_add, mul_right_comm, ← pow_add, ← two_mul, pow_mul]; simp
        rw [Nat.add_sub_cancel]
        linear_combination -(at0 (np.poly (List.replicate order (-1 : ℝ))) i) * this
      rw [this, hev, mul_zero]
    rw [h0, zero_mul]

/-- The alternating sum of the alternated denominator. -/
theorem alternate_one_sub (a : List ℝ) (h0 : at0 a 0 = 0) (ha : a ≠ []) :
    (alternate (1 :: (alternate a).tail.map (- ·))).sum = 1 - a.sum := by
  have h0' : at0 (alternate a) 0 = 0 := by rw [at0_alternate, h0]; ring
  rw [alternate_sum]
  have e : altSum (1 :: (alternate a).tail.map (- ·)) = 1 - altSum (alternate a) := by
    generalize hq : alternate a = q at h0'
    have hqn : q ≠ [] := by
      intro h
      have := alternate_length a
      rw [hq, h] at this
      exact ha (List.length_eq_zero_iff.mp this.symm)
    cases q with
    | nil => exact absurd rfl hqn
    | cons y q =>
      simp only [at0, List.getD_cons_zero] at h0'
      subst h0'
      unfold altSum
      simp only [List.tail_cons, List.length_cons, List.length_map]
      rw [sum_range_succ', sum_range_succ']
      have : ∀ n, at0 ((1 : ℝ) :: q.map (- ·)) (n + 1) = - at0 ((0 : ℝ) :: q) (n + 1) := by
        intro n
        simp only [at0, List.getD_eq_getElem?_getD]
        cases h : q[n]? <;> simp [h]
      simp only [this]
      simp [at0, sum_neg_distrib]
      ring
  rw [e, ← alternate_sum, alternate_alternate]

/-- What the design branch returns for valid arguments. -/
theorem iir.design_spec (residue : List ℝ → List ℝ → List ℂ × List ℂ) (hres : ResidueSpec residue) (style : IStyle) (f : ℝ) (hf : 0 < f)
    (hf1 : f < 1) (order count : ℤ) (ho : 0 < order) (hcount : 0 < count) (complement : Bool) (gain : ℝ) :
    ∃ a b, iir.design residue (some style) f order count complement gain = .ok (a, b) ∧ at0 a 0 = 0 ∧
      (a.length : ℤ) = order + 1 ∧ (b.length : ℤ) = order + 1 ∧ Stable a ∧
      (complement = false → b.sum = gain * (1 - a.sum) ∧ altSum b = 0) ∧
      (complement = true → altSum b = gain * (1 - altSum a) ∧ b.sum = 0) := by
  set f' := if complement then 1 - f else f with hf'
  have hfpos : 0 < f' := by rw [hf']; split <;> linarith
  have hon : 0 < order.toNat := by omega
  unfold iir.design
  simp only [show ¬ (f ≤ 0 ∨ f ≥ 1) by push Not; exact ⟨hf, hf1⟩, show ¬ order ≤ 0 by omega, show ¬ count ≤ 0 by omega, if_false]
  rw [← hf']
  rcases search.run_result (fun scale => iir.evaluate residue style (scale * f') order.toNat)
    (iir.deviation f' count.toNat) (iir.rate order.toNat count.toNat) with ⟨x, ⟨a, b⟩, hx, h1, h2⟩ | ⟨x, e, hx, h1, h2⟩
  · rw [h2]
    obtain ⟨a', b', g1, g2, g3, g4, g5, g6, g7⟩ := iir.evaluate_spec residue hres style (x * f') (mul_pos hx hfpos) order.toNat hon
    rw [g1] at h1
    cases h1
    have hane : a ≠ [] := by intro h; rw [h] at g3; simp at g3
    cases complement with
    | false =>
      simp only [Bool.false_eq_true, if_false]
      refine ⟨_, _, rfl, g2, by rw [g3]; omega, by rw [List.length_map, g4]; omega, g5, ?_, by simp⟩
      intro _
      rw [sum_map_mul, altSum_scale, g6, g7]
      constructor <;> ring
    | true =>
      simp only [if_true, alternate_alternate]
      have h0' : at0 (alternate a) 0 = 0 := by rw [at0_alternate, g2]; ring
      have hden := alternate_one_sub a g2 hane
      have hne := stable_sum_ne a g2 hane g5
      have hratio : b.sum / (alternate (1 :: (alternate a).tail.map (- ·))).sum = 1 := by
        rw [hden, g6, div_self hne]
      rw [hratio]
      simp only [div_one, List.map_id']
      refine ⟨_, _, rfl, h0', by rw [alternate_length, g3]; omega, by rw [List.length_map, alternate_length, g4]; omega, ?_, by simp, ?_⟩
      · intro z hz
        have := g5 (-z) (pole_alternate a z hz)
        rwa [norm_neg] at this
      · intro _
        rw [altSum_scale, sum_map_mul, alternate_sum, ← alternate_sum (alternate b), ← alternate_sum (alternate a), alternate_alternate,
          alternate_alternate, g6, g7]
        constructor <;> ring
  · exfalso
    obtain ⟨a', b', g1, -⟩ := iir.evaluate_spec residue hres style (x * f') (mul_pos hx hfpos) order.toNat hon
    rw [g1] at h1
    cases h1

/-- The constructor of a designed filter. -/
theorem Iir.newDesign_spec (residue : List ℝ → List ℝ → List ℂ × List ℂ) (hres : ResidueSpec residue) (style : IStyle) (f : ℝ) (hf : 0 < f)
    (hf1 : f < 1) (order count : ℤ) (ho : 0 < order) (hcount : 0 < count) (complement : Bool) (gain : ℝ) :
    ∃ g, Iir.newDesign residue (some style) f order count complement gain none = .ok g ∧ g.cast = id ∧ g.WF ∧
      (∀ v ∈ g.s, v = 0) ∧ at0 g.a 0 = 0 ∧ (g.a.length : ℤ) = order + 1 ∧ Stable g.a ∧
      (complement = false → g.b.sum = gain * (1 - g.a.sum) ∧ altSum g.b = 0) ∧
      (complement = true → altSum g.b = gain * (1 - altSum g.a) ∧ g.b.sum = 0) := by
  classical
  obtain ⟨a, b, h1, h2, h3, h4, h5, h6, h7⟩ := iir.design_spec residue hres style f hf hf1 order count ho hcount complement gain
  have hane : a ≠ [] := by intro h; rw [h] at h3; simp at h3; omega
  obtain ⟨g, g1, g2, g3, g4, g5⟩ := Iir.new_spec (id : ℝ → ℝ) a b none (Or.inl hane) h2
  have hl : a.length = b.length := by omega
  have ha : g.a = a := by rw [g3, hl]; simp [padTo, hl]
  have hb : g.b = b := by rw [g4, hl]; simp [padTo]
  have hs : g.s = List.replicate b.length 0 := by rw [g5, hl]; simp [padTo]
  refine ⟨g, ?_, g2, ⟨by rw [ha, hb, hl], by rw [hb, hs]; simp, by rw [hb]; omega⟩, ?_, by rw [ha, h2], by rw [ha, h3], by rw [ha]; exact h5, ?_, ?_⟩
  · unfold Iir.newDesign
    rw [h1]
    simp only
    convert g1
  · rw [hs]; intro v hv; exact List.eq_of_mem_replicate hv
  · rw [ha, hb]; exact h6
  · rw [ha, hb]; exact h7

/-- C11.  `_evaluate` succeeds for every style, every order ≥ 1 and every frequency > 0, with poles strictly inside the unit circle. -/
theorem C11_evaluate_stable (residue : List ℝ → List ℝ → List ℂ × List ℂ) (hres : ResidueSpec residue) (style : IStyle) (f : ℝ) (hf : 0 < f)
    (order : ℕ) (ho : 0 < order) :
    ∃ a b, iir.evaluate residue style f order = .ok (a, b) ∧ at0 a 0 = 0 ∧ a.length = order + 1 ∧ b.length = order + 1 ∧ Stable a := by
  obtain ⟨a, b, h1, h2, h3, h4, h5, -, -⟩ := iir.evaluate_spec residue hres style f hf order ho
  exact ⟨a, b, h1, h2, h3, h4, h5⟩

/-- A Bessel filter of order 3. -/
example (residue : List ℝ → List ℝ → List ℂ × List ℂ) (hres : ResidueSpec residue) := C11_evaluate_stable residue hres .bessel (1 / 10) (by norm_num) 3 (by norm_num)

/-- C11.  Every valid design succeeds and is stable, with and without complement. -/
theorem C11_design_stable (residue : List ℝ → List ℝ → List ℂ × List ℂ) (hres : ResidueSpec residue) (style : IStyle) (f : ℝ) (hf : 0 < f)
    (hf1 : f < 1) (order count : ℤ) (ho : 0 < order) (hcount : 0 < count) (complement : Bool) (gain : ℝ) :
    ∃ g, Iir.newDesign residue (some style) f order count complement gain none = .ok g ∧ at0 g.a 0 = 0 ∧
      (g.a.length : ℤ) = order + 1 ∧ g.b.length = g.a.length ∧ Stable g.a := by
  obtain ⟨g, h1, -, h2, -, h3, h4, h5, -⟩ := Iir.newDesign_spec residue hres style f hf hf1 order count ho hcount complement gain
  exact ⟨g, h1, h3, h4, h2.1.symm, h5⟩

/-- A Butterworth filter of order 4 in two sections. -/
example (residue : List ℝ → List ℝ → List ℂ × List ℂ) (hres : ResidueSpec residue) := C11_design_stable residue hres .butterworth (1 / 10) (by norm_num) (by norm_num) 4 2 (by norm_num) (by norm_num) true 3

/-- C11.  Invalid arguments are rejected. -/
theorem C11_design_rejects (residue : List ℝ → List ℝ → List ℂ × List ℂ) (style : Option IStyle) (f : ℝ) (order count : ℤ)
    (complement : Bool) (gain : ℝ) (s : Option (List ℝ)) (h : style = none ∨ f ≤ 0 ∨ 1 ≤ f ∨ order ≤ 0 ∨ count ≤ 0) :
    Iir.newDesign residue style f order count complement gain s = .error .valueError := by
  have : iir.design residue style f order count complement gain = .error .valueError := by
    unfold iir.design
    cases style with
    | none => rfl
    | some style =>
      simp only
      by_cases h1 : f ≤ 0 ∨ f ≥ 1
      · simp [h1]
      · by_cases h2 : order ≤ 0
        · simp [h1, h2]
        · by_cases h3 : count ≤ 0
          · simp [h1, h2, h3]
          · exfalso
            push Not at h1
            rcases h with h | h | h | h | h
            · cases h
            · linarith [h1.1]
            · linarith [h1.2]
            · exact h2 h
            · exact h3 h
  unfold Iir.newDesign
  rw [this]

/-- The limit frequency itself. -/
example (residue : List ℝ → List ℝ → List ℂ × List ℂ) := C11_design_rejects residue (some .chebyshev) 1 4 1 false 1 none (.inr (.inr (.inl le_rfl)))

/-- C12.  Without complement the gain at zero frequency is the requested gain (and the response vanishes at Nyquist); with
complement the gain at Nyquist is the requested gain (and the response vanishes at zero frequency).  The denominators do not vanish
there, so these are the values of the response. -/
theorem C12_design_gain (residue : List ℝ → List ℝ → List ℂ × List ℂ) (hres : ResidueSpec residue) (style : IStyle) (f : ℝ) (hf : 0 < f)
    (hf1 : f < 1) (order count : ℤ) (ho : 0 < order) (hcount : 0 < count) (complement : Bool) (gain : ℝ) :
    ∃ g, Iir.newDesign residue (some style) f order count complement gain none = .ok g ∧
      freqResp g.a g.b 0 = (if complement then 0 else gain : ℝ) ∧ freqResp g.a g.b 1 = (if complement then gain else 0 : ℝ) := by
  obtain ⟨g, h1, -, -, -, h3, h4, h5, h6, h7⟩ := Iir.newDesign_spec residue hres style f hf hf1 order count ho hcount complement gain
  have hane : g.a ≠ [] := by intro h; rw [h] at h4; simp at h4; omega
  refine ⟨g, h1, ?_⟩
  have d0 : ∀ l : List ℝ, dtft l 0 = ((l.sum : ℝ) : ℂ) := by
    intro l
    rw [sum_eq_range]
    unfold dtft
    push_cast
    apply sum_congr rfl
    intro n _
    simp
  have d1 : ∀ l : List ℝ, dtft l 1 = ((altSum l : ℝ) : ℂ) := by
    intro l
    unfold dtft altSum
    push_cast
    apply sum_congr rfl
    intro n _
    rw [show -(Complex.I * Real.pi * 1 * n) = (n : ℂ) * (-(Real.pi * Complex.I)) by ring, Complex.exp_nat_mul, Complex.exp_neg,
      Complex.exp_pi_mul_I]
    rw [mul_comm]
    norm_num
  have n0 := stable_sum_ne g.a h3 hane h5
  have n1 : 1 - altSum g.a ≠ 0 := by
    have := stable_sum_ne (alternate g.a) (by rw [at0_alternate, h3]; ring)
      (by intro h; have := alternate_length g.a; rw [h] at this; exact hane (List.length_eq_zero_iff.mp this.symm))
      (fun z hz => by have := h5 (-z) (pole_alternate g.a z hz); rwa [norm_neg] at this)
    rwa [alternate_sum] at this
  have c0 : ((1 - g.a.sum : ℝ) : ℂ) ≠ 0 := by exact_mod_cast n0
  have c1 : ((1 - altSum g.a : ℝ) : ℂ) ≠ 0 := by exact_mod_cast n1
  unfold freqResp
  rw [d0, d0, d1, d1, ← Complex.ofReal_one, ← Complex.ofReal_sub, ← Complex.ofReal_sub]
  cases complement with
  | false =>
    obtain ⟨q1, q2⟩ := h6 rfl
    rw [q1, q2]
    simp only [Bool.false_eq_true, if_false]
    refine ⟨?_, by simp⟩
    rw [Complex.ofReal_mul, mul_div_assoc, div_self c0, mul_one]
  | true =>
    obtain ⟨q1, q2⟩ := h7 rfl
    rw [q1, q2]
    simp only [if_true]
    refine ⟨by simp, ?_⟩
    rw [Complex.ofReal_mul, mul_div_assoc, div_self c1, mul_one]

/-- A complemented Chebyshev filter with the gain 3. -/
example (residue : List ℝ → List ℝ → List ℂ × List ℂ) (hres : ResidueSpec residue) := C12_design_gain residue hres .chebyshev (1 / 10) (by norm_num) (by norm_num) 4 1 (by norm_num) (by norm_num) true 3

/-- C13.  A stable filter in the zero state answers bounded signals with bounded signals; the factor depends on the coefficients only. -/
theorem C13_stable_bibo (g : Iir ℝ) (hc : g.cast = id) (hwf : g.WF) (hz : ∀ v ∈ g.s, v = 0) (h0 : at0 g.a 0 = 0) (hst : Stable g.a) :
    ∃ K, ∀ (x : List ℝ) (M : ℝ), x ≠ [] → (∀ v ∈ x, |v| ≤ M) →
      ∃ y g', g.filter x = (.ok y, g') ∧ y.length = x.length ∧ ∀ v ∈ y, |v| ≤ K * M := by
  have hane : g.a ≠ [] := by
    intro h
    have := hwf.1
    rw [h] at this
    have h3 := hwf.2.2
    simp at this
    omega
  obtain ⟨K, hK⟩ := stable_sumBound g.a h0 hane hst
  have hB := (sumBound_ser g.b).mul hK
  rw [← map_mul] at hB
  refine ⟨(∑ k ∈ range g.b.length, |at0 g.b k|) * K, fun x M hx hM => ?_⟩
  obtain ⟨y, g', h1, h2, h3⟩ := Iir.filter_series g hwf hc h0 hz x hx
  refine ⟨y, g', h1, h2, ?_⟩
  have hMpos : 0 ≤ M := by
    cases x with
    | nil => exact absurd rfl hx
    | cons v x => exact (abs_nonneg v).trans (hM v (by simp))
  have hxM : ∀ i, |at0 x i| ≤ M := by
    intro i
    by_cases hi : i < x.length
    · rw [at0_of_lt _ _ hi]; exact hM _ (List.getElem_mem hi)
    · rw [at0_of_le _ _ (by omega)]; simpa using hMpos
  intro v hv
  obtain ⟨k, hk, rfl⟩ := List.getElem_of_mem hv
  have hyk := h3 k (by omega)
  rw [List.getElem?_eq_getElem hk, Option.some.injEq] at hyk
  rw [hyk, ← mul_assoc, PowerSeries.coeff_mul, Finset.Nat.sum_antidiagonal_eq_sum_range_succ_mk]
  calc |∑ i ∈ range (k + 1), PowerSeries.coeff i (ser g.b * recip g.a) * PowerSeries.coeff (k - i) (ser x)|
      ≤ ∑ i ∈ range (k + 1), |PowerSeries.coeff i (ser g.b * recip g.a) * PowerSeries.coeff (k - i) (ser x)| :=
        Finset.abs_sum_le_sum_abs _ _
    _ ≤ ∑ i ∈ range (k + 1), ‖PowerSeries.coeff i ((ser g.b * recip g.a).map Complex.ofRealHom)‖ * M := by
        apply sum_le_sum
        intro i _
        rw [abs_mul, coeff_ser]
        have : ‖PowerSeries.coeff i ((ser g.b * recip g.a).map Complex.ofRealHom)‖ = |PowerSeries.coeff i (ser g.b * recip g.a)| := by
          rw [PowerSeries.coeff_map]; simp
        rw [this]
        exact mul_le_mul_of_nonneg_left (hxM _) (abs_nonneg _)
    _ = (∑ i ∈ range (k + 1), ‖PowerSeries.coeff i ((ser g.b * recip g.a).map Complex.ofRealHom)‖) * M := by rw [sum_mul]
    _ ≤ _ := mul_le_mul_of_nonneg_right (hB (k + 1)) hMpos

/-- The recursion `y_n = y_{n-1}/2 + x_n` has the pole 1/2. -/
example := C13_stable_bibo ⟨id, [0, 1 / 2], [1, 0], [0, 0]⟩ rfl ⟨rfl, rfl, by simp⟩ (by simp) rfl (by
  intro z hz
  simp [Pole, at0] at hz
  rw [hz]
  norm_num)

/-- C13.  Every designed filter answers bounded signals with bounded signals. -/
theorem C13_design_bibo (residue : List ℝ → List ℝ → List ℂ × List ℂ) (hres : ResidueSpec residue) (style : IStyle) (f : ℝ) (hf : 0 < f)
    (hf1 : f < 1) (order count : ℤ) (ho : 0 < order) (hcount : 0 < count) (complement : Bool) (gain : ℝ) :
    ∃ g K, Iir.newDesign residue (some style) f order count complement gain none = .ok g ∧
      ∀ (x : List ℝ) (M : ℝ), x ≠ [] → (∀ v ∈ x, |v| ≤ M) →
        ∃ y g', g.filter x = (.ok y, g') ∧ y.length = x.length ∧ ∀ v ∈ y, |v| ≤ K * M := by
  obtain ⟨g, h1, h2, h3, h4, h5, -, h6, -⟩ := Iir.newDesign_spec residue hres style f hf hf1 order count ho hcount complement gain
  obtain ⟨K, hK⟩ := C13_stable_bibo g h2 h3 h4 h5 h6
  exact ⟨g, K, h1, hK⟩

/-- A Butterworth filter of order 4 in two sections. -/
example (residue : List ℝ → List ℝ → List ℂ × List ℂ) (hres : ResidueSpec residue) := C13_design_bibo residue hres .butterworth (1 / 10) (by norm_num) (by norm_num) 4 2 (by norm_num) (by norm_num) false 1

/-- C15, IIR.  The scale factors tried are `s`; the deviation is that of the magnitude response (of `count` cascaded instances) from
-3 dB at the design frequency.  The returned coefficients are those of the first best among the `n ≤ 500` candidates tried, and the
search stops early only at a candidate within the tolerance. -/
theorem C15_iir_design_best (residue : List ℝ → List ℝ → List ℂ × List ℂ) (hres : ResidueSpec residue) (style : IStyle) (f : ℝ) (hf : 0 < f)
    (hf1 : f < 1) (order count : ℤ) (ho : 0 < order) (hcount : 0 < count) (complement : Bool) (gain : ℝ)
    (s : ℕ → ℝ) (D : ℝ → ℝ) (hs : Scales D (if order > 8 ∨ (order > 6 ∧ count > 1) then 0.015 else 0.03) (1 / 2 ^ 52) s)
    (hD : ∀ x a b, iir.evaluate residue style (x * (if complement then 1 - f else f)) order.toNat = .ok (a, b) →
      D x = 1 / Real.sqrt 2 - ‖freqResp a b (if complement then 1 - f else f)‖ ^ count.toNat) :
    ∃ n k a b, 1 ≤ n ∧ n ≤ 500 ∧ (n = 500 ∨ |D (s (n - 1))| < 10e3 / 2 ^ 52) ∧ (∀ j, j + 1 < n → 10e3 / 2 ^ 52 ≤ |D (s j)|) ∧
      FirstBest D s n k ∧ iir.evaluate residue style (s k * (if complement then 1 - f else f)) order.toNat = .ok (a, b) ∧
      iir.design residue (some style) f order count complement gain =
        .ok (if complement then alternate a else a, (if complement then alternate b else b).map (· * gain)) := by
  set f' := if complement then 1 - f else f with hf'
  have hfpos : 0 < f' := by rw [hf']; split <;> linarith
  have hon : 0 < order.toNat := by omega
  have hrate : iir.rate order.toNat count.toNat = if order > 8 ∨ (order > 6 ∧ count > 1) then 0.015 else 0.03 := by
    unfold iir.rate
    have : (order.toNat > 8 ∨ (order.toNat > 6 ∧ count.toNat > 1)) ↔ (order > 8 ∨ (order > 6 ∧ count > 1)) := by omega
    by_cases h : order > 8 ∨ (order > 6 ∧ count > 1)
    · rw [if_pos (this.mpr h), if_pos h]; norm_num
    · rw [if_neg (fun q => h (this.mp q)), if_neg h]; norm_num
  have heps : (10e3 : ℝ) / 2 ^ 52 = 10e3 * search.eps := by unfold search.eps; ring
  have hD' : ∀ x v, (fun scale => iir.evaluate residue style (scale * f') order.toNat) x = .ok v → D x = iir.deviation f' count.toNat v := by
    rintro x ⟨a, b⟩ h
    have hx : 0 < x * f' := by
      by_contra hn
      push Not at hn
      simp only at h
      unfold iir.evaluate at h
      simp only [zt.transform, hn, if_true] at h
      split at h <;> rename_i h'
      · cases h
      · split at h' <;> first | cases h' | (split at h' <;> cases h')
      · split at h' <;> first | cases h' | (split at h' <;> cases h')
    obtain ⟨a', b', g1, g2, g3, -⟩ := iir.evaluate_spec residue hres style (x * f') hx order.toNat hon
    simp only at h
    rw [g1] at h
    cases h
    rw [hD x a b g1, iir.deviation_eq _ _ _ _ (by intro h; rw [h] at g3; simp at g3) g2]
  rw [← hrate] at hs
  rcases search.run_spec (fun scale => iir.evaluate residue style (scale * f') order.toNat) (iir.deviation f' count.toNat) D hD'
    (iir.rate order.toNat count.toNat) s hs with ⟨n, k, ⟨a, b⟩, q1, q2, q3, q4, q5, q6, q7, q8⟩ | ⟨n, e, -, -, -, q1, -⟩
  · refine ⟨n, k, a, b, q1, q2, ?_, ?_, q6, q7, ?_⟩
    · rw [heps]; exact q3
    · rw [heps]; exact q4
    · have hpos : 0 < s k := search.scales_pos D _ s hs k
      obtain ⟨a', b', g1, g2, g3, g4, g5, g6, g7⟩ := iir.evaluate_spec residue hres style (s k * f') (mul_pos hpos hfpos) order.toNat hon
      rw [g1] at q7
      cases q7
      unfold iir.design
      simp only [show ¬ (f ≤ 0 ∨ f ≥ 1) by push Not; exact ⟨hf, hf1⟩, show ¬ order ≤ 0 by omega, show ¬ count ≤ 0 by omega, if_false]
      rw [← hf', q8]
      cases complement with
      | false => simp
      | true =>
        simp only [if_true, alternate_alternate]
        have hane : a ≠ [] := by intro h; rw [h] at g3; simp at g3
        have hne := stable_sum_ne a g2 hane g5
        rw [alternate_one_sub a g2 hane, g6, div_self hne]
        simp
  · exfalso
    have hpos : 0 < s n := search.scales_pos D _ s hs n
    obtain ⟨a', b', g1, -⟩ := iir.evaluate_spec residue hres style (s n * f') (mul_pos hpos hfpos) order.toNat hon
    rw [g1] at q1
    cases q1

/-- Such scale factors and deviations exist for all arguments. -/
example (residue : List ℝ → List ℝ → List ℂ × List ℂ) (style : IStyle) (f rate : ℝ) (order count : ℕ) :
    ∃ D s, Scales D rate (1 / 2 ^ 52) s ∧ ∀ x a b, iir.evaluate residue style (x * f) order = .ok (a, b) →
      D x = 1 / Real.sqrt 2 - ‖freqResp a b f‖ ^ count := by
  let D : ℝ → ℝ := fun x => match iir.evaluate residue style (x * f) order with
    | .ok ab => 1 / Real.sqrt 2 - ‖freqResp ab.1 ab.2 f‖ ^ count
    | .error _ => 0
  refine ⟨D, search.scales D rate, ⟨rfl, fun k => ?_⟩, ?_⟩
  · show max _ search.eps = _
    unfold search.eps
    norm_num
  · intro x a b h
    simp only [D, h]

end Verif.Props
