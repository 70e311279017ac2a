import Verif.Model.IirDelay
import Verif.Spec.Delay
import Verif.Lemmas.Response
import Verif.Lemmas.IirDesign
import Verif.Props.Response
import Mathlib.Analysis.SpecialFunctions.ExpDeriv
import Mathlib.Analysis.Calculus.Deriv.Star
import Mathlib.Analysis.Calculus.Deriv.Inv
import Mathlib.Analysis.Calculus.Deriv.Mul
import Mathlib.Analysis.Complex.RealDeriv
import Mathlib.Tactic.LinearCombination

namespace Verif

open Finset Spec Complex Verif.Props

/-- `∑ n c_n e^{-jπfn}`. -/
noncomputable def dtftRamp (c : List ℝ) (f : ℝ) : ℂ :=
  ∑ n ∈ range c.length, ((at0 c n * n : ℝ) : ℂ) * Complex.exp (-(Complex.I * Real.pi * f * n))

theorem hasDerivAt_cexp (n : ℂ) (f : ℝ) : HasDerivAt (fun f : ℝ => cexp (-(I * Real.pi * f * n))) (-(I * Real.pi * n) * cexp (-(I * Real.pi * f * n))) f := by
  have h : HasDerivAt (fun z : ℂ => cexp (-(I * Real.pi * z * n))) (cexp (-(I * Real.pi * f * n)) * (-(I * Real.pi * n))) (f : ℂ) := by
    apply HasDerivAt.cexp
    have := (((hasDerivAt_id (f : ℂ)).const_mul (I * Real.pi)).mul_const n).neg
    rw [mul_one] at this
    exact this
  have h' := h.comp_ofReal
  rw [mul_comm (cexp _)] at h'
  exact h'

theorem hasDerivAt_dtft (c : List ℝ) (f : ℝ) : HasDerivAt (dtft c) (-(I * Real.pi) * dtftRamp c f) f := by
  have h : HasDerivAt (fun f : ℝ => ∑ n ∈ range c.length, ((at0 c n : ℝ) : ℂ) * cexp (-(I * Real.pi * f * n)))
      (∑ n ∈ range c.length, ((at0 c n : ℝ) : ℂ) * (-(I * Real.pi * n) * cexp (-(I * Real.pi * f * n)))) f :=
    HasDerivAt.fun_sum fun n _ => (hasDerivAt_cexp n f).const_mul _
  have e : -(I * Real.pi) * dtftRamp c f = ∑ n ∈ range c.length, ((at0 c n : ℝ) : ℂ) * (-(I * Real.pi * n) * cexp (-(I * Real.pi * f * n))) := by
    rw [dtftRamp, mul_sum]
    apply sum_congr rfl
    intro n _
    push_cast
    ring
  rw [e]
  exact h

theorem dtft_neg (c : List ℝ) (f : ℝ) : dtft c (-f) = (starRingEnd ℂ) (dtft c f) := by
  unfold dtft
  rw [map_sum]
  apply sum_congr rfl
  intro n _
  rw [map_mul, conj_ofReal, ← exp_conj]
  congr 2
  simp

theorem dtft_convolve (u v : List ℝ) (hu : u ≠ []) (hv : v ≠ []) (f : ℝ) : dtft (np.convolve u v) f = dtft u f * dtft v f := by
  have h := polyval_circle (np.convolve u v) f
  rw [complexOf_convolve, np.polyval_eq, np.toPoly_convolve _ _ (by simpa [np.complexOf] using hv), Polynomial.eval_mul,
    ← np.polyval_eq, ← np.polyval_eq, polyval_circle, polyval_circle, np.convolve_length _ _ hv] at h
  have hl := List.length_pos_iff.mpr hu
  have hl' := List.length_pos_iff.mpr hv
  have hp : u.length + v.length - 1 - 1 = (u.length - 1) + (v.length - 1) := by omega
  rw [hp, pow_add] at h
  have hn : cexp (I * Real.pi * f) ^ (u.length - 1) * cexp (I * Real.pi * f) ^ (v.length - 1) ≠ 0 :=
    mul_ne_zero (pow_ne_zero _ (exp_ne_zero _)) (pow_ne_zero _ (exp_ne_zero _))
  apply mul_left_cancel₀ hn
  rw [← h]
  ring

theorem dtft_reverse (v : List ℝ) (hv : v ≠ []) (f : ℝ) :
    dtft v.reverse f = cexp (-(I * Real.pi * f * ((v.length : ℂ) - 1))) * (starRingEnd ℂ) (dtft v f) := by
  have h := polyval_reverse v.reverse f
  have hl := List.length_pos_iff.mpr hv
  rw [show (np.complexOf v.reverse).reverse = np.complexOf v by simp [np.complexOf]] at h
  have h2 := polyval_circle v (-f)
  rw [show I * Real.pi * ((-f : ℝ) : ℂ) = -(I * Real.pi * f) by push_cast; ring, h, dtft_neg, ← exp_nat_mul] at h2
  rw [h2, Nat.cast_sub hl]
  congr 2
  push_cast
  ring

/-- The ramp of the product with a reversed array. -/
theorem ramp_quotient (b a : List ℝ) (hb : b ≠ []) (ha : a ≠ []) (f : ℝ) :
    dtftRamp (np.convolve b a.reverse) f = cexp (-(I * Real.pi * f * ((a.length : ℂ) - 1))) *
      (dtftRamp b f * (starRingEnd ℂ) (dtft a f) + ((a.length : ℂ) - 1) * dtft b f * (starRingEnd ℂ) (dtft a f) -
        dtft b f * (starRingEnd ℂ) (dtftRamp a f)) := by
  have hr : a.reverse ≠ [] := by simpa using ha
  have h1 := hasDerivAt_dtft (np.convolve b a.reverse) f
  have h2 : HasDerivAt (fun f => dtft b f * (cexp (-(I * Real.pi * f * ((a.length : ℂ) - 1))) * (starRingEnd ℂ) (dtft a f)))
      (-(I * Real.pi) * dtftRamp b f * (cexp (-(I * Real.pi * f * ((a.length : ℂ) - 1))) * (starRingEnd ℂ) (dtft a f)) +
        dtft b f * (-(I * Real.pi * ((a.length : ℂ) - 1)) * cexp (-(I * Real.pi * f * ((a.length : ℂ) - 1))) * (starRingEnd ℂ) (dtft a f) +
          cexp (-(I * Real.pi * f * ((a.length : ℂ) - 1))) * (starRingEnd ℂ) (-(I * Real.pi) * dtftRamp a f))) f :=
    (hasDerivAt_dtft b f).mul ((hasDerivAt_cexp _ f).mul (hasDerivAt_dtft a f).star)
  have e : dtft (np.convolve b a.reverse) = fun f => dtft b f * (cexp (-(I * Real.pi * f * ((a.length : ℂ) - 1))) * (starRingEnd ℂ) (dtft a f)) := by
    funext f
    rw [dtft_convolve _ _ hb hr, dtft_reverse a ha]
  rw [e] at h1
  have h := h1.unique h2
  have hne : -(I * Real.pi : ℂ) ≠ 0 := by simp [Real.pi_ne_zero]
  apply mul_left_cancel₀ hne
  rw [h]
  simp only [map_mul, map_neg, conj_I, conj_ofReal]
  ring

/-- The formula of the library is the difference of the delays of numerator and denominator. -/
theorem delay_quotient (b a : List ℝ) (hb : b ≠ []) (ha : a ≠ []) (f : ℝ) (h1 : dtft b f ≠ 0) (h2 : dtft a f ≠ 0) :
    dtft (np.convolve b a.reverse) f ≠ 0 ∧
    (dtftRamp (np.convolve b a.reverse) f / dtft (np.convolve b a.reverse) f).re - (a.length : ℝ) + 1 =
      (dtftRamp b f / dtft b f - dtftRamp a f / dtft a f).re := by
  have hc : (starRingEnd ℂ) (dtft a f) ≠ 0 := by simpa using h2
  have hE := exp_ne_zero (-(I * Real.pi * f * ((a.length : ℂ) - 1)))
  have e : dtft (np.convolve b a.reverse) f = dtft b f * (cexp (-(I * Real.pi * f * ((a.length : ℂ) - 1))) * (starRingEnd ℂ) (dtft a f)) := by
    rw [dtft_convolve _ _ hb (by simpa using ha), dtft_reverse a ha]
  constructor
  · rw [e]; exact mul_ne_zero h1 (mul_ne_zero hE hc)
  · have q : dtftRamp (np.convolve b a.reverse) f / dtft (np.convolve b a.reverse) f =
        dtftRamp b f / dtft b f + (((a.length : ℝ) - 1 : ℝ) : ℂ) - (starRingEnd ℂ) (dtftRamp a f / dtft a f) := by
      rw [e, ramp_quotient b a hb ha, map_div₀]
      push_cast
      field_simp
    rw [q, sub_re, add_re, conj_re, ofReal_re, sub_re]
    ring

theorem groupDelay_quotient (B A : ℝ → ℂ) (rB rA : ℂ) (f : ℝ) (h1 : HasDerivAt B (-(I * Real.pi) * rB) f) (h2 : HasDerivAt A (-(I * Real.pi) * rA) f)
    (hB : B f ≠ 0) (hA : A f ≠ 0) : groupDelay (fun f => B f / A f) f = (rB / B f - rA / A f).re := by
  unfold groupDelay
  rw [(h1.fun_div h2 hA).deriv]
  have e : (-(I * Real.pi) * rB * A f - B f * (-(I * Real.pi) * rA)) / A f ^ 2 / (B f / A f) = ((-Real.pi : ℝ) : ℂ) * (I * (rB / B f - rA / A f)) := by
    push_cast
    field_simp
    ring
  rw [e, im_ofReal_mul, I_mul_im]
  field_simp [Real.pi_ne_zero]

/-- The grid of the library and the axis name the same points of the circle. -/
theorem grid_point (N : ℕ) (hN : 0 < N) (he : Even N) (k : ℕ) (hk : k < N) :
    cexp (-(I * (2 * Real.pi * ((N / 2 + k) % N : ℕ) / N))) = cexp (-(I * Real.pi * (axis N k : ℝ))) := by
  have hNr : (N : ℝ) ≠ 0 := by positivity
  have hax : ∃ j : ℤ, (2 * (((N / 2 + k) % N : ℕ) : ℝ) / N : ℝ) = axis N k + 2 * j := by
    obtain ⟨m, hm⟩ := he
    have h2 : N / 2 + N / 2 = N := by omega
    have h2r : ((N / 2 : ℕ) : ℝ) + ((N / 2 : ℕ) : ℝ) = N := by exact_mod_cast h2
    unfold axis
    by_cases h : N / 2 + k < N
    · refine ⟨1, ?_⟩
      rw [Nat.mod_eq_of_lt h]
      push_cast
      field_simp
      linarith
    · refine ⟨0, ?_⟩
      rw [Nat.mod_eq_sub_mod (by omega), Nat.mod_eq_of_lt (by omega), Nat.cast_sub (by omega)]
      push_cast
      field_simp
      linarith
  obtain ⟨j, hj⟩ := hax
  have e : -(I * (2 * Real.pi * ((N / 2 + k) % N : ℕ) / N)) = -(I * Real.pi * (axis N k : ℝ)) + ((-j : ℤ) : ℂ) * (2 * Real.pi * I) := by
    have : (2 * Real.pi * ((N / 2 + k) % N : ℕ) / N : ℂ) = Real.pi * ((2 * (((N / 2 + k) % N : ℕ) : ℝ) / N : ℝ) : ℂ) := by push_cast; ring
    rw [this, hj]
    push_cast
    ring
  rw [e, exp_add, exp_int_mul_two_pi_mul_I, mul_one]

theorem linspace_axis (N : ℕ) (hN : 0 < N) : np.linspace (-1) (1 - 2 / ((N : ℤ) : ℝ)) N = (List.range N).map (axis N) := by
  unfold np.linspace
  apply List.map_congr_left
  intro k hk
  have hk := List.mem_range.mp hk
  have hNr : (N : ℝ) ≠ 0 := by positivity
  unfold axis
  by_cases h1 : N = 1
  · have : k = 0 := by omega
    subst this; simp
  · have : (N : ℝ) - 1 ≠ 0 := by
      have : (N : ℝ) ≠ 1 := by exact_mod_cast h1
      exact sub_ne_zero.mpr this
    push_cast
    field_simp
    ring

theorem groupDelay2_getElem (b a : List ℝ) (hb : b ≠ []) (ha : a ≠ []) (N : ℕ) (hN : 0 < N) (he : Even N) (k : ℕ) (hk : k < N)
    (h1 : dtft b (axis N k) ≠ 0) (h2 : dtft a (axis N k) ≠ 0) :
    (np.rotate (np.groupDelay2 b a N))[k]? = some (groupDelay (fun f => dtft b f / dtft a f) (axis N k)) := by
  classical
  have hgl : (np.groupDelay2 b a N).length = N := by simp [np.groupDelay2]
  rw [rotate_getElem? _ _ (by rw [hgl]; exact hk), hgl]
  unfold np.groupDelay2
  rw [List.getElem?_map, List.getElem?_range (Nat.mod_lt _ hN)]
  simp only [Option.map_some]
  rw [grid_point N hN he k hk, polyval_reverse, polyval_ramp]
  obtain ⟨q1, q2⟩ := delay_quotient b a hb ha _ h1 h2
  rw [if_neg q1]
  congr 1
  rw [groupDelay_quotient _ _ _ _ _ (hasDerivAt_dtft b _) (hasDerivAt_dtft a _) h1 h2, ← q2]
  rfl

theorem minAbs_foldl (t : List ℝ) (m : ℝ) : (t.foldl (fun m w => min m |w|) m ≤ m) ∧ (∀ v ∈ t, t.foldl (fun m w => min m |w|) m ≤ |v|) ∧
    (0 ≤ m → 0 ≤ t.foldl (fun m w => min m |w|) m) := by
  induction t generalizing m with
  | nil => simp
  | cons w t ih =>
    obtain ⟨h1, h2, h3⟩ := ih (min m |w|)
    refine ⟨h1.trans (min_le_left _ _), ?_, fun h => h3 (le_min h (abs_nonneg _))⟩
    intro v hv
    rcases List.mem_cons.mp hv with rfl | hv
    · exact h1.trans (min_le_right _ _)
    · exact h2 v hv

theorem maxAbs_foldl (t : List ℝ) (m : ℝ) : (m ≤ t.foldl (fun m w => max m |w|) m) ∧ (∀ v ∈ t, |v| ≤ t.foldl (fun m w => max m |w|) m) ∧
    (t.foldl (fun m w => max m |w|) m = m ∨ ∃ v ∈ t, t.foldl (fun m w => max m |w|) m = |v|) := by
  induction t generalizing m with
  | nil => simp
  | cons w t ih =>
    obtain ⟨h1, h2, h3⟩ := ih (max m |w|)
    refine ⟨(le_max_left _ _).trans h1, ?_, ?_⟩
    · intro v hv
      rcases List.mem_cons.mp hv with rfl | hv
      · exact (le_max_right _ _).trans h1
      · exact h2 v hv
    · rcases h3 with h3 | ⟨v, hv, h3⟩
      · rcases max_choice m |w| with hm | hm
        · left; rw [List.foldl_cons, h3, hm]
        · right; exact ⟨w, by simp, by rw [List.foldl_cons, h3, hm]⟩
      · right; exact ⟨v, by simp [hv], h3⟩

theorem minAbs_le (e : List ℝ) (v : ℝ) (hv : v ∈ e) : np.minAbs e ≤ |v| := by
  cases e with
  | nil => simp at hv
  | cons w t =>
    rcases List.mem_cons.mp hv with rfl | hv
    · exact (minAbs_foldl t _).1
    · exact (minAbs_foldl t _).2.1 v hv

theorem minAbs_nonneg (e : List ℝ) : 0 ≤ np.minAbs e := by
  cases e with
  | nil => exact le_rfl
  | cons w t => exact (minAbs_foldl t _).2.2 (abs_nonneg _)

theorem le_maxAbs (e : List ℝ) (v : ℝ) (hv : v ∈ e) : |v| ≤ np.maxAbs e := by
  cases e with
  | nil => simp at hv
  | cons w t =>
    rcases List.mem_cons.mp hv with rfl | hv
    · exact (maxAbs_foldl t _).1
    · exact (maxAbs_foldl t _).2.1 v hv

theorem maxAbs_mem (e : List ℝ) (he : e ≠ []) : ∃ v ∈ e, np.maxAbs e = |v| := by
  cases e with
  | nil => exact absurd rfl he
  | cons w t =>
    rcases (maxAbs_foldl t |w|).2.2 with h | ⟨v, hv, h⟩
    · exact ⟨w, by simp, h⟩
    · exact ⟨v, by simp [hv], h⟩

theorem edge_length (e : List ℝ) : (Iir.edge e).length = e.length := by
  unfold Iir.edge; split <;> simp

/-- The treatment of an edge shrinks each sample towards zero. -/
theorem edge_shrinks (e : List ℝ) (k : ℕ) (v : ℝ) (hv : e[k]? = some v) : ∃ t, 0 ≤ t ∧ t ≤ 1 ∧ (Iir.edge e)[k]? = some (t * v) := by
  classical
  unfold Iir.edge
  split
  · have hm := minAbs_le e v (List.mem_of_getElem? hv)
    rw [List.getElem?_map, hv]
    rcases lt_trichotomy v 0 with h | h | h
    · refine ⟨np.minAbs e / |v|, div_nonneg (minAbs_nonneg e) (abs_nonneg v), (div_le_one (abs_pos.mpr h.ne)).mpr hm, ?_⟩
      simp only [Option.map_some, Option.some.injEq, Real.sign_of_neg h, abs_of_neg h]
      have := h.ne
      field_simp
    · exact ⟨1, by norm_num, by norm_num, by simp [h]⟩
    · refine ⟨np.minAbs e / |v|, div_nonneg (minAbs_nonneg e) (abs_nonneg v), (div_le_one (abs_pos.mpr h.ne')).mpr hm, ?_⟩
      simp only [Option.map_some, Option.some.injEq, Real.sign_of_pos h, abs_of_pos h]
      field_simp
  · exact ⟨1, by norm_num, by norm_num, by simpa using hv⟩

/-- Within a factor of ten nothing is changed. -/
theorem edge_id (e : List ℝ) (he : e ≠ []) (h : ∀ u ∈ e, ∀ v ∈ e, |u| ≤ 10 * |v|) : Iir.edge e = e := by
  unfold Iir.edge
  rw [if_neg]
  obtain ⟨u, hu, h1⟩ := maxAbs_mem e he
  have h2 : ∃ v ∈ e, np.minAbs e = |v| := by
    cases e with
    | nil => exact absurd rfl he
    | cons w t =>
      have key : ∀ (t : List ℝ) (m : ℝ), t.foldl (fun m w => min m |w|) m = m ∨ ∃ v ∈ t, t.foldl (fun m w => min m |w|) m = |v| := by
        intro t
        induction t with
        | nil => simp
        | cons w t ih =>
          intro m
          rcases ih (min m |w|) with h | ⟨v, hv, h⟩
          · rcases min_choice m |w| with hm | hm
            · left; rw [List.foldl_cons, h, hm]
            · right; exact ⟨w, by simp, by rw [List.foldl_cons, h, hm]⟩
          · right; exact ⟨v, by simp [hv], h⟩
      rcases key t |w| with h | ⟨v, hv, h⟩
      · exact ⟨w, by simp, h⟩
      · exact ⟨v, by simp [hv], h⟩
  obtain ⟨v, hv, h2⟩ := h2
  rw [h1, h2, not_lt]
  have := h u hu v hv
  linarith

/-- After the treatment the magnitudes of an edge are within a factor of ten. -/
theorem edge_spread (e : List ℝ) (u v : ℝ) (hu : u ∈ Iir.edge e) (hv : v ∈ Iir.edge e) : |u| ≤ 10 * |v| := by
  have h0 := minAbs_nonneg e
  unfold Iir.edge at hu hv
  split at hu
  · rename_i hc
    rw [if_pos hc] at hv
    obtain ⟨p, hp, rfl⟩ := List.mem_map.mp hu
    obtain ⟨q, hq, rfl⟩ := List.mem_map.mp hv
    by_cases hm : np.minAbs e = 0
    · simp [hm]
    · have hpq : ∀ p ∈ e, |Real.sign p * np.minAbs e| = np.minAbs e := by
        intro p hp
        have : p ≠ 0 := by
          intro h
          have := minAbs_le e p hp
          rw [h, abs_zero] at this
          exact hm (le_antisymm this h0)
        rw [abs_mul, abs_of_nonneg h0]
        rcases lt_or_gt_of_ne this with h | h
        · rw [Real.sign_of_neg h]; simp
        · rw [Real.sign_of_pos h]; simp
      rw [hpq p hp, hpq q hq]
      linarith
  · rename_i hc
    rw [if_neg hc] at hv
    have h1 := le_maxAbs e u hu
    have h2 := minAbs_le e v hv
    rw [not_lt] at hc
    linarith

end Verif
