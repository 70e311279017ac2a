import Verif.Lemmas.IirState
import Verif.Spec.Linear
import Verif.Spec.Recursion
import Verif.Props.Iir
import Verif.Props.IirDesign

/-
Properties of IirFilter from an arbitrary state: linearity and cascades (C72), stability (C73), steady state (C74).
-/

namespace Verif.Props

open Finset Spec

variable {R : Type*}

theorem linC_length [CommRing R] (α β : R) (u v : List R) (h : u.length = v.length) : (lin α β u v).length = u.length := by
  simp [lin, h]

theorem at0_linC [CommRing R] (α β : R) (u v : List R) (h : u.length = v.length) (i : ℕ) :
    at0 (lin α β u v) i = α * at0 u i + β * at0 v i := by
  by_cases hi : i < u.length
  · rw [at0_of_lt _ _ (by simp [lin]; omega), at0_of_lt _ _ hi, at0_of_lt _ _ (by omega)]
    simp [lin]
  · rw [at0_of_le _ _ (by simp [lin]; omega), at0_of_le _ _ (by omega), at0_of_le _ _ (by omega)]
    simp

theorem dot_linC [CommRing R] (α β : R) (c u v : List R) (h : u.length = v.length) : dot c (lin α β u v) = α * dot c u + β * dot c v := by
  rw [dot_eq_sum, dot_eq_sum, dot_eq_sum, mul_sum, mul_sum, ← sum_add_distrib]
  apply sum_congr rfl
  intro i _
  rw [at0_linC α β u v h]
  ring

theorem mem_linC [CommRing R] (f : Iir R) (hc : f.cast = id) (α β : R) (s t : List R) (h : s.length = t.length) :
    ({ f with s := lin α β s t } : Iir R).mem = lin α β ({ f with s := s } : Iir R).mem ({ f with s := t } : Iir R).mem := by
  cases s with
  | nil => cases t with
    | nil => rfl
    | cons => simp at h
  | cons p s => cases t with
    | nil => simp at h
    | cons q t =>
      have hd := dot_linC α β f.a (p :: s) (q :: t) h
      simp only [Iir.mem, hc]
      simp only [lin, List.zipWith_cons_cons, List.modifyHead_cons, id] at hd ⊢
      rw [hd]
      congr 1
      ring

theorem dropLast_linC [CommRing R] (α β : R) (u v : List R) (h : u.length = v.length) : (lin α β u v).dropLast = lin α β u.dropLast v.dropLast := by
  rw [List.dropLast_eq_take, List.dropLast_eq_take, List.dropLast_eq_take, linC_length α β u v h, ← h, lin, List.take_zipWith, lin]

theorem run_linC [CommRing R] (α β : R) (xs : List R) : ∀ (ys : List R) (f : Iir R) (s t : List R), xs.length = ys.length → f.a.length = f.b.length →
    0 < f.b.length → s.length = f.b.length → t.length = f.b.length → f.cast = id →
    ∃ u v s' t', runLoop Iir.step { f with s := s } xs = (.ok u, { f with s := s' }) ∧
      runLoop Iir.step { f with s := t } ys = (.ok v, { f with s := t' }) ∧ u.length = v.length ∧ s'.length = t'.length ∧
      runLoop Iir.step { f with s := lin α β s t } (lin α β xs ys) = (.ok (lin α β u v), { f with s := lin α β s' t' }) := by
  induction xs with
  | nil =>
    intro ys f s t hl _ _ hs ht _
    have : ys = [] := List.length_eq_zero_iff.mp hl.symm
    subst this
    exact ⟨[], [], s, t, rfl, rfl, rfl, by omega, rfl⟩
  | cons x xs ih =>
    intro ys f s t hl hab hb hs ht hc
    cases ys with
    | nil => simp at hl
    | cons y ys =>
      have hst : s.length = t.length := by omega
      obtain ⟨c, fa, fb, fs⟩ := f
      simp only at hc hab hb hs ht
      subst hc
      set f : Iir R := ⟨id, fa, fb, fs⟩ with hfd
      have hc : f.cast = id := rfl
      have w1 := Iir.step_wf { f with s := s } ⟨hab, hs.symm, hb⟩ x
      have w2 := Iir.step_wf { f with s := t } ⟨hab, ht.symm, hb⟩ y
      have w3 := Iir.step_wf { f with s := lin α β s t } ⟨hab, by rw [linC_length α β s t hst]; exact hs.symm, hb⟩ (α * x + β * y)
      set m1 := ({ f with s := s } : Iir R).mem with hm1
      set m2 := ({ f with s := t } : Iir R).mem with hm2
      have hm3 : ({ f with s := lin α β s t } : Iir R).mem = lin α β m1 m2 := mem_linC f hc α β s t hst
      have l1 : m1.length = f.b.length := by rw [hm1, Iir.mem_length]; exact hs
      have l2 : m2.length = f.b.length := by rw [hm2, Iir.mem_length]; exact ht
      have h3 : (α * x + β * y) :: (lin α β m1 m2).dropLast = lin α β (x :: m1.dropLast) (y :: m2.dropLast) := by
        rw [dropLast_linC α β m1 m2 (by omega)]; rfl
      rw [hm3] at w3
      replace w1 : ({ f with s := s } : Iir R).step x = (.ok (dot f.comb (x :: m1.dropLast)), { f with s := x :: m1.dropLast }) := w1
      replace w2 : ({ f with s := t } : Iir R).step y = (.ok (dot f.comb (y :: m2.dropLast)), { f with s := y :: m2.dropLast }) := w2
      replace w3 : ({ f with s := lin α β s t } : Iir R).step (α * x + β * y) = (.ok (dot f.comb ((α * x + β * y) :: (lin α β m1 m2).dropLast)),
        { f with s := (α * x + β * y) :: (lin α β m1 m2).dropLast }) := w3
      rw [h3] at w3
      have hlen : (x :: m1.dropLast).length = (y :: m2.dropLast).length := by simp; omega
      rw [dot_linC α β _ _ _ hlen] at w3
      have hb' : 0 < f.b.length := hb
      have k1 : (x :: m1.dropLast).length = f.b.length := by rw [List.length_cons, List.length_dropLast, l1]; omega
      have k2 : (y :: m2.dropLast).length = f.b.length := by rw [List.length_cons, List.length_dropLast, l2]; omega
      obtain ⟨u, v, s', t', r1, r2, r3, r4, r5⟩ := ih ys f (x :: m1.dropLast) (y :: m2.dropLast) (by simpa using hl) hab hb k1 k2 hc
      refine ⟨dot f.comb (x :: m1.dropLast) :: u, dot f.comb (y :: m2.dropLast) :: v, s', t', ?_, ?_, by simp [r3], r4, ?_⟩
      · rw [runLoop_cons_ok _ _ _ _ _ _ w1]
        simp [thenRun, r1]
      · rw [runLoop_cons_ok _ _ _ _ _ _ w2]
        simp [thenRun, r2]
      · change runLoop Iir.step _ ((α * x + β * y) :: lin α β xs ys) = _
        rw [runLoop_cons_ok _ _ _ _ _ _ w3]
        simp [thenRun, r5]
        rfl

/-- C72.  IirFilter is linear in the signal and the state together, for float and complex dtype. -/
theorem C72_iir_linear [CommRing R] (f : Iir R) (hc : f.cast = id) (hab : f.a.length = f.b.length) (hb : 0 < f.b.length) (α β : R)
    (s t : List R) (hs : s.length = f.b.length) (ht : t.length = f.b.length) (x y : List R) (hx : x ≠ []) (hxy : x.length = y.length) :
    ∃ u v s' t', ({ f with s := s } : Iir R).filter x = (.ok u, { f with s := s' }) ∧
      ({ f with s := t } : Iir R).filter y = (.ok v, { f with s := t' }) ∧
      ({ f with s := lin α β s t } : Iir R).filter (lin α β x y) = (.ok (lin α β u v), { f with s := lin α β s' t' }) := by
  obtain ⟨u, v, s', t', r1, r2, -, -, r5⟩ := run_linC α β x y f s t hxy hab hb hs ht hc
  have hx0 : x.length ≠ 0 := by simpa using hx
  refine ⟨u, v, s', t', ?_, ?_, ?_⟩
  · simp only [Iir.filter, if_neg hx0, r1]
  · simp only [Iir.filter, if_neg (hxy ▸ hx0), r2]
  · simp only [Iir.filter, if_neg (show (lin α β x y).length ≠ 0 by rw [linC_length α β x y hxy]; exact hx0), r5]

/-- A filter of the first order with two states and two signals. -/
example := C72_iir_linear (⟨id, [0, 1], [1, 0], [0, 0]⟩ : Iir ℤ) rfl rfl (by simp) 2 (-3) [1, 2] [0, 5] rfl rfl [1, 0, 7] [0, 1, 1] (by simp) rfl

/-- C72.  IirFilter is time invariant: leading zeros delay the output. -/
theorem C72_iir_time_invariant [CommRing R] [DecidableEq R] (a b : List R) (hne : a ≠ [] ∨ b ≠ []) (h0 : at0 a 0 = 0) (x : List R) (hx : x ≠ []) (d : ℕ) :
    ∃ f y g g', Iir.new id (some a) (some b) none = .ok f ∧ f.filter x = (.ok y, g) ∧
      f.filter (List.replicate d 0 ++ x) = (.ok (List.replicate d 0 ++ y), g') := by
  obtain ⟨f, h1, hc, hfa, hfb, hfs⟩ := Iir.new_spec id a b none hne h0
  have hfb' : f.b = padTo (max a.length b.length) b := by rw [hfb]; simp
  have hfs' : f.s = List.replicate (max a.length b.length) 0 := by rw [hfs]; simp [padTo]
  have hwf : f.WF := by
    refine ⟨?_, ?_, ?_⟩
    · rw [hfa, hfb']; simp [padTo]
    · rw [hfs', hfb']; simp [padTo]
    · rw [hfb']
      simp only [padTo, List.length_append, List.length_replicate]
      have : 0 < a.length ∨ 0 < b.length := by
        rcases hne with h | h
        · exact Or.inl (List.length_pos_iff.mpr h)
        · exact Or.inr (List.length_pos_iff.mpr h)
      omega
  have h0' : at0 f.a 0 = 0 := by rw [hfa, at0_padTo, h0]
  have hz : ∀ v ∈ f.s, v = 0 := by rw [hfs']; intro v hv; exact List.eq_of_mem_replicate hv
  obtain ⟨y, g, q1, q2, q3⟩ := Iir.filter_series f hwf hc h0' hz x hx
  obtain ⟨w, g', p1, p2, p3⟩ := Iir.filter_series f hwf hc h0' hz (List.replicate d 0 ++ x) (by simp [hx])
  refine ⟨f, y, g, g', h1, q1, ?_⟩
  rw [p1]
  have hser : ser (List.replicate d 0 ++ x) = PowerSeries.X ^ d * ser x := by
    ext n
    rw [PowerSeries.coeff_X_pow_mul', coeff_ser]
    by_cases hd : d ≤ n
    · rw [if_pos hd, coeff_ser]
      unfold at0
      rw [List.getD_eq_getElem?_getD, List.getElem?_append_right (by simpa using hd), List.length_replicate, List.getD_eq_getElem?_getD]
    · rw [if_neg hd]
      unfold at0
      rw [List.getD_eq_getElem?_getD, List.getElem?_append_left (by simp; omega), List.getElem?_replicate, if_pos (by omega)]
      rfl
  have : w = List.replicate d 0 ++ y := by
    apply List.ext_getElem?
    intro k
    by_cases hk : k < (List.replicate d 0 ++ x).length
    · rw [p3 k hk, hser, show ser f.b * (recip f.a * (PowerSeries.X ^ d * ser x)) = PowerSeries.X ^ d * (ser f.b * (recip f.a * ser x)) by ring,
        PowerSeries.coeff_X_pow_mul']
      by_cases hd : d ≤ k
      · rw [if_pos hd, List.getElem?_append_right (by simpa using hd), List.length_replicate, q3 (k - d) (by simp at hk; omega)]
      · rw [if_neg hd, List.getElem?_append_left (by simp; omega), List.getElem?_replicate, if_pos (by omega)]
    · rw [List.getElem?_eq_none (by omega), List.getElem?_eq_none (by simp [q2] at hk ⊢; omega)]
  rw [this]

/-- A delay of three samples. -/
example := C72_iir_time_invariant (R := ℤ) [0, 1] [1, 2] (by simp) rfl [1, 0, 7] (by simp) 3

/-- C72.  Two filters in cascade are the filter whose numerator and denominator are the products, from the zero state; in particular
their order does not matter.  The denominators are `1 - a_1 z^{-1} - ...`. -/
theorem C72_iir_cascade [CommRing R] (f g h : Iir R) (hf : f.WF) (hg : g.WF) (hh : h.WF) (hfc : f.cast = id) (hgc : g.cast = id) (hhc : h.cast = id)
    (hf0 : at0 f.a 0 = 0) (hg0 : at0 g.a 0 = 0) (hh0 : at0 h.a 0 = 0) (hfz : ∀ v ∈ f.s, v = 0) (hgz : ∀ v ∈ g.s, v = 0) (hhz : ∀ v ∈ h.s, v = 0)
    (hb : ∀ n, at0 h.b n = conv f.b g.b n) (ha : ∀ n, at0 h.a n = at0 f.a n + at0 g.a n - conv f.a g.a n) (x : List R) (hx : x ≠ []) :
    ∃ y z f' g' h', f.filter x = (.ok y, f') ∧ g.filter y = (.ok z, g') ∧ h.filter x = (.ok z, h') := by
  obtain ⟨y, f', a1, a2, a3⟩ := Iir.filter_series f hf hfc hf0 hfz x hx
  have hy : y ≠ [] := by intro q; rw [q] at a2; exact hx (List.length_eq_zero_iff.mp a2.symm)
  obtain ⟨z, g', b1, b2, b3⟩ := Iir.filter_series g hg hgc hg0 hgz y hy
  obtain ⟨w, h', c1, c2, c3⟩ := Iir.filter_series h hh hhc hh0 hhz x hx
  refine ⟨y, z, f', g', h', a1, b1, ?_⟩
  have hB : ser h.b = ser f.b * ser g.b := by
    ext n
    rw [coeff_ser, hb, PowerSeries.coeff_mul, Finset.Nat.sum_antidiagonal_eq_sum_range_succ_mk]
    simp [conv]
  have hA : 1 - ser h.a = (1 - ser f.a) * (1 - ser g.a) := by
    have : ser h.a = ser f.a + ser g.a - ser f.a * ser g.a := by
      ext n
      rw [coeff_ser, ha, map_sub, map_add, PowerSeries.coeff_mul, Finset.Nat.sum_antidiagonal_eq_sum_range_succ_mk]
      simp [conv]
    rw [this]; ring
  have hR : recip h.a = recip f.a * recip g.a := by
    have e1 := mul_recip h.a hh0
    have e2 := mul_recip f.a hf0
    have e3 := mul_recip g.a hg0
    rw [hA] at e1
    linear_combination (recip f.a * recip g.a) * e1 - (recip h.a * (1 - ser g.a) * recip g.a) * e2 - recip h.a * e3
  have hw : w = z := by
    apply List.ext_getElem?
    intro k
    by_cases hk : k < x.length
    · rw [c3 k hk, b3 k (by omega), hB, hR]
      congr 1
      rw [show ser f.b * ser g.b * (recip f.a * recip g.a * ser x) = (ser g.b * recip g.a) * (ser f.b * (recip f.a * ser x)) by ring,
        ← mul_assoc (ser g.b) (recip g.a) (ser y), PowerSeries.coeff_mul, PowerSeries.coeff_mul]
      apply sum_congr rfl
      intro ⟨i, j⟩ hij
      have hij : i + j = k := by simpa using hij
      simp only
      congr 1
      rw [coeff_ser]
      simp [at0, List.getD, a3 j (by omega)]
    · rw [List.getElem?_eq_none (by omega), List.getElem?_eq_none (by omega)]
  rw [c1, hw]

/-- Two first order filters and their product. -/
example : ∃ y z f' g' h', (⟨id, [0, 1], [1, 0], [0, 0]⟩ : Iir ℤ).filter [1, 0, 0] = (.ok y, f') ∧
    (⟨id, [0, 2], [1, 1], [0, 0]⟩ : Iir ℤ).filter y = (.ok z, g') ∧
    (⟨id, [0, 3, -2], [1, 1, 0], [0, 0, 0]⟩ : Iir ℤ).filter [1, 0, 0] = (.ok z, h') ∧ z = [1, 4, 10] := ⟨_, _, _, _, _, rfl, rfl, rfl, by decide⟩

theorem wf_ne {g : Iir R} (hwf : g.WF) : g.a ≠ [] := by
  intro h
  have h1 := hwf.1
  have h3 := hwf.2.2
  rw [h] at h1
  simp at h1
  omega

/-- C73.  A stable filter in any state answers bounded signals with bounded signals: the gain does not depend on the state. -/
theorem C73_bibo_any_state (g : Iir ℝ) (hc : g.cast = id) (hwf : g.WF) (h0 : at0 g.a 0 = 0) (hst : Stable g.a) :
    ∃ K, ∀ s : List ℝ, s.length = g.b.length → ∃ C, ∀ (x : List ℝ) (M : ℝ), x ≠ [] → (∀ v ∈ x, |v| ≤ M) →
      ∃ y g', ({ g with s := s } : Iir ℝ).filter x = (.ok y, g') ∧ y.length = x.length ∧ ∀ v ∈ y, |v| ≤ K * M + C := by
  obtain ⟨K, hK⟩ := stable_impulse g.a g.b h0 (wf_ne hwf) hst
  have hcoef : ∀ n, ‖PowerSeries.coeff n ((ser g.b * recip g.a).map Complex.ofRealHom)‖ = |PowerSeries.coeff n (ser g.b * recip g.a)| := by
    intro n; rw [PowerSeries.coeff_map]; simp
  have hone : ∀ n, |PowerSeries.coeff n (ser g.b * recip g.a)| ≤ K := by
    intro n
    have := hK (n + 1)
    rw [sum_range_succ] at this
    have h2 : 0 ≤ ∑ k ∈ range n, ‖PowerSeries.coeff k ((ser g.b * recip g.a).map Complex.ofRealHom)‖ := sum_nonneg fun _ _ => norm_nonneg _
    rw [← hcoef]
    linarith
  refine ⟨K, fun s hs => ?_⟩
  obtain ⟨u, hul, hu⟩ := Iir.filter_split { g with s := s } ⟨hwf.1, hs.symm, hwf.2.2⟩ hc h0
  refine ⟨∑ j ∈ range u.length, K * |at0 u (u.length - 1 - j)|, fun x M hx hM => ?_⟩
  obtain ⟨y, g', h1, h2, h3⟩ := hu x hx
  refine ⟨y, g', h1, h2, ?_⟩
  have hMpos : 0 ≤ M := by
    cases x with
    | nil => exact absurd rfl hx
    | cons v x => exact (abs_nonneg v).trans (hM v (by simp))
  have hxM : ∀ i, |at0 x i| ≤ M := by
    intro i
    by_cases hi : i < x.length
    · rw [at0_of_lt _ _ hi]; exact hM _ (List.getElem_mem hi)
    · rw [at0_of_le _ _ (by omega)]; simpa using hMpos
  intro v hv
  obtain ⟨k, hk, rfl⟩ := List.getElem_of_mem hv
  rw [← at0_of_lt _ _ hk, h3 k (by omega)]
  refine (abs_add_le _ _).trans (add_le_add ?_ ?_)
  · calc |∑ i ∈ range (k + 1), PowerSeries.coeff i (ser g.b * recip g.a) * at0 x (k - i)|
        ≤ ∑ i ∈ range (k + 1), |PowerSeries.coeff i (ser g.b * recip g.a) * at0 x (k - i)| := Finset.abs_sum_le_sum_abs _ _
      _ ≤ ∑ i ∈ range (k + 1), ‖PowerSeries.coeff i ((ser g.b * recip g.a).map Complex.ofRealHom)‖ * M := by
          apply sum_le_sum
          intro i _
          rw [abs_mul, hcoef]
          exact mul_le_mul_of_nonneg_left (hxM _) (abs_nonneg _)
      _ = (∑ i ∈ range (k + 1), ‖PowerSeries.coeff i ((ser g.b * recip g.a).map Complex.ofRealHom)‖) * M := by rw [sum_mul]
      _ ≤ _ := mul_le_mul_of_nonneg_right (hK (k + 1)) hMpos
  · refine (Finset.abs_sum_le_sum_abs _ _).trans (sum_le_sum fun j _ => ?_)
    rw [abs_mul]
    exact mul_le_mul_of_nonneg_right (hone _) (abs_nonneg _)

/-- C73.  A stable filter forgets its state: for any two states the outputs for the same signal approach each other, at a rate which does
not depend on the signal. -/
theorem C73_forgets (g : Iir ℝ) (hc : g.cast = id) (hwf : g.WF) (h0 : at0 g.a 0 = 0) (hst : Stable g.a) (s t : List ℝ)
    (hs : s.length = g.b.length) (ht : t.length = g.b.length) (ε : ℝ) (hε : 0 < ε) :
    ∃ N, ∀ x : List ℝ, x ≠ [] → ∃ y z g' h', ({ g with s := s } : Iir ℝ).filter x = (.ok y, g') ∧
      ({ g with s := t } : Iir ℝ).filter x = (.ok z, h') ∧ y.length = x.length ∧ z.length = x.length ∧
      ∀ n, N ≤ n → n < x.length → |at0 y n - at0 z n| < ε := by
  obtain ⟨K, hK⟩ := stable_impulse g.a g.b h0 (wf_ne hwf) hst
  obtain ⟨u, hul, hu⟩ := Iir.filter_split { g with s := s } ⟨hwf.1, hs.symm, hwf.2.2⟩ hc h0
  obtain ⟨v, hvl, hv⟩ := Iir.filter_split { g with s := t } ⟨hwf.1, ht.symm, hwf.2.2⟩ hc h0
  have hfade : ∀ w : List ℝ, ∃ N, ∀ k ≥ N, |∑ j ∈ range w.length, PowerSeries.coeff (k + 1 + j) (ser g.b * recip g.a) * at0 w (w.length - 1 - j)| < ε / 2 := by
    intro w
    have h := fade hK (np.complexOf w)
    rw [Metric.tendsto_atTop] at h
    obtain ⟨N, hN⟩ := h (ε / 2) (by linarith)
    refine ⟨N, fun k hk => ?_⟩
    have := hN k hk
    rw [dist_zero_right] at this
    have e : ∑ j ∈ range (np.complexOf w).length, PowerSeries.coeff (k + 1 + j) ((ser g.b * recip g.a).map Complex.ofRealHom) * at0 (np.complexOf w) ((np.complexOf w).length - 1 - j) =
        ((∑ j ∈ range w.length, PowerSeries.coeff (k + 1 + j) (ser g.b * recip g.a) * at0 w (w.length - 1 - j) : ℝ) : ℂ) := by
      rw [show (np.complexOf w).length = w.length by simp [np.complexOf]]
      push_cast
      apply sum_congr rfl
      intro j _
      rw [PowerSeries.coeff_map, at0_complexOf]
      rfl
    rw [e, Complex.norm_real, Real.norm_eq_abs] at this
    exact this
  obtain ⟨N1, h1⟩ := hfade u
  obtain ⟨N2, h2⟩ := hfade v
  refine ⟨max N1 N2, fun x hx => ?_⟩
  obtain ⟨y, g', y1, y2, y3⟩ := hu x hx
  obtain ⟨z, h', z1, z2, z3⟩ := hv x hx
  refine ⟨y, z, g', h', y1, z1, y2, z2, fun n hn hnx => ?_⟩
  rw [y3 n hnx, z3 n hnx]
  have b1 := abs_lt.mp (h1 n (le_of_max_le_left hn))
  have b2 := abs_lt.mp (h2 n (le_of_max_le_right hn))
  rw [abs_lt]
  simp only
  constructor <;> linarith [b1.1, b1.2, b2.1, b2.2]

/-- C74.  A stable filter in any state, given the complex exponential of frequency `u`, approaches the response at `u` times that
exponential. -/
theorem C74_iir_steady (a b : List ℝ) (g : Iir ℂ) (hga : g.a = np.complexOf a) (hgb : g.b = np.complexOf b) (hc : g.cast = id) (hwf : g.WF)
    (h0 : at0 a 0 = 0) (hst : Stable a) (u : ℝ) (ε : ℝ) (hε : 0 < ε) :
    ∃ N, ∀ L, 0 < L → ∃ y g', g.filter ((List.range L).map fun n : ℕ => Complex.exp (Complex.I * Real.pi * u * n)) = (.ok y, g') ∧ y.length = L ∧
      ∀ n, N ≤ n → n < L → ‖at0 y n - freqResp a b u * Complex.exp (Complex.I * Real.pi * u * n)‖ < ε := by
  have hane : a ≠ [] := by
    intro h
    have := wf_ne hwf
    rw [hga, h] at this
    exact this rfl
  obtain ⟨-, hsum⟩ := impulse_sum a b h0 hane hst u
  obtain ⟨K, hK⟩ := stable_impulse a b h0 hane hst
  rw [map_mul, recip_map a h0, ser_map_ofReal] at hK
  obtain ⟨p, hpl, hp⟩ := Iir.filter_split g hwf hc (by rw [hga, at0_complexOf, h0]; simp)
  have hf := fade hK p
  rw [Metric.tendsto_atTop] at hf hsum
  obtain ⟨N1, h1⟩ := hf (ε / 2) (by linarith)
  obtain ⟨N2, h2⟩ := hsum (ε / 2) (by linarith)
  refine ⟨max N1 N2, fun L hL => ?_⟩
  set x := (List.range L).map fun n : ℕ => Complex.exp (Complex.I * Real.pi * u * n) with hx
  have hxl : x.length = L := by simp [hx]
  obtain ⟨y, g', y1, y2, y3⟩ := hp x (by intro q; rw [q] at hxl; simp at hxl; omega)
  refine ⟨y, g', y1, by omega, fun n hn hnL => ?_⟩
  rw [y3 n (by omega), hga, hgb]
  have b1 := h1 n (le_of_max_le_left hn)
  have b2 := h2 (n + 1) (by have := le_of_max_le_right hn; omega)
  rw [dist_zero_right] at b1
  rw [dist_eq_norm] at b2
  set E := Complex.exp (Complex.I * Real.pi * u * n) with hE
  have hEn : ‖E‖ = 1 := by
    rw [hE, show Complex.I * Real.pi * u * n = ((Real.pi * u * n : ℝ) : ℂ) * Complex.I by push_cast; ring, Complex.norm_exp_ofReal_mul_I]
  have e : ∑ i ∈ range (n + 1), PowerSeries.coeff i (ser (np.complexOf b) * recip (np.complexOf a)) * at0 x (n - i) =
      (∑ i ∈ range (n + 1), PowerSeries.coeff i (ser (np.complexOf b) * recip (np.complexOf a)) * Complex.exp (-(Complex.I * Real.pi * u * i))) * E := by
    rw [sum_mul]
    apply sum_congr rfl
    intro i hi
    have hi := mem_range.mp hi
    rw [mul_assoc, hE, ← Complex.exp_add]
    congr 1
    unfold at0
    rw [List.getD_eq_getElem?_getD, hx, List.getElem?_map, List.getElem?_range (by omega)]
    simp only [Option.map_some, Option.getD_some]
    congr 1
    rw [Nat.cast_sub (by omega)]
    ring
  rw [e]
  set S := ∑ i ∈ range (n + 1), PowerSeries.coeff i (ser (np.complexOf b) * recip (np.complexOf a)) * Complex.exp (-(Complex.I * Real.pi * u * i))
  set T := ∑ j ∈ range p.length, PowerSeries.coeff (n + 1 + j) (ser (np.complexOf b) * recip (np.complexOf a)) * at0 p (p.length - 1 - j)
  calc ‖S * E + T - freqResp a b u * E‖ = ‖(S - freqResp a b u) * E + T‖ := by congr 1; ring
    _ ≤ ‖(S - freqResp a b u) * E‖ + ‖T‖ := norm_add_le _ _
    _ = ‖S - freqResp a b u‖ + ‖T‖ := by rw [norm_mul, hEn, mul_one]
    _ < ε := by linarith

/-- C74.  A stable filter in any state, given a constant, approaches the gain at zero frequency times that constant. -/
theorem C74_iir_dc (g : Iir ℝ) (hc : g.cast = id) (hwf : g.WF) (h0 : at0 g.a 0 = 0) (hst : Stable g.a) (c ε : ℝ) (hε : 0 < ε) :
    ∃ N, ∀ L, 0 < L → ∃ y g', g.filter (List.replicate L c) = (.ok y, g') ∧ y.length = L ∧
      ∀ n, N ≤ n → n < L → |at0 y n - g.b.sum / (1 - g.a.sum) * c| < ε := by
  obtain ⟨hne, hsum⟩ := impulse_sum g.a g.b h0 (wf_ne hwf) hst 0
  obtain ⟨K, hK⟩ := stable_impulse g.a g.b h0 (wf_ne hwf) hst
  have d0 : ∀ l : List ℝ, dtft l 0 = ((l.sum : ℝ) : ℂ) := by
    intro l
    rw [sum_eq_range]
    unfold dtft
    push_cast
    apply sum_congr rfl
    intro i _
    simp
  have hH : freqResp g.a g.b 0 = ((g.b.sum / (1 - g.a.sum) : ℝ) : ℂ) := by
    rw [freqResp, d0, d0]; push_cast; rfl
  rw [hH] at hsum
  obtain ⟨p, hpl, hp⟩ := Iir.filter_split g hwf hc h0
  have hf := fade hK (np.complexOf p)
  rw [Metric.tendsto_atTop] at hf hsum
  obtain ⟨N1, h1⟩ := hf (ε / 2) (by linarith)
  obtain ⟨N2, h2⟩ := hsum (ε / 2 / (|c| + 1)) (by positivity)
  refine ⟨max N1 N2, fun L hL => ?_⟩
  obtain ⟨y, g', y1, y2, y3⟩ := hp (List.replicate L c) (by intro q; have := congrArg List.length q; simp at this; omega)
  refine ⟨y, g', y1, by simpa using y2, fun n hn hnL => ?_⟩
  rw [y3 n (by simpa using hnL)]
  have b1 := h1 n (le_of_max_le_left hn)
  have b2 := h2 (n + 1) (by have := le_of_max_le_right hn; omega)
  rw [dist_zero_right] at b1
  rw [dist_eq_norm] at b2
  set S := ∑ i ∈ range (n + 1), PowerSeries.coeff i (ser g.b * recip g.a) with hS
  set T := ∑ j ∈ range p.length, PowerSeries.coeff (n + 1 + j) (ser g.b * recip g.a) * at0 p (p.length - 1 - j) with hT
  have e1 : ∑ i ∈ range (n + 1), PowerSeries.coeff i (ser g.b * recip g.a) * at0 (List.replicate L c) (n - i) = S * c := by
    rw [hS, sum_mul]
    apply sum_congr rfl
    intro i hi
    congr 1
    unfold at0
    rw [List.getD_eq_getElem?_getD, List.getElem?_replicate, if_pos (by omega)]
    rfl
  have e2 : ∑ i ∈ range (n + 1), PowerSeries.coeff i (ser (np.complexOf g.b) * recip (np.complexOf g.a)) *
      Complex.exp (-(Complex.I * Real.pi * ((0 : ℝ) : ℂ) * i)) = (S : ℂ) := by
    rw [hS, ← ser_map_ofReal, ← recip_map g.a h0, ← map_mul]
    push_cast
    apply sum_congr rfl
    intro i _
    rw [PowerSeries.coeff_map]
    simp
  have e3 : ∑ j ∈ range (np.complexOf p).length, PowerSeries.coeff (n + 1 + j) ((ser g.b * recip g.a).map Complex.ofRealHom) *
      at0 (np.complexOf p) ((np.complexOf p).length - 1 - j) = (T : ℂ) := by
    rw [show (np.complexOf p).length = p.length by simp [np.complexOf], hT]
    push_cast
    apply sum_congr rfl
    intro j _
    rw [PowerSeries.coeff_map, at0_complexOf]
    rfl
  rw [e2, ← Complex.ofReal_sub, Complex.norm_real, Real.norm_eq_abs] at b2
  rw [e3, Complex.norm_real, Real.norm_eq_abs] at b1
  rw [e1]
  have b3 : |S - g.b.sum / (1 - g.a.sum)| * |c| ≤ ε / 2 := by
    have hc1 : 0 < |c| + 1 := by positivity
    have := mul_le_mul_of_nonneg_right b2.le (abs_nonneg c)
    refine this.trans ?_
    rw [div_mul_eq_mul_div, div_le_iff₀ hc1]
    nlinarith [abs_nonneg c]
  calc |S * c + T - g.b.sum / (1 - g.a.sum) * c| = |(S - g.b.sum / (1 - g.a.sum)) * c + T| := by congr 1; ring
    _ ≤ |(S - g.b.sum / (1 - g.a.sum)) * c| + |T| := abs_add_le _ _
    _ = |S - g.b.sum / (1 - g.a.sum)| * |c| + |T| := by rw [abs_mul]
    _ < ε := by linarith

/-- C74.  Every designed filter, in any state, given a constant approaches `gain` times that constant, and zero for a complement (high
pass) design. -/
theorem C74_design_dc (residue : List ℝ → List ℝ → List ℂ × List ℂ) (hres : ResidueSpec residue) (style : IStyle) (f : ℝ) (hf : 0 < f)
    (hf1 : f < 1) (order count : ℤ) (ho : 0 < order) (hcount : 0 < count) (complement : Bool) (gain : ℝ) :
    ∃ g, Iir.newDesign residue (some style) f order count complement gain none = .ok g ∧
      ∀ s : List ℝ, s.length = g.b.length → ∀ c ε : ℝ, 0 < ε → ∃ N, ∀ L, 0 < L →
        ∃ y g', ({ g with s := s } : Iir ℝ).filter (List.replicate L c) = (.ok y, g') ∧ y.length = L ∧
          ∀ n, N ≤ n → n < L → |at0 y n - (if complement then 0 else gain) * c| < ε := by
  obtain ⟨g, h1, h2, h3, h4, h5, -, h6, h7, h8⟩ := Iir.newDesign_spec residue hres style f hf hf1 order count ho hcount complement gain
  refine ⟨g, h1, fun s hs c ε hε => ?_⟩
  obtain ⟨N, hN⟩ := C74_iir_dc { g with s := s } h2 ⟨h3.1, hs.symm, h3.2.2⟩ h5 h6 c ε hε
  have hne : 1 - g.a.sum ≠ 0 := by
    have := (impulse_sum g.a g.b h5 (wf_ne h3) h6 0).1
    intro q
    apply this
    rw [sum_eq_range] at q
    unfold dtft
    have q' := congrArg (fun r : ℝ => (r : ℂ)) q
    push_cast at q'
    rw [← q']
    congr 1
    apply sum_congr rfl
    intro i _
    simp
  have hgain : g.b.sum / (1 - g.a.sum) = if complement then 0 else gain := by
    cases complement with
    | false => rw [(h7 rfl).1]; simp; field_simp
    | true => rw [(h8 rfl).2]; simp
  simp only at hN
  rw [hgain] at hN
  exact ⟨N, hN⟩

/-- The hypotheses of `C73_bibo_any_state`, `C73_forgets`, `C74_iir_steady` and `C74_iir_dc` hold for a stable recursion: `y_n = y_{n-1}/2 + x_n` has the pole 1/2. -/
example : Stable [0, 1/2] ∧ at0 ([0, 1/2] : List ℝ) 0 = 0 ∧ (⟨id, [0, 1/2], [1, 0], [5, 7]⟩ : Iir ℝ).WF := by
  refine ⟨?_, rfl, rfl, rfl, by simp⟩
  intro z hz
  simp [Pole, at0] at hz
  rw [hz]
  norm_num

end Verif.Props
