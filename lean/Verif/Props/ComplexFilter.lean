import Verif.Lemmas.ComplexFilter
import Verif.Props.Response
import Verif.Props.IirState
import Verif.Props.Dtype

/-
Property C133: filters with complex coefficients (fir_filter.py:211-318, iir_filter.py:192-205, 288-373).
-/

namespace Verif.Props

open Finset Spec

/-! ### Construction and filtering -/

open scoped Classical in
/-- C133.  With forward coefficients of a complex type, recursive coefficients of the type complex128, or recursive coefficients of the type
complex64 which are fewer than the forward ones, a new IirFilter follows the documented recursion over the complex numbers. -/
theorem C133_recursion (ta tb : ElemType) (a b x : List ℂ) (hne : a ≠ [] ∨ b ≠ []) (h0 : at0 a 0 = 0) (hx : x ≠ [])
    (ht : tb ≠ .real ∨ ta = .double ∨ ta = .single ∧ a.length < b.length) :
    ∃ f y f', Iir.newTyped ta tb a b = .ok f ∧ f.filter x = (.ok y, f') ∧ Recursion a b x y := by
  have hstore : (ElemType.ofForward ta tb a b).store = id := by
    have : ElemType.ofForward ta tb a b ≠ .real := by
      unfold ElemType.ofForward
      rcases ht with h | h | ⟨h, h'⟩
      · cases tb
        · exact absurd rfl h
        all_goals
          simp only
          split_ifs <;> simp_all [ElemType.padded]
      · subst h
        have : (if a.length < b.length then ElemType.double.padded else ElemType.double) = .double := by split_ifs <;> rfl
        simp [this, ElemType.isComplex]
      · subst h
        simp [h', ElemType.padded, ElemType.isComplex]
    funext z
    cases h : ElemType.ofForward ta tb a b
    · exact absurd h this
    · rfl
    · rfl
  unfold Iir.newTyped
  rw [hstore]
  exact C07_iir_difference_equation a b x hne h0 hx

/-- `y_n = j y_{n-1} + x_n`, recursive coefficients complex128 and forward coefficients real. -/
example : ∃ f y f', Iir.newTyped .double .real [0, Complex.I] [1, 0] = .ok f ∧ f.filter [1, 0, 0] = (.ok y, f') ∧ Recursion [0, Complex.I] [1, 0] [1, 0, 0] y :=
  C133_recursion .double .real [0, Complex.I] [1, 0] [1, 0, 0] (Or.inl (by simp)) (by simp [at0]) (by simp) (Or.inr (Or.inl rfl))

theorem dot_re (a : List ℂ) (s : List ℝ) : (dot a (s.map fun v : ℝ => (v : ℂ))).re = dot (a.map Complex.re) s := by
  rw [dot_def, dot_def]
  induction a generalizing s with
  | nil => simp
  | cons v a ih =>
    cases s with
    | nil => simp
    | cons w s => simp [ih s]

/-- A filter of real numbers and one which keeps real parts in its state. -/
def DropRel (f : Iir ℝ) (g : Iir ℂ) : Prop :=
  f.WF ∧ f.cast = id ∧ g.cast = ElemType.real.store ∧ f.a = g.a.map Complex.re ∧ g.b = f.b.map (fun v : ℝ => (v : ℂ)) ∧ g.s = f.s.map (fun v : ℝ => (v : ℂ))

theorem DropRel.step (f : Iir ℝ) (g : Iir ℂ) (x : ℂ) (h : DropRel f g) :
    (Iir.step g x).1 = (Iir.step f x.re).1.map (fun v : ℝ => (v : ℂ)) ∧ DropRel (Iir.step f x.re).2 (Iir.step g x).2 := by
  obtain ⟨hw, h1, h2, h3, h4, h5⟩ := h
  have hgw : g.WF := by
    obtain ⟨w1, w2, w3⟩ := hw
    refine ⟨?_, ?_, ?_⟩
    · rw [h4, List.length_map, ← w1, h3, List.length_map]
    · rw [h4, h5, List.length_map, List.length_map, w2]
    · rw [h4, List.length_map]; exact w3
  have hmem : g.mem = f.mem.map (fun v : ℝ => (v : ℂ)) := by
    unfold Iir.mem
    rw [h5, h1, h2, h3]
    rcases hs : f.s with _ | ⟨v, t⟩
    · rfl
    · rw [List.map_cons, List.modifyHead_cons, List.modifyHead_cons, List.map_cons]
      congr 1
      simp only [ElemType.store, id, Complex.add_re, Complex.ofReal_re]
      rw [← List.map_cons (f := fun v : ℝ => (v : ℂ)), dot_re]
  have hcomb : g.comb.map Complex.re = f.comb := by
    unfold Iir.comb
    rw [h4, h3]
    rcases f.b with _ | ⟨b0, bt⟩
    · rfl
    · simp only [List.map_cons]
      rcases g.a with _ | ⟨a0, at'⟩
      · rfl
      · simp [List.map_zipWith, List.zipWith_map_right, List.zipWith_map_left]
  rw [Iir.step_wf f hw, Iir.step_wf g hgw, h1, h2, hmem]
  have hst : ElemType.real.store x :: (f.mem.map (fun v : ℝ => (v : ℂ))).dropLast = (x.re :: f.mem.dropLast).map (fun v : ℝ => (v : ℂ)) := by
    simp [ElemType.store]
  rw [hst]
  refine ⟨?_, ?_, ?_, ?_, ?_, ?_, ?_⟩
  · simp only [Except.map, id, ElemType.store]
    rw [dot_re, hcomb]
  · obtain ⟨w1, w2, w3⟩ := hw
    refine ⟨w1, ?_, w3⟩
    simp [Iir.mem_length]; omega
  · rfl
  · rfl
  · exact h3
  · exact h4
  · rfl

open scoped Classical in
/-- C133.  With recursive coefficients of the type complex64, not fewer than the real forward ones, the imaginary parts of the recursive
coefficients have no effect: the filter follows the recursion of their real parts. -/
theorem C133_dropped (a : List ℂ) (b : List ℝ) (x : List ℂ) (hb : b ≠ []) (hl : b.length ≤ a.length) (h0 : at0 a 0 = 0) (hx : x ≠ []) :
    ∃ f y f', Iir.newTyped .single .real a (b.map fun v : ℝ => (v : ℂ)) = .ok f ∧ f.filter x = (.ok (y.map fun v : ℝ => (v : ℂ)), f') ∧
      Recursion (a.map Complex.re) b (x.map Complex.re) y := by
  have ht : ElemType.ofForward .single .real a (b.map fun v : ℝ => (v : ℂ)) = .real := by
    unfold ElemType.ofForward
    have : ¬ a.length < (b.map fun v : ℝ => (v : ℂ)).length := by rw [List.length_map]; omega
    simp only [if_neg this, ElemType.isComplex, ElemType.padded]
    split_ifs <;> simp_all
  have h0' : at0 (a.map Complex.re) 0 = 0 := by
    cases a with
    | nil => rfl
    | cons v t => simp [at0] at h0 ⊢; rw [h0]; rfl
  obtain ⟨f, y, f', e1, e2, e3⟩ := C07_iir_difference_equation (a.map Complex.re) b (x.map Complex.re) (Or.inr hb) h0' (by simpa using hx)
  obtain ⟨k, k1, k2, k3, k4, k5⟩ := Iir.new_spec id (a.map Complex.re) b none (Or.inr hb) h0'
  rw [e1] at k1; cases k1
  obtain ⟨g, g1, g2, g3, g4, g5⟩ := Iir.new_spec ElemType.real.store a (b.map fun v : ℝ => (v : ℂ)) none (Or.inr (by simpa using hb)) h0
  have hpos : 0 < b.length := List.length_pos_of_ne_nil hb
  have hrel : DropRel f g := by
    refine ⟨⟨?_, ?_, ?_⟩, k2, g2, ?_, ?_, ?_⟩
    · rw [k3, k4]; simp [padTo]
    · rw [k5, k4]; simp [padTo]
    · rw [k4]; simp [padTo]; omega
    · rw [k3, g3]; simp [padTo]
    · rw [k4, g4]; simp [padTo]
    · rw [k5, g5]; simp [padTo, ElemType.store]
  have hlx : x.length ≠ 0 := by simpa using hx
  have hsim := (runLoop_sim Iir.step Iir.step DropRel Complex.re (fun v : ℝ => (v : ℂ)) (fun f g v h => DropRel.step f g v h) f g hrel x).1
  have hf : runLoop Iir.step f (x.map Complex.re) = (.ok y, f') := by
    have := e2
    simp only [Iir.filter, List.length_map, hlx, if_false] at this
    exact this
  rw [hf] at hsim
  rcases eg : runLoop Iir.step g x with ⟨r, g'⟩
  rw [eg] at hsim
  simp only [Except.map] at hsim
  subst hsim
  refine ⟨g, y, g', ?_, ?_, e3⟩
  · unfold Iir.newTyped
    rw [ht]
    exact g1
  · simp only [Iir.filter, hlx, if_false]
    exact eg

/-- `y_n = j y_{n-1} + x_n` with a complex64 coefficient is `y_n = x_n`, the same with a complex128 coefficient or one more forward coefficient
is not. -/
example : (∃ f f', Iir.newTyped .single .real [0, Complex.I] ([1, 0].map fun v : ℝ => (v : ℂ)) = .ok f ∧ f.filter [1, 0] = (.ok [1, 0], f')) ∧
    (∃ f f', Iir.newTyped .double .real [0, Complex.I] [1, 0] = .ok f ∧ f.filter [1, 0] = (.ok [1, Complex.I], f')) ∧
    (∃ f f', Iir.newTyped .single .real [0, Complex.I] [1, 0, 0] = .ok f ∧ f.filter [1, 0] = (.ok [1, Complex.I], f')) := by
  refine ⟨?_, ?_, ?_⟩
  · obtain ⟨f, y, f', h1, h2, h3, h4⟩ := C133_dropped [0, Complex.I] [1, 0] [1, 0] (by simp) (by simp) (by simp [at0]) (by simp)
    refine ⟨f, f', h1, ?_⟩
    rw [h2]
    have ey : y = [1, 0] := by
      match y, h3 with
      | [p, q], _ =>
        have e0 := h4 0 (by simp)
        have e1 := h4 1 (by simp)
        simp [at0, sum_range_succ] at e0 e1
        rw [e0, e1]
    rw [ey]; simp
  · obtain ⟨f, y, f', h1, h2, h3, h4⟩ := C133_recursion .double .real [0, Complex.I] [1, 0] [1, 0] (Or.inl (by simp)) (by simp [at0]) (by simp) (Or.inr (Or.inl rfl))
    refine ⟨f, f', h1, ?_⟩
    rw [h2]
    have ey : y = [1, Complex.I] := by
      match y, h3 with
      | [p, q], _ =>
        have e0 := h4 0 (by simp)
        have e1 := h4 1 (by simp)
        simp [at0, sum_range_succ] at e0 e1
        rw [e0] at e1
        rw [e0, e1]; simp
    rw [ey]
  · obtain ⟨f, y, f', h1, h2, h3, h4⟩ := C133_recursion .single .real [0, Complex.I] [1, 0, 0] [1, 0] (Or.inl (by simp)) (by simp [at0]) (by simp) (Or.inr (Or.inr ⟨rfl, by simp⟩))
    refine ⟨f, f', h1, ?_⟩
    rw [h2]
    have ey : y = [1, Complex.I] := by
      match y, h3 with
      | [p, q], _ =>
        have e0 := h4 0 (by simp)
        have e1 := h4 1 (by simp)
        simp [at0, sum_range_succ] at e0 e1
        rw [e0] at e1
        rw [e0, e1]; simp
    rw [ey]

/-! ### Frequency response -/

/-- For real coefficients the methods are those of `C65`, `C66` and `C67`. -/
theorem C133_real (g : Fir ℝ) (q : Iir ℝ) (c : Fir ℂ) (d : Iir ℂ) (hc : c.b = np.complexOf g.b) (hda : d.a = np.complexOf q.a) (hdb : d.b = np.complexOf q.b)
    (length count : ℤ) (k : ℕ) :
    c.responseC length count = g.response length count ∧ d.responseC length count = q.response length count ∧ c.rootsC k = g.roots k ∧ d.rootsC k = q.roots k ∧
      c.delayC length count = g.delay length count := by
  have e1 : np.complexOf [1, 0] = [1, 0] := by simp [np.complexOf]
  have e2 : np.complexOf (1 :: q.a.tail.map (- ·)) = 1 :: (np.complexOf q.a).tail.map (- ·) := by
    cases q.a <;> simp [np.complexOf, Function.comp_def]
  have key : ∀ b a : List ℝ, np.responseC (np.complexOf b) (np.complexOf a) length count = np.response b a length count := fun b a => rfl
  refine ⟨?_, ?_, ?_, ?_, ?_⟩
  · unfold Fir.responseC Fir.response
    rw [hc, ← e1, key]
  · unfold Iir.responseC Iir.response
    rw [hda, hdb, ← e2, key]
  · unfold Fir.rootsC Fir.roots
    rw [hc]; simp [np.complexOf]
  · unfold Iir.rootsC Iir.roots
    rw [hda, hdb, e2]
  · unfold Fir.delayC Fir.delay np.groupDelayC np.groupDelay
    have e3 : ((np.complexOf g.b).zipIdx.map fun p => p.1 * (p.2 : ℂ)) = np.complexOf (g.b.zipIdx.map fun p => p.1 * (p.2 : ℝ)) := by
      unfold np.complexOf
      rw [List.zipIdx_map, List.map_map, List.map_map]
      apply List.map_congr_left
      intro p _
      simp
    rw [hc, e3]

example : ({ cast := id, b := [1, 2], s := [0, 0] } : Fir ℂ).b = np.complexOf ({ cast := id, b := [1, 2], s := [0, 0] } : Fir ℝ).b := by simp [np.complexOf]

/-- The angle of index `k` after the halves are exchanged. -/
theorem rotate_angle (N k : ℕ) (hN : 0 < N) (hk : k < N) (c : List ℂ) :
    np.polyval c.reverse (Complex.exp (-(Complex.I * (2 * Real.pi * ((N / 2 + k) % N : ℕ) / N)))) = dtftC c (2 * (((((N : ℤ) / 2 : ℤ)) : ℝ) + k) / (N : ℤ) - 2) := by
  have hNr : (N : ℝ) ≠ 0 := by positivity
  have hcast : ((((N : ℤ) / 2 : ℤ)) : ℝ) = ((N / 2 : ℕ) : ℝ) := by
    rw [← Int.cast_natCast (N / 2)]
    congr 1
  rw [hcast]
  have hx : Complex.exp (-(Complex.I * (2 * Real.pi * ((N / 2 + k) % N : ℕ) / N))) =
      Complex.exp (-(Complex.I * Real.pi * ((2 * (((N / 2 + k) % N : ℕ) : ℝ) / N : ℝ) : ℂ))) := by
    congr 1
    push_cast
    ring
  rw [hx, polyval_reverseC]
  by_cases h : N / 2 + k < N
  · rw [Nat.mod_eq_of_lt h]
    rw [← dtftC_period c (2 * _ / _ - 2)]
    congr 1
    push_cast
    ring
  · rw [Nat.mod_eq_sub_mod (by omega), Nat.mod_eq_of_lt (by omega), Nat.cast_sub (by omega)]
    congr 1
    push_cast
    field_simp

/-- The frequency of index `k`: that of the axis for even length, and `1/length` below it for odd length. -/
theorem angle_axis (length : ℤ) (hl : 0 < length) (e : ℝ) (he : Even length ∧ e = 0 ∨ Odd length ∧ e = 1 / length) (k : ℕ) :
    2 * (((length / 2 : ℤ) : ℝ) + (k : ℝ)) / (length : ℝ) - 2 = axis length k - e := by
  have hN : (length : ℝ) ≠ 0 := by exact_mod_cast hl.ne'
  unfold axis
  rcases he with ⟨⟨m, rfl⟩, rfl⟩ | ⟨⟨m, rfl⟩, rfl⟩
  · rw [show (m + m) / 2 = m by omega]
    have hm : (m : ℝ) ≠ 0 := by intro q; apply hN; push_cast; rw [q]; norm_num
    push_cast at hN ⊢
    field_simp
    ring
  · rw [show (2 * m + 1) / 2 = m by omega]
    push_cast at hN ⊢
    field_simp
    ring

theorem linspace_axisC (N : ℕ) (hN : 0 < N) : np.linspace (-1) (1 - 2 / ((N : ℤ) : ℝ)) N = (List.range N).map (axis N) := by
  have hNr : (N : ℝ) ≠ 0 := by positivity
  unfold np.linspace
  apply List.map_congr_left
  intro k hk
  unfold axis
  by_cases h1 : N = 1
  · subst h1
    have : k = 0 := by simpa using hk
    subst this; simp
  · have : (N : ℝ) - 1 ≠ 0 := by
      have : (N : ℝ) ≠ 1 := by exact_mod_cast h1
      exact sub_ne_zero.mpr this
    push_cast
    field_simp
    ring

theorem response_generalC (b a : List ℂ) (length count : ℤ) (hl : 0 < length) (hc : 0 < count) (e : ℝ) (he : Even length ∧ e = 0 ∨ Odd length ∧ e = 1 / length) :
    ∃ y f, np.responseC b a length count = .ok (y, f) ∧ y.length = length.toNat ∧ f.length = length.toNat ∧
      ∀ k < length.toNat, f[k]? = some (axis length k) ∧
        y[k]? = some (open scoped Classical in
          if dtftC a (axis length k - e) = 0 then none else some ((dtftC b (axis length k - e) / dtftC a (axis length k - e)) ^ count.toNat)) := by
  classical
  have hang := angle_axis length hl e he
  obtain ⟨N, rfl⟩ : ∃ N : ℕ, length = N := ⟨length.toNat, by omega⟩
  have hN : 0 < N := by exact_mod_cast hl
  refine ⟨_, _, by unfold np.responseC; rw [if_neg (by omega), if_neg (by omega)], by simp [np.rotate, np.freqzC]; omega,
    by simp [np.linspace], ?_⟩
  intro k hk
  simp only [Int.toNat_natCast] at hk ⊢
  constructor
  · rw [linspace_axisC N hN]; simp [hk]
  · rw [List.getElem?_map, rotate_getElem? _ _ (by simpa [np.freqzC] using hk)]
    have hlen : (np.freqzC b a N).length = N := by simp [np.freqzC]
    rw [hlen]
    have hm : (N / 2 + k) % N < N := Nat.mod_lt _ hN
    unfold np.freqzC
    rw [List.getElem?_map, List.getElem?_range hm]
    simp only [Option.map_some]
    rw [rotate_angle N k hN hk, rotate_angle N k hN hk, hang k]
    split <;> simp

/-- C133.  FirFilter.response: index `k` holds the `count`-th power of the response at the frequency `-1 + 2k/length`, for odd length `1/length`
below it. -/
theorem C133_fir_response (g : Fir ℂ) (length count : ℤ) (hl : 0 < length) (hc : 0 < count) (e : ℝ) (he : Even length ∧ e = 0 ∨ Odd length ∧ e = 1 / length) :
    ∃ y f, g.responseC length count = .ok (y, f) ∧ y.length = length.toNat ∧ f.length = length.toNat ∧
      ∀ k < length.toNat, f[k]? = some (axis length k) ∧ y[k]? = some (some (freqRespC [] g.b (axis length k - e) ^ count.toNat)) := by
  obtain ⟨y, f, h1, h2, h3, h4⟩ := response_generalC g.b [1, 0] length count hl hc e he
  refine ⟨y, f, h1, h2, h3, fun k hk => ⟨(h4 k hk).1, ?_⟩⟩
  rw [(h4 k hk).2]
  have hd : dtftC [1, 0] (axis length k - e) = 1 := by simp [dtftC, sum_range_succ, at0]
  rw [hd, if_neg one_ne_zero, freqRespC]
  simp [dtftC]

/-- The hypotheses hold: seven samples of the response of two filters in series. -/
example := C133_fir_response { cast := id, b := [1, Complex.I], s := [0, 0] } 7 2 (by norm_num) (by norm_num) (1 / (7 : ℤ)) (.inr ⟨by decide, rfl⟩)

/-- C133.  IirFilter.response: the same; a sample is undefined exactly where the denominator vanishes. -/
theorem C133_iir_response (g : Iir ℂ) (ha : g.a ≠ []) (h0 : at0 g.a 0 = 0) (length count : ℤ) (hl : 0 < length) (hc : 0 < count)
    (e : ℝ) (he : Even length ∧ e = 0 ∨ Odd length ∧ e = 1 / length) :
    ∃ y f, g.responseC length count = .ok (y, f) ∧ y.length = length.toNat ∧ f.length = length.toNat ∧
      ∀ k < length.toNat, f[k]? = some (axis length k) ∧
        (1 - dtftC g.a (axis length k - e) ≠ 0 → y[k]? = some (some (freqRespC g.a g.b (axis length k - e) ^ count.toNat))) ∧
        (1 - dtftC g.a (axis length k - e) = 0 → y[k]? = some none) := by
  obtain ⟨y, f, h1, h2, h3, h4⟩ := response_generalC g.b (1 :: g.a.tail.map (- ·)) length count hl hc e he
  refine ⟨y, f, h1, h2, h3, fun k hk => ⟨(h4 k hk).1, ?_⟩⟩
  have := (h4 k hk).2
  simp only [dtftC_one_sub g.a ha h0] at this
  rw [this]
  constructor
  · intro h; rw [if_neg h, freqRespC]
  · intro h; rw [if_pos h]

/-- The hypotheses hold: eight samples of the response of a resonator. -/
example := C133_iir_response { cast := id, a := [0, Complex.I / 2], b := [1, 0], s := [0, 0] } (by simp) (by simp [at0]) 8 2 (by norm_num) (by norm_num) 0
  (.inl ⟨by decide, rfl⟩)

theorem C133_response_rejects (g : Fir ℂ) (q : Iir ℂ) (length count : ℤ) (h : length ≤ 0 ∨ count ≤ 0) :
    g.responseC length count = .error .valueError ∧ q.responseC length count = .error .valueError ∧ g.delayC length count = .error .valueError := by
  unfold Fir.responseC Iir.responseC Fir.delayC np.responseC
  by_cases h1 : length ≤ 0
  · simp [h1]
  · simp [h1, h.resolve_left h1]

/-- The response of complex coefficients need not be symmetric: `1 + j z⁻¹` has gain 2 at a quarter of the circle and 0 at minus a quarter. -/
example : freqRespC [] [1, Complex.I] (1 / 2) = 2 ∧ freqRespC [] [1, Complex.I] (-(1 / 2)) = 0 := by
  have e1 : Complex.exp (-(Complex.I * Real.pi * ((1 / 2 : ℝ) : ℂ))) = -Complex.I := by
    rw [show -(Complex.I * Real.pi * ((1 / 2 : ℝ) : ℂ)) = -(Real.pi / 2 * Complex.I) by push_cast; ring, Complex.exp_neg, Complex.exp_pi_div_two_mul_I]
    simp
  have e2 : Complex.exp (-(Complex.I * Real.pi * ((-(1 / 2) : ℝ) : ℂ))) = Complex.I := by
    rw [show -(Complex.I * Real.pi * ((-(1 / 2) : ℝ) : ℂ)) = Real.pi / 2 * Complex.I by push_cast; ring, Complex.exp_pi_div_two_mul_I]
  constructor
  · simp only [freqRespC, dtftC, sum_range_succ, at0, List.length_cons, List.length_nil, range_zero, sum_empty]
    simp only [Nat.cast_one, mul_one, e1]
    simp
    norm_num
  · simp only [freqRespC, dtftC, sum_range_succ, at0, List.length_cons, List.length_nil, range_zero, sum_empty]
    simp only [Nat.cast_one, mul_one, e2]
    simp

/-- C133.  The response is that of the filter: FirFilter in any state answers the complex exponential of frequency `u`, once `len(b) - 1` samples
have passed, with the response at `u` times that exponential. -/
theorem C133_fir_tone (b : List ℂ) (s : Option (List ℂ)) (hb : b ≠ []) (u : ℝ) (N : ℕ) (hN : 0 < N) :
    ∃ g y g', Fir.new id b s = .ok g ∧ g.filter ((List.range N).map fun n : ℕ => Complex.exp (Complex.I * Real.pi * u * n)) = (.ok y, g') ∧ y.length = N ∧
      ∀ n, b.length - 1 ≤ n → n < N → y[n]? = some (freqRespC [] b u * Complex.exp (Complex.I * Real.pi * u * n)) := by
  obtain ⟨g, y, g', h1, h2, h3, h4⟩ := C01_fir_difference_equation b s ((List.range N).map fun n : ℕ => Complex.exp (Complex.I * Real.pi * u * n)) hb (by simpa using hN.ne')
  have hxl : ((List.range N).map fun n : ℕ => Complex.exp (Complex.I * Real.pi * u * n)).length = N := by simp
  refine ⟨g, y, g', h1, h2, by rw [h3, hxl], fun n hn hnN => ?_⟩
  rw [h4 n (by omega)]
  have ht : tail b (s.getD []) n = 0 := by
    unfold tail
    apply sum_eq_zero
    intro i hi
    have := mem_range.mp hi
    rw [if_neg (by omega)]
  rw [ht, add_zero, conv]
  have hs : ∑ i ∈ range (n + 1), at0 b i * at0 ((List.range N).map fun n : ℕ => Complex.exp (Complex.I * Real.pi * u * n)) (n - i) =
      ∑ i ∈ range b.length, at0 b i * at0 ((List.range N).map fun n : ℕ => Complex.exp (Complex.I * Real.pi * u * n)) (n - i) := by
    symm
    apply sum_subset
    · intro i hi; have := mem_range.mp hi; exact mem_range.mpr (by omega)
    · intro i _ hi
      rw [at0_of_le _ _ (by simpa using hi), zero_mul]
  rw [hs, freqRespC]
  simp only [dtftC, List.length_nil, range_zero, sum_empty, sub_zero, div_one]
  rw [sum_mul]
  congr 1
  apply sum_congr rfl
  intro i hi
  have hi := mem_range.mp hi
  have : at0 ((List.range N).map fun n : ℕ => Complex.exp (Complex.I * Real.pi * u * n)) (n - i) = Complex.exp (Complex.I * Real.pi * u * (n - i : ℕ)) := by
    rw [at0_of_lt _ _ (by rw [hxl]; omega)]
    simp
  rw [this, Nat.cast_sub (by omega), show Complex.I * Real.pi * u * ((n : ℂ) - i) = -(Complex.I * Real.pi * u * i) + Complex.I * Real.pi * u * n by ring, Complex.exp_add]
  ring

example : ([1, Complex.I] : List ℂ) ≠ [] := by simp

/-! ### Roots -/

/-- C133.  The poles and zeros reported by IirFilter, sorted by magnitude: the products over them are the denominator and the numerator of the transfer
function of `count` instances, so every root is reported as often as it occurs. -/
theorem C133_iir_roots (g : Iir ℂ) (ha : g.a ≠ []) (b0 : ℂ) (t : List ℂ) (hb : g.b = b0 :: t) (h0 : b0 ≠ 0) (count : ℕ) :
    (∀ z, ((g.rootsC count).1.map (z - ·)).prod = poleValue g.a z ^ count ∧
      ((g.rootsC count).2.map (z - ·)).prod * b0 ^ count = (∑ i ∈ range g.b.length, at0 g.b i * z ^ (g.b.length - 1 - i)) ^ count) ∧
      ((g.rootsC count).1.Pairwise fun u v => ‖u‖ ≤ ‖v‖) ∧ ((g.rootsC count).2.Pairwise fun u v => ‖u‖ ≤ ‖v‖) := by
  refine ⟨fun z => ⟨?_, ?_⟩, sortAbs_sorted _, sortAbs_sorted _⟩
  · have := sorted_roots_prod (g.a.tail.map (- ·)) 1 one_ne_zero count z
    rw [one_pow, mul_one] at this
    unfold Iir.rootsC
    simp only
    rw [this, poly_poleC g.a ha]
  · have := sorted_roots_prod t b0 h0 count z
    rw [← hb] at this
    unfold Iir.rootsC
    simp only
    rw [this, np.eval_toPoly]

/-- C133.  A filter is stable if and only if every pole reported is inside the unit circle. -/
theorem C133_stable_roots (g : Iir ℂ) (ha : g.a ≠ []) (count : ℕ) (hc : 0 < count) : StableC g.a ↔ ∀ z ∈ (g.rootsC count).1, ‖z‖ < 1 := by
  have hz : ∀ z, z ∈ (g.rootsC count).1 ↔ poleValue g.a z = 0 := by
    intro z
    have hprod : ((g.rootsC count).1.map (z - ·)).prod = poleValue g.a z ^ count := by
      have := sorted_roots_prod (g.a.tail.map (- ·)) 1 one_ne_zero count z
      rw [one_pow, mul_one] at this
      unfold Iir.rootsC
      simp only
      rw [this, poly_poleC g.a ha]
    constructor
    · intro h
      rw [List.prod_eq_zero (List.mem_map.mpr ⟨z, h, sub_self z⟩)] at hprod
      exact pow_eq_zero_iff hc.ne' |>.mp hprod.symm
    · intro h
      rw [h, zero_pow hc.ne', List.prod_eq_zero_iff, List.mem_map] at hprod
      obtain ⟨w, hw, e⟩ := hprod
      rw [sub_eq_zero.mp e]; exact hw
  unfold StableC
  constructor
  · intro h z hm; exact h z ((hz z).mp hm)
  · intro h z hm; exact h z ((hz z).mpr hm)

/-- The hypotheses hold: two resonators in series. -/
example := C133_stable_roots { cast := id, a := [0, Complex.I / 2], b := [1, 0], s := [0, 0] } (by simp) 2 (by norm_num)

/-- C133.  FirFilter: the zeros with their multiplicities, and as many poles at the origin. -/
theorem C133_fir_roots (g : Fir ℂ) (b0 : ℂ) (t : List ℂ) (hb : g.b = b0 :: t) (h0 : b0 ≠ 0) (count : ℕ) :
    (∀ z, ((g.rootsC count).2.map (z - ·)).prod * b0 ^ count = (∑ i ∈ range g.b.length, at0 g.b i * z ^ (g.b.length - 1 - i)) ^ count) ∧
      ((g.rootsC count).2.Pairwise fun u v => ‖u‖ ≤ ‖v‖) ∧ (g.rootsC count).1 = List.replicate (count * t.length) 0 := by
  refine ⟨fun z => ?_, sortAbs_sorted _, by simp [Fir.rootsC, hb]⟩
  have := sorted_roots_prod t b0 h0 count z
  rw [← hb] at this
  unfold Fir.rootsC
  simp only
  rw [this, np.eval_toPoly]

/-- `y_n = (j/2) y_{n-1} + x_n`: the pole is `j/2`, without its conjugate. -/
example (s : List ℂ) : ∀ p ∈ (({ cast := id, a := [0, Complex.I / 2], b := [1, 0], s := s } : Iir ℂ).rootsC 1).1, p = Complex.I / 2 := by
  intro p hp
  have h := ((C133_iir_roots { cast := id, a := [0, Complex.I / 2], b := [1, 0], s := s } (by simp) 1 [0] rfl one_ne_zero 1).1 p).1
  rw [List.prod_eq_zero (List.mem_map.mpr ⟨p, hp, sub_self p⟩)] at h
  simp [poleValue, at0] at h
  exact (sub_eq_zero.mp h.symm)

/-! ### Group delay -/

theorem polyval_rampC (b : List ℂ) (f : ℝ) :
    np.polyval (b.zipIdx.map fun p => p.1 * (p.2 : ℂ)).reverse (Complex.exp (-(Complex.I * Real.pi * f))) =
      ∑ n ∈ range b.length, at0 b n * n * Complex.exp (-(Complex.I * Real.pi * f * n)) := by
  rw [polyval_reverseC, dtftC, List.length_map, List.length_zipIdx]
  apply sum_congr rfl
  intro n hn
  have hn := mem_range.mp hn
  congr 1
  rw [at0_of_lt _ _ (by simpa using hn), at0_of_lt _ _ hn]
  simp

/-- The group delay of coefficients which are the conjugates of each other from both ends is half the order, wherever the response does not vanish. -/
theorem hermitian_delay (b : List ℂ) (M : ℕ) (hl : b.length = M + 1) (hs : ∀ n ≤ M, at0 b (M - n) = (starRingEnd ℂ) (at0 b n)) (f : ℝ) (hne : dtftC b f ≠ 0) :
    ((∑ n ∈ range b.length, at0 b n * n * Complex.exp (-(Complex.I * Real.pi * f * n))) / dtftC b f).re = M / 2 := by
  set num := ∑ n ∈ range b.length, at0 b n * n * Complex.exp (-(Complex.I * Real.pi * f * n)) with hnum
  set den := dtftC b f with hden
  have hconj : ∀ n : ℕ, (starRingEnd ℂ) (Complex.exp (-(Complex.I * Real.pi * f * n))) = Complex.exp (Complex.I * Real.pi * f * n) := by
    intro n
    rw [← Complex.exp_conj]
    congr 1
    simp
  set E := Complex.exp (-(Complex.I * Real.pi * f * M)) with hE
  have hsplit : ∀ n ≤ M, Complex.exp (-(Complex.I * Real.pi * f * ((M - n : ℕ) : ℂ))) = E * Complex.exp (Complex.I * Real.pi * f * n) := by
    intro n hn
    rw [hE, ← Complex.exp_add, Nat.cast_sub hn]
    congr 1; ring
  have hd : den = E * (starRingEnd ℂ) den := by
    rw [hden, dtftC, hl, map_sum, mul_sum, ← sum_range_reflect]
    apply sum_congr rfl
    intro n hn
    have hn : n ≤ M := by have := mem_range.mp hn; omega
    rw [show M + 1 - 1 - n = M - n by omega, hs n hn, map_mul, hconj, hsplit n hn]
    ring
  have hn : num = E * (M * (starRingEnd ℂ) den - (starRingEnd ℂ) num) := by
    rw [hnum, hden, dtftC, hl, map_sum, map_sum, mul_sum, ← sum_sub_distrib, mul_sum, ← sum_range_reflect]
    apply sum_congr rfl
    intro n hn
    have hn : n ≤ M := by have := mem_range.mp hn; omega
    rw [show M + 1 - 1 - n = M - n by omega, hs n hn, map_mul, map_mul, map_mul, hconj, hsplit n hn, Complex.conj_natCast]
    rw [Nat.cast_sub hn]
    ring
  have hc : (starRingEnd ℂ) den ≠ 0 := by simpa using hne
  have hq : num / den + (starRingEnd ℂ) (num / den) = M := by
    have h1 : num / den = (M * (starRingEnd ℂ) den - (starRingEnd ℂ) num) / (starRingEnd ℂ) den := by
      rw [div_eq_div_iff hne hc]
      linear_combination (starRingEnd ℂ) den * hn - (M * (starRingEnd ℂ) den - (starRingEnd ℂ) num) * hd
    rw [map_div₀, h1]
    field_simp
    ring
  have := congrArg Complex.re hq
  rw [Complex.add_re, Complex.conj_re] at this
  simp only [Complex.natCast_re] at this
  linarith

/-- C133.  A FirFilter with `b[order - n] = conj(b[n])` reports the group delay `count * order / 2` at every frequency where the response does not
vanish; the first sample is extrapolated from the next two. -/
theorem C133_fir_delay (g : Fir ℂ) (M : ℕ) (hlen : g.b.length = M + 1) (hs : ∀ n ≤ M, at0 g.b (M - n) = (starRingEnd ℂ) (at0 g.b n))
    (length count : ℤ) (hl : 2 < length) (hc : 0 < count) (e : ℝ) (he : Even length ∧ e = 0 ∨ Odd length ∧ e = 1 / length) :
    ∃ y f, g.delayC length count = .ok (y, f) ∧ y.length = length.toNat ∧ f.length = length.toNat ∧
      (∀ k < length.toNat, f[k]? = some (axis length k)) ∧
      (∀ k < length.toNat, 0 < k → dtftC g.b (axis length k - e) ≠ 0 → y[k]? = some (M / 2 * count : ℝ)) ∧
      (dtftC g.b (axis length 1 - e) ≠ 0 → dtftC g.b (axis length 2 - e) ≠ 0 → y[0]? = some (M / 2 * count : ℝ)) := by
  classical
  have hang := angle_axis length (by omega) e he
  obtain ⟨N, rfl⟩ : ∃ N : ℕ, length = N := ⟨length.toNat, by omega⟩
  have hN : 2 < N := by exact_mod_cast hl
  set y0 := (np.rotate (np.groupDelayC g.b N)).map (· * (count : ℝ)) with hy0
  have hlen0 : y0.length = N := by simp [hy0, np.rotate, np.groupDelayC]; omega
  have hval : ∀ k < N, dtftC g.b (axis N k - e) ≠ 0 → y0[k]? = some (M / 2 * count : ℝ) := by
    intro k hk hne
    have hgl : (np.groupDelayC g.b N).length = N := by simp [np.groupDelayC]
    rw [hy0, List.getElem?_map, rotate_getElem? _ _ (by rw [hgl]; exact hk), hgl]
    have hm : (N / 2 + k) % N < N := Nat.mod_lt _ (by omega)
    unfold np.groupDelayC
    rw [List.getElem?_map, List.getElem?_range hm]
    simp only [Option.map_some]
    rw [rotate_angle N k (by omega) hk, rotate_angle N k (by omega) hk, hang k, ← polyval_reverseC (g.b.zipIdx.map _), polyval_rampC, if_neg hne,
      hermitian_delay g.b M hlen hs _ hne]
  refine ⟨y0.set 0 (at0 y0 1 * 2 - at0 y0 2), (List.range N).map (axis N), ?_, by rw [List.length_set, hlen0]; simp, ?_, ?_, ?_, ?_⟩
  · unfold Fir.delayC
    rw [if_neg (by omega), if_neg (by omega)]
    simp only [Int.toNat_natCast]
    rw [linspace_axisC N (by omega), ← hy0, if_pos (by omega)]
    rfl
  · simp
  · intro k hk
    simp only [Int.toNat_natCast] at hk
    simp [hk]
  · intro k hk h0 hne
    rw [List.getElem?_set_ne (by omega)]
    exact hval k (by simpa using hk) hne
  · intro h1 h2
    rw [List.getElem?_set_self (by omega)]
    have e1 : at0 y0 1 = M / 2 * count := by unfold at0; rw [List.getD_eq_getElem?_getD, hval 1 (by omega) h1]; rfl
    have e2 : at0 y0 2 = M / 2 * count := by unfold at0; rw [List.getD_eq_getElem?_getD, hval 2 (by omega) h2]; rfl
    rw [e1, e2]
    congr 1
    ring

/-- `[j, 1, -j]` equals its conjugate from the other end. -/
example : (∀ n ≤ 2, at0 [Complex.I, 1, -Complex.I] (2 - n) = (starRingEnd ℂ) (at0 [Complex.I, 1, -Complex.I] n)) ∧ dtftC [Complex.I, 1, -Complex.I] 0 ≠ 0 := by
  constructor
  · intro n hn
    rcases (by omega : n = 0 ∨ n = 1 ∨ n = 2) with rfl | rfl | rfl <;> simp [at0]
  · simp [dtftC, sum_range_succ, at0]

/-! ### Stability -/

/-- C133.  A stable filter in any state answers bounded signals with bounded signals: the gain does not depend on the state. -/
theorem C133_bibo (g : Iir ℂ) (hc : g.cast = id) (hwf : g.WF) (h0 : at0 g.a 0 = 0) (hst : StableC g.a) :
    ∃ K, ∀ s : List ℂ, s.length = g.b.length → ∃ C, ∀ (x : List ℂ) (M : ℝ), x ≠ [] → (∀ v ∈ x, ‖v‖ ≤ M) →
      ∃ y g', ({ g with s := s } : Iir ℂ).filter x = (.ok y, g') ∧ y.length = x.length ∧ ∀ v ∈ y, ‖v‖ ≤ K * M + C := by
  obtain ⟨K, hK⟩ := stableC_impulse g.a g.b h0 (wf_ne hwf) hst
  have hone : ∀ n, ‖PowerSeries.coeff n (ser g.b * recip g.a)‖ ≤ K := by
    intro n
    have := hK (n + 1)
    rw [sum_range_succ] at this
    have h2 : 0 ≤ ∑ k ∈ range n, ‖PowerSeries.coeff k (ser g.b * recip g.a)‖ := sum_nonneg fun _ _ => norm_nonneg _
    linarith
  refine ⟨K, fun s hs => ?_⟩
  obtain ⟨u, hul, hu⟩ := Iir.filter_split { g with s := s } ⟨hwf.1, hs.symm, hwf.2.2⟩ hc h0
  refine ⟨∑ j ∈ range u.length, K * ‖at0 u (u.length - 1 - j)‖, fun x M hx hM => ?_⟩
  obtain ⟨y, g', h1, h2, h3⟩ := hu x hx
  refine ⟨y, g', h1, h2, ?_⟩
  have hMpos : 0 ≤ M := by
    cases x with
    | nil => exact absurd rfl hx
    | cons v x => exact (norm_nonneg v).trans (hM v (by simp))
  have hxM : ∀ i, ‖at0 x i‖ ≤ M := by
    intro i
    by_cases hi : i < x.length
    · rw [at0_of_lt _ _ hi]; exact hM _ (List.getElem_mem hi)
    · rw [at0_of_le _ _ (by omega)]; simpa using hMpos
  intro v hv
  obtain ⟨k, hk, rfl⟩ := List.getElem_of_mem hv
  rw [← at0_of_lt _ _ hk, h3 k (by omega)]
  refine (norm_add_le _ _).trans (add_le_add ?_ ?_)
  · calc ‖∑ i ∈ range (k + 1), PowerSeries.coeff i (ser g.b * recip g.a) * at0 x (k - i)‖
        ≤ ∑ i ∈ range (k + 1), ‖PowerSeries.coeff i (ser g.b * recip g.a) * at0 x (k - i)‖ := norm_sum_le _ _
      _ ≤ ∑ i ∈ range (k + 1), ‖PowerSeries.coeff i (ser g.b * recip g.a)‖ * M := by
          apply sum_le_sum
          intro i _
          rw [norm_mul]
          exact mul_le_mul_of_nonneg_left (hxM _) (norm_nonneg _)
      _ = (∑ i ∈ range (k + 1), ‖PowerSeries.coeff i (ser g.b * recip g.a)‖) * M := by rw [sum_mul]
      _ ≤ _ := mul_le_mul_of_nonneg_right (hK (k + 1)) hMpos
  · refine (norm_sum_le _ _).trans (sum_le_sum fun j _ => ?_)
    rw [norm_mul]
    exact mul_le_mul_of_nonneg_right (hone _) (norm_nonneg _)

/-- The hypotheses of `C133_bibo` and `C133_forgets` hold: a resonator with the pole i / 2. -/
example : let g : Iir ℂ := { cast := id, a := [0, Complex.I / 2], b := [1, 0], s := [0, 0] }
    g.cast = id ∧ g.WF ∧ at0 g.a 0 = 0 ∧ StableC g.a ∧ [(1 : ℂ), 2].length = g.b.length := by
  refine ⟨rfl, by simp [Iir.WF], by simp [at0], fun z hz => ?_, rfl⟩
  simp [poleValue, at0] at hz
  rw [sub_eq_zero.mp hz]
  norm_num

/-- C133.  A stable filter forgets its state: for any two states the outputs for the same signal approach each other, at a rate which does not depend
on the signal. -/
theorem C133_forgets (g : Iir ℂ) (hc : g.cast = id) (hwf : g.WF) (h0 : at0 g.a 0 = 0) (hst : StableC g.a) (s t : List ℂ)
    (hs : s.length = g.b.length) (ht : t.length = g.b.length) (ε : ℝ) (hε : 0 < ε) :
    ∃ N, ∀ x : List ℂ, x ≠ [] → ∃ y z g' h', ({ g with s := s } : Iir ℂ).filter x = (.ok y, g') ∧
      ({ g with s := t } : Iir ℂ).filter x = (.ok z, h') ∧ y.length = x.length ∧ z.length = x.length ∧
      ∀ n, N ≤ n → n < x.length → ‖at0 y n - at0 z n‖ < ε := by
  obtain ⟨K, hK⟩ := stableC_impulse g.a g.b h0 (wf_ne hwf) hst
  obtain ⟨u, hul, hu⟩ := Iir.filter_split { g with s := s } ⟨hwf.1, hs.symm, hwf.2.2⟩ hc h0
  obtain ⟨v, hvl, hv⟩ := Iir.filter_split { g with s := t } ⟨hwf.1, ht.symm, hwf.2.2⟩ hc h0
  have hfade : ∀ w : List ℂ, ∃ N, ∀ k ≥ N, ‖∑ j ∈ range w.length, PowerSeries.coeff (k + 1 + j) (ser g.b * recip g.a) * at0 w (w.length - 1 - j)‖ < ε / 2 := by
    intro w
    have h := fade hK w
    rw [Metric.tendsto_atTop] at h
    obtain ⟨N, hN⟩ := h (ε / 2) (by linarith)
    refine ⟨N, fun k hk => ?_⟩
    have := hN k hk
    rwa [dist_zero_right] at this
  obtain ⟨N1, h1⟩ := hfade u
  obtain ⟨N2, h2⟩ := hfade v
  refine ⟨max N1 N2, fun x hx => ?_⟩
  obtain ⟨y, g', y1, y2, y3⟩ := hu x hx
  obtain ⟨z, h', z1, z2, z3⟩ := hv x hx
  refine ⟨y, z, g', h', y1, z1, y2, z2, fun n hn hnx => ?_⟩
  rw [y3 n hnx, z3 n hnx]
  have b1 := h1 n (le_of_max_le_left hn)
  have b2 := h2 n (le_of_max_le_right hn)
  simp only
  rw [add_sub_add_left_eq_sub]
  calc _ ≤ _ := norm_sub_le _ _
    _ < ε := by linarith

example := C133_forgets (⟨id, [0, Complex.I / 2], [1, 0], [0, 0]⟩ : Iir ℂ) rfl ⟨rfl, rfl, by simp⟩ rfl (by
  intro z hz
  have h : z = Complex.I / 2 := by
    simp [poleValue, at0] at hz
    linear_combination hz
  rw [h]
  norm_num) [1, 2] [5, Complex.I] rfl rfl (1 / 100) (by norm_num)

/-- C133.  A stable filter in any state, given the complex exponential of frequency `u`, approaches the response at `u` times that exponential. -/
theorem C133_steady (g : Iir ℂ) (hc : g.cast = id) (hwf : g.WF) (h0 : at0 g.a 0 = 0) (hst : StableC g.a) (u : ℝ) (ε : ℝ) (hε : 0 < ε) :
    1 - dtftC g.a u ≠ 0 ∧
    ∃ N, ∀ L, 0 < L → ∃ y g', g.filter ((List.range L).map fun n : ℕ => Complex.exp (Complex.I * Real.pi * u * n)) = (.ok y, g') ∧ y.length = L ∧
      ∀ n, N ≤ n → n < L → ‖at0 y n - freqRespC g.a g.b u * Complex.exp (Complex.I * Real.pi * u * n)‖ < ε := by
  have hane : g.a ≠ [] := wf_ne hwf
  obtain ⟨hden, hsum⟩ := impulse_sumC g.a g.b h0 hane hst u
  refine ⟨hden, ?_⟩
  obtain ⟨K, hK⟩ := stableC_impulse g.a g.b h0 hane hst
  obtain ⟨p, hpl, hp⟩ := Iir.filter_split g hwf hc h0
  have hf := fade hK p
  rw [Metric.tendsto_atTop] at hf hsum
  obtain ⟨N1, h1⟩ := hf (ε / 2) (by linarith)
  obtain ⟨N2, h2⟩ := hsum (ε / 2) (by linarith)
  refine ⟨max N1 N2, fun L hL => ?_⟩
  set x := (List.range L).map fun n : ℕ => Complex.exp (Complex.I * Real.pi * u * n) with hx
  have hxl : x.length = L := by simp [hx]
  obtain ⟨y, g', y1, y2, y3⟩ := hp x (by intro q; rw [q] at hxl; simp at hxl; omega)
  refine ⟨y, g', y1, by omega, fun n hn hnL => ?_⟩
  rw [y3 n (by omega)]
  have b1 := h1 n (le_of_max_le_left hn)
  have b2 := h2 (n + 1) (by have := le_of_max_le_right hn; omega)
  rw [dist_zero_right] at b1
  rw [dist_eq_norm] at b2
  set E := Complex.exp (Complex.I * Real.pi * u * n) with hE
  have hEn : ‖E‖ = 1 := by
    rw [hE, show Complex.I * Real.pi * u * n = ((Real.pi * u * n : ℝ) : ℂ) * Complex.I by push_cast; ring, Complex.norm_exp_ofReal_mul_I]
  have e : ∑ i ∈ range (n + 1), PowerSeries.coeff i (ser g.b * recip g.a) * at0 x (n - i) =
      (∑ i ∈ range (n + 1), PowerSeries.coeff i (ser g.b * recip g.a) * Complex.exp (-(Complex.I * Real.pi * u * i))) * E := by
    rw [sum_mul]
    apply sum_congr rfl
    intro i hi
    have hi := mem_range.mp hi
    rw [mul_assoc, hE, ← Complex.exp_add]
    congr 1
    unfold at0
    rw [List.getD_eq_getElem?_getD, hx, List.getElem?_map, List.getElem?_range (by omega)]
    simp only [Option.map_some, Option.getD_some]
    congr 1
    rw [Nat.cast_sub (by omega)]
    ring
  rw [e]
  set S := ∑ i ∈ range (n + 1), PowerSeries.coeff i (ser g.b * recip g.a) * Complex.exp (-(Complex.I * Real.pi * u * i))
  set T := ∑ j ∈ range p.length, PowerSeries.coeff (n + 1 + j) (ser g.b * recip g.a) * at0 p (p.length - 1 - j)
  calc ‖S * E + T - freqRespC g.a g.b u * E‖ = ‖(S - freqRespC g.a g.b u) * E + T‖ := by congr 1; ring
    _ ≤ ‖(S - freqRespC g.a g.b u) * E‖ + ‖T‖ := norm_add_le _ _
    _ = ‖S - freqRespC g.a g.b u‖ + ‖T‖ := by rw [norm_mul, hEn, mul_one]
    _ < ε := by linarith

/-- `y_n = (j/2) y_{n-1} + x_n` is stable. -/
example : StableC [0, Complex.I / 2] ∧ (⟨id, [0, Complex.I / 2], [1, 0], [0, 0]⟩ : Iir ℂ).WF := by
  refine ⟨fun z hz => ?_, rfl, rfl, by norm_num⟩
  simp [poleValue, at0] at hz
  rw [sub_eq_zero.mp hz]
  simp
  norm_num

/-! ### Modes -/

/-- The delay line of a mode of the pole `1/w`. -/
noncomputable def modeState (N : ℕ) (w K : ℂ) : List ℂ := 0 :: (List.range N).map fun i => K * w ^ (i + 2)

theorem at0_modeState (N : ℕ) (w K : ℂ) (i : ℕ) (h : i < N) : at0 (modeState N w K) (i + 1) = K * w ^ (i + 2) := by
  unfold modeState
  rw [at0_cons_succ, at0_of_lt _ _ (by simpa using h)]
  simp

theorem pole_inverse (a : List ℂ) (N : ℕ) (hl : a.length = N + 1) (z : ℂ) (hz : z ≠ 0) (hp : poleValue a z = 0) :
    ∑ i ∈ range N, at0 a (i + 1) * z⁻¹ ^ (i + 1) = 1 := by
  unfold poleValue at hp
  rw [hl, Nat.add_sub_cancel] at hp
  have h : ∑ i ∈ Icc 1 N, at0 a i * z ^ (N - i) = ∑ i ∈ range N, at0 a (i + 1) * z ^ (N - (i + 1)) := by
    rw [range_eq_Ico, Finset.sum_Ico_add' (fun i => at0 a i * z ^ (N - i)) 0 N 1]
    congr 1
  rw [h] at hp
  have hzN : z ^ N ≠ 0 := pow_ne_zero _ hz
  have e : ∀ i ∈ range N, at0 a (i + 1) * z⁻¹ ^ (i + 1) = at0 a (i + 1) * z ^ (N - (i + 1)) / z ^ N := by
    intro i hi
    have hi := mem_range.mp hi
    rw [mul_div_assoc]
    congr 1
    rw [eq_div_iff hzN, inv_pow, inv_mul_eq_iff_eq_mul₀ (pow_ne_zero _ hz), ← pow_add]
    congr 1
    omega
  rw [sum_congr rfl e, ← sum_div, div_eq_one_iff_eq hzN]
  exact (sub_eq_zero.mp hp).symm

theorem mode_step (g : Iir ℂ) (hc : g.cast = id) (N : ℕ) (ha : g.a.length = N + 1) (hb : g.b.length = N + 1) (h0 : at0 g.a 0 = 0) (z : ℂ) (hz : z ≠ 0)
    (hp : poleValue g.a z = 0) (K : ℂ) (hs : g.s = modeState N z⁻¹ K) :
    g.step 0 = (.ok (K * ∑ i ∈ range (N + 1), at0 g.b i * z⁻¹ ^ i), { g with s := modeState N z⁻¹ (K * z) }) := by
  have hsl : g.s.length = N + 1 := by rw [hs]; simp [modeState]
  have hwf : g.WF := ⟨by omega, by omega, by omega⟩
  have hpi := pole_inverse g.a N ha z hz hp
  have hdot : dot g.a g.s = K * z⁻¹ := by
    rw [dot_eq_sum, ha, sum_range_succ', h0, zero_mul, add_zero, ← mul_one (K * z⁻¹), ← hpi, mul_sum]
    apply sum_congr rfl
    intro i hi
    rw [hs, at0_modeState _ _ _ _ (mem_range.mp hi)]
    ring
  have hnext : (0 : ℂ) :: g.mem.dropLast = modeState N z⁻¹ (K * z) := by
    unfold Iir.mem
    rw [hdot, hs, hc]
    unfold modeState
    rw [List.modifyHead_cons]
    congr 1
    apply List.ext_getElem
    · simp
    · intro i h1 h2
      have hi : i < N := by simpa using h2
      rw [List.getElem_dropLast]
      cases i with
      | zero => simp; field_simp
      | succ i => simp; field_simp; ring
  rw [Iir.step_wf g hwf, hc]
  simp only [id]
  rw [hnext]
  refine Prod.ext ?_ rfl
  simp only [Except.ok.injEq]
  have hcl : g.comb.length = N + 1 := by rw [Iir.comb_length g hwf, hb]
  have hml : (modeState N z⁻¹ (K * z)).length = N + 1 := by simp [modeState]
  have hcomb : ∀ i, at0 g.comb i = at0 g.a i * at0 g.b 0 + at0 g.b i := by
    intro i
    unfold Iir.comb
    rcases hbb : g.b with _ | ⟨b0, t⟩
    · rw [hbb] at hb; simp at hb
    · simp only [at0_cons_zero]
      by_cases hi : i < N + 1
      · rw [at0_of_lt _ _ (by simp [ha]; rw [hbb] at hb; simp at hb; omega), at0_of_lt g.a _ (by omega), at0_of_lt (b0 :: t) _ (by rw [← hbb]; omega)]
        simp
      · rw [at0_of_le _ _ (by simp [ha]; omega), at0_of_le g.a _ (by omega), at0_of_le (b0 :: t) _ (by rw [← hbb]; omega)]
        simp
  rw [dot_eq_sum, hcl, sum_range_succ', show at0 (modeState N z⁻¹ (K * z)) 0 = 0 from rfl, mul_zero, add_zero, sum_range_succ']
  have e : ∀ i ∈ range N, at0 g.comb (i + 1) * at0 (modeState N z⁻¹ (K * z)) (i + 1) =
      K * at0 g.b 0 * (at0 g.a (i + 1) * z⁻¹ ^ (i + 1)) + K * (at0 g.b (i + 1) * z⁻¹ ^ (i + 1)) := by
    intro i hi
    have hzz : z * z⁻¹ = 1 := mul_inv_cancel₀ hz
    rw [hcomb, at0_modeState _ _ _ _ (mem_range.mp hi), show i + 2 = (i + 1) + 1 by omega, pow_succ z⁻¹ (i + 1)]
    linear_combination (at0 g.a (i + 1) * at0 g.b 0 + at0 g.b (i + 1)) * K * z⁻¹ ^ (i + 1) * hzz
  rw [sum_congr rfl e, sum_add_distrib, ← mul_sum, ← mul_sum, hpi]
  ring

/-- C133.  A pole `z` other than zero has a state from which the filter, given zeros, returns the powers of `z` times the numerator at `z`. -/
theorem C133_mode (g : Iir ℂ) (hc : g.cast = id) (hwf : g.WF) (h0 : at0 g.a 0 = 0) (z : ℂ) (hz : z ≠ 0) (hp : poleValue g.a z = 0) :
    ∃ s : List ℂ, s.length = g.b.length ∧ ∀ L, 0 < L → ∃ g', ({ g with s := s } : Iir ℂ).filter (List.replicate L 0) =
      (.ok ((List.range L).map fun n => z ^ n * ∑ i ∈ range g.b.length, at0 g.b i * z⁻¹ ^ i), g') := by
  obtain ⟨w1, w2, w3⟩ := hwf
  obtain ⟨N, hN⟩ : ∃ N, g.b.length = N + 1 := ⟨g.b.length - 1, by omega⟩
  refine ⟨modeState N z⁻¹ 1, by simp [modeState, hN], fun L hL => ?_⟩
  have main : ∀ (L : ℕ) (K : ℂ), ∃ g', runLoop Iir.step ({ g with s := modeState N z⁻¹ K } : Iir ℂ) (List.replicate L 0) =
      (.ok ((List.range L).map fun n => K * z ^ n * ∑ i ∈ range g.b.length, at0 g.b i * z⁻¹ ^ i), g') := by
    intro L
    induction L with
    | zero => intro K; exact ⟨_, rfl⟩
    | succ L ih =>
      intro K
      obtain ⟨g', h⟩ := ih (K * z)
      refine ⟨g', ?_⟩
      rw [List.replicate_succ, runLoop, mode_step { g with s := modeState N z⁻¹ K } hc N (by simp only; omega) hN h0 z hz hp K rfl]
      simp only
      rw [h]
      simp only
      rw [List.range_succ_eq_map, List.map_cons, List.map_map, pow_zero, mul_one, hN]
      congr 3
      apply List.map_congr_left
      intro n _
      simp only [Function.comp, Nat.succ_eq_add_one]
      ring
  obtain ⟨g', h⟩ := main L 1
  refine ⟨g', ?_⟩
  simp only [one_mul] at h
  unfold Iir.filter
  rw [if_neg (by simp; omega)]
  exact h

/-- The hypotheses hold: a resonator with the pole i / 2. -/
example := C133_mode { cast := id, a := [0, Complex.I / 2], b := [1, 0], s := [0, 0] } rfl (by simp [Iir.WF]) (by simp [at0]) (Complex.I / 2) (by simp)
  (by simp [poleValue, at0])

/-- C133.  A filter with a pole on or outside the unit circle, which no zero cancels, does not forget: for some state and the zero state, the outputs for zeros
stay apart for ever. -/
theorem C133_unstable (g : Iir ℂ) (hc : g.cast = id) (hwf : g.WF) (h0 : at0 g.a 0 = 0) (z : ℂ) (hz : 1 ≤ ‖z‖) (hp : poleValue g.a z = 0)
    (hb : ∑ i ∈ range g.b.length, at0 g.b i * z⁻¹ ^ i ≠ 0) :
    ∃ s : List ℂ, s.length = g.b.length ∧ ∃ ε, 0 < ε ∧ ∀ L, 0 < L → ∃ y g', ({ g with s := s } : Iir ℂ).filter (List.replicate L 0) = (.ok y, g') ∧
      y.length = L ∧ ∀ n, n < L → ε * ‖z‖ ^ n ≤ ‖at0 y n‖ ∧ ε ≤ ‖at0 y n‖ := by
  have hz0 : z ≠ 0 := by intro h; rw [h, norm_zero] at hz; linarith
  obtain ⟨s, hs, h⟩ := C133_mode g hc hwf h0 z hz0 hp
  refine ⟨s, hs, ‖∑ i ∈ range g.b.length, at0 g.b i * z⁻¹ ^ i‖, norm_pos_iff.mpr hb, fun L hL => ?_⟩
  obtain ⟨g', hg⟩ := h L hL
  refine ⟨_, g', hg, by simp, fun n hn => ?_⟩
  rw [at0_of_lt _ _ (by simpa using hn)]
  simp only [List.getElem_map, List.getElem_range, norm_mul, norm_pow]
  refine ⟨le_of_eq (mul_comm _ _), ?_⟩
  have := one_le_pow₀ hz (n := n)
  nlinarith [norm_nonneg (∑ i ∈ range g.b.length, at0 g.b i * z⁻¹ ^ i)]

/-- `y_n = j y_{n-1} + x_n` has the pole `j` on the circle, and its numerator does not vanish. -/
example : poleValue [0, Complex.I] Complex.I = 0 ∧ 1 ≤ ‖Complex.I‖ ∧ ∑ i ∈ range ([1, 0] : List ℂ).length, at0 ([1, 0] : List ℂ) i * Complex.I⁻¹ ^ i ≠ 0 := by
  refine ⟨by simp [poleValue, at0], by simp, by simp [sum_range_succ, at0]⟩

/-! ### Real filters with a pole on or outside the unit circle -/

theorem dot_part (φ : ℂ →ₗ[ℝ] ℝ) (a : List ℝ) (s : List ℂ) : φ (dot (a.map fun v : ℝ => (v : ℂ)) s) = dot a (s.map φ) := by
  rw [dot_def, dot_def]
  induction a generalizing s with
  | nil => simp
  | cons v a ih =>
    cases s with
    | nil => simp
    | cons w s =>
      have : (v : ℂ) * w = v • w := by simp
      simp only [List.map_cons, List.zipWith_cons_cons, List.sum_cons, map_add, ih s, this, map_smul, smul_eq_mul]

/-- A complex state of real coefficients and its real or imaginary part. -/
def PartRel (φ : ℂ →ₗ[ℝ] ℝ) (f : Iir ℝ) (g : Iir ℂ) : Prop :=
  f.WF ∧ f.cast = id ∧ g.cast = id ∧ g.a = f.a.map (fun v : ℝ => (v : ℂ)) ∧ g.b = f.b.map (fun v : ℝ => (v : ℂ)) ∧ f.s = g.s.map φ

theorem PartRel.step (φ : ℂ →ₗ[ℝ] ℝ) (f : Iir ℝ) (g : Iir ℂ) (x : ℂ) (h : PartRel φ f g) :
    (Iir.step f (φ x)).1 = (Iir.step g x).1.map φ ∧ PartRel φ (Iir.step f (φ x)).2 (Iir.step g x).2 := by
  obtain ⟨hw, h1, h2, h3, h4, h5⟩ := h
  have hgw : g.WF := by
    obtain ⟨w1, w2, w3⟩ := hw
    refine ⟨?_, ?_, ?_⟩
    · rw [h4, List.length_map, ← w1, h3, List.length_map]
    · have : f.s.length = g.s.length := by rw [h5, List.length_map]
      rw [h4, List.length_map, w2, this]
    · rw [h4, List.length_map]; exact w3
  have hmem : f.mem = g.mem.map φ := by
    unfold Iir.mem
    rw [h5, h1, h2, h3]
    rcases hs : g.s with _ | ⟨v, t⟩
    · rfl
    · rw [List.map_cons, List.modifyHead_cons, List.modifyHead_cons, List.map_cons]
      congr 1
      simp only [id]
      rw [map_add, dot_part, List.map_cons]
  have hcomb : g.comb = f.comb.map (fun v : ℝ => (v : ℂ)) := by
    unfold Iir.comb
    rw [h4, h3]
    rcases f.b with _ | ⟨b0, bt⟩
    · rfl
    · simp only [List.map_cons]
      rcases f.a with _ | ⟨a0, at'⟩
      · rfl
      · simp [List.map_zipWith, List.zipWith_map_left, List.zipWith_map_right]
  rw [Iir.step_wf f hw, Iir.step_wf g hgw, h1, h2, hmem]
  have hst : φ x :: (g.mem.map φ).dropLast = (x :: g.mem.dropLast).map φ := by simp
  simp only [id]
  rw [hst]
  refine ⟨?_, ?_, rfl, rfl, h3, h4, rfl⟩
  · simp only [Except.map]
    rw [hcomb, dot_part]
  · obtain ⟨w1, w2, w3⟩ := hw
    refine ⟨w1, ?_, w3⟩
    have : f.s.length = g.s.length := by rw [h5, List.length_map]
    simp [Iir.mem_length]; omega

/-- C73.  A filter of real coefficients with a pole on or outside the unit circle which no zero cancels does not forget: there is a state from which its
output for zeros does not approach that of the zero state, which is zero.  With `C73_forgets`: it forgets its state if and only if it is stable. -/
theorem C73_unstable (g : Iir ℝ) (hc : g.cast = id) (hwf : g.WF) (h0 : at0 g.a 0 = 0) (z : ℂ) (hz : 1 ≤ ‖z‖) (hp : Pole g.a z)
    (hb : ∑ i ∈ range g.b.length, ((at0 g.b i : ℝ) : ℂ) * z⁻¹ ^ i ≠ 0) :
    ∃ s : List ℝ, s.length = g.b.length ∧ ∃ ε, 0 < ε ∧ ∀ N, ∃ n ≥ N, ∀ L, n < L → ∃ y g', ({ g with s := s } : Iir ℝ).filter (List.replicate L 0) = (.ok y, g') ∧
      y.length = L ∧ ε ≤ |at0 y n| := by
  set c : Iir ℂ := { cast := id, a := g.a.map (fun v : ℝ => (v : ℂ)), b := g.b.map (fun v : ℝ => (v : ℂ)), s := g.s.map (fun v : ℝ => (v : ℂ)) } with hcd
  have hat : ∀ (l : List ℝ) (i : ℕ), at0 (l.map (fun v : ℝ => (v : ℂ))) i = ((at0 l i : ℝ) : ℂ) := fun l i => at0_complexOf l i
  have hcw : c.WF := ⟨by simp [hcd, hwf.1], by simp [hcd, hwf.2.1], by simpa [hcd] using hwf.2.2⟩
  have hpole : poleValue c.a z = 0 := by
    unfold poleValue
    simp only [hcd, List.length_map, hat]
    exact sub_eq_zero.mpr hp
  have hz0 : z ≠ 0 := by intro h; rw [h, norm_zero] at hz; linarith
  obtain ⟨s, hs, h⟩ := C133_mode c rfl hcw (by rw [hcd, hat, h0]; simp) z hz0 hpole
  have hbl : c.b.length = g.b.length := by simp [hcd]
  set B : ℂ := ∑ i ∈ range c.b.length, at0 c.b i * z⁻¹ ^ i with hB
  have hB0 : 0 < ‖B‖ := by
    apply norm_pos_iff.mpr
    rw [hB, hbl]
    simpa only [hcd, hat] using hb
  have hrun : ∀ (φ : ℂ →ₗ[ℝ] ℝ) (L : ℕ), 0 < L → ∃ g', ({ g with s := s.map φ } : Iir ℝ).filter (List.replicate L 0) =
      (.ok ((List.range L).map fun n => φ (z ^ n * B)), g') := by
    intro φ L hL
    obtain ⟨g1, hg1⟩ := h L hL
    have hrel : PartRel φ ({ g with s := s.map φ } : Iir ℝ) ({ c with s := s } : Iir ℂ) := by
      refine ⟨⟨hwf.1, by simp [hs, hbl], hwf.2.2⟩, hc, rfl, rfl, rfl, rfl⟩
    have hl : (List.replicate L (0 : ℂ)).length ≠ 0 := by simp; omega
    unfold Iir.filter at hg1 ⊢
    rw [if_neg hl] at hg1
    rw [if_neg (by simp; omega)]
    have key : ∀ (xs : List ℂ) (f : Iir ℝ) (q : Iir ℂ), PartRel φ f q →
        (runLoop Iir.step f (xs.map φ)).1 = (runLoop Iir.step q xs).1.map (List.map φ) := by
      intro xs
      induction xs with
      | nil => intro f q _; rfl
      | cons x xs ih =>
        intro f q hr
        obtain ⟨e1, e2⟩ := PartRel.step φ f q x hr
        simp only [List.map_cons, runLoop]
        rcases q1 : Iir.step q x with ⟨r, q'⟩
        rcases f1 : Iir.step f (φ x) with ⟨r', f'⟩
        rw [q1, f1] at e1 e2
        simp only at e1 e2
        subst e1
        cases r with
        | error e => rfl
        | ok v =>
          have := ih f' q' e2
          simp only [Except.map]
          rcases q2 : runLoop Iir.step q' xs with ⟨r2, q''⟩
          rcases f2 : runLoop Iir.step f' (xs.map φ) with ⟨r2', f''⟩
          rw [q2, f2] at this
          simp only at this
          subst this
          cases r2 <;> rfl
    have := key (List.replicate L 0) _ _ hrel
    rw [hg1] at this
    rw [List.map_replicate, map_zero] at this
    refine ⟨(runLoop Iir.step ({ g with s := s.map φ } : Iir ℝ) (List.replicate L 0)).2, ?_⟩
    refine Prod.ext ?_ rfl
    rw [this]
    simp [Except.map, Function.comp_def]
  have hbig : ∀ n, ‖B‖ / 2 ≤ |(z ^ n * B).re| ∨ ‖B‖ / 2 ≤ |(z ^ n * B).im| := by
    intro n
    by_contra hcon
    push Not at hcon
    have h1 := Complex.norm_le_abs_re_add_abs_im (z ^ n * B)
    rw [norm_mul, norm_pow] at h1
    have h2 := one_le_pow₀ hz (n := n)
    nlinarith [hcon.1, hcon.2]
  have hout : ∀ φ : ℂ →ₗ[ℝ] ℝ, (∀ N, ∃ n ≥ N, ‖B‖ / 2 ≤ |φ (z ^ n * B)|) → ∃ s : List ℝ, s.length = g.b.length ∧ ∃ ε, 0 < ε ∧ ∀ N, ∃ n ≥ N, ∀ L, n < L →
      ∃ y g', ({ g with s := s } : Iir ℝ).filter (List.replicate L 0) = (.ok y, g') ∧ y.length = L ∧ ε ≤ |at0 y n| := by
    intro φ hφ
    refine ⟨s.map φ, by simp [hs, hbl], ‖B‖ / 2, by linarith, fun N => ?_⟩
    obtain ⟨n, hn, hle⟩ := hφ N
    refine ⟨n, hn, fun L hL => ?_⟩
    obtain ⟨g', hg⟩ := hrun φ L (by omega)
    refine ⟨_, g', hg, by simp, ?_⟩
    rw [at0_of_lt _ _ (by simpa using hL)]
    simpa using hle
  by_cases hre : ∀ N, ∃ n ≥ N, ‖B‖ / 2 ≤ |(z ^ n * B).re|
  · exact hout Complex.reLm (by simpa using hre)
  · push Not at hre
    obtain ⟨N0, hN0⟩ := hre
    refine hout Complex.imLm fun N => ⟨max N N0, le_max_left _ _, ?_⟩
    rcases hbig (max N N0) with h | h
    · exact absurd h (not_le.mpr (hN0 _ (le_max_right _ _)))
    · simpa using h

/-- An accumulator: the pole is 1 and the numerator does not vanish. -/
example : Pole [0, 1] 1 ∧ 1 ≤ ‖(1 : ℂ)‖ ∧ ∑ i ∈ range ([1, 0] : List ℝ).length, ((at0 ([1, 0] : List ℝ) i : ℝ) : ℂ) * (1 : ℂ)⁻¹ ^ i ≠ 0 := by
  refine ⟨by simp [Pole, at0], by simp, by simp [sum_range_succ, at0]⟩

end Verif.Props
