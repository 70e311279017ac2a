import Verif.Lemmas.Iir
import Verif.Spec.Recursion
import Mathlib.Tactic.NormNum
import Mathlib.Tactic.FieldSimp
import Mathlib.Algebra.Order.Ring.Rat
import Mathlib.Algebra.BigOperators.Ring.List

/-
Properties C07–C10 of IirFilter (diamondback/filters/iir_filter.py).
-/

namespace Verif.Props

open Finset Spec

variable {R : Type*}

/-- C07.  Output of `IirFilter(a=a, b=b).filter(x)` for float/complex dtype: the recursive difference equation, zero
before time zero.  Any lengths of `a` and `b`. -/
theorem C07_iir_difference_equation [CommRing R] [DecidableEq R] (a b x : List R)
    (hne : a ≠ [] ∨ b ≠ []) (h0 : at0 a 0 = 0) (hx : x ≠ []) :
    ∃ f y f', Iir.new id (some a) (some b) none = .ok f ∧ f.filter x = (.ok y, f') ∧ Recursion a b x y := by
  obtain ⟨f, h1, hc, hfa, hfb, hfs⟩ := Iir.new_spec id a b none hne h0
  have hfb' : f.b = padTo (max a.length b.length) b := by rw [hfb]; simp
  have hfs' : f.s = List.replicate (max a.length b.length) 0 := by rw [hfs]; simp [padTo]
  have hwf : f.WF := by
    refine ⟨?_, ?_, ?_⟩
    · rw [hfa, hfb']; simp [padTo]
    · rw [hfs', hfb']; simp [padTo]
    · rw [hfb']
      simp only [padTo, List.length_append, List.length_replicate]
      have : 0 < a.length ∨ 0 < b.length := by
        rcases hne with h | h
        · exact Or.inl (List.length_pos_iff.mpr h)
        · exact Or.inr (List.length_pos_iff.mpr h)
      omega
  obtain ⟨y, f', h2, h3, h4⟩ := Iir.filter_series f hwf hc (by rw [hfa, at0_padTo, h0])
    (by rw [hfs']; intro v hv; exact List.eq_of_mem_replicate hv) x hx
  refine ⟨f, y, f', h1, h2, h3, ?_⟩
  have hy : ∀ k, k < x.length → at0 y k = PowerSeries.coeff k (ser f.b * (recip f.a * ser x)) := by
    intro k hk
    simp [at0, List.getD, h4 k hk]
  have hsa : ser f.a = ser a := by ext n; simp [hfa, at0_padTo]
  have hsb : ser f.b = ser b := by ext n; simp [hfb', at0_padTo]
  have hra : recip f.a = recip a := by simp [recip, hsa]
  rw [hsb, hra] at hy
  have key : ser b * (recip a * ser x) = ser a * (ser b * (recip a * ser x)) + ser b * ser x := by
    have := mul_recip a h0
    linear_combination (ser b * ser x) * this
  intro n hn
  rw [hy n hn, key, map_add, PowerSeries.coeff_mul, PowerSeries.coeff_mul,
    Finset.Nat.sum_antidiagonal_eq_sum_range_succ_mk, Finset.Nat.sum_antidiagonal_eq_sum_range_succ_mk]
  simp only [coeff_ser]
  congr 1
  rw [sum_range_succ', h0, zero_mul, add_zero]
  rw [← Ico_succ_right_eq_Icc, sum_Ico_eq_sum_range]
  simp only [Order.succ_eq_add_one, Nat.add_sub_cancel]
  apply sum_congr rfl
  intro i hi
  rw [hy (n - (1 + i)) (by omega), add_comm 1 i]

/-- Concrete case: an accumulator. -/
example : ∃ f y f', Iir.new id (some [0, 1]) (some [1, 0]) none = .ok f ∧ f.filter [(1 : ℤ), 2, 3, 4] = (.ok y, f') ∧
    y = [1, 3, 6, 10] := ⟨_, _, _, rfl, rfl, by decide⟩

/-- C08.  Chunk boundaries are invisible, for every instance and any arithmetic. -/
theorem C08_iir_streaming [Add R] [Mul R] [Dot R] (f : Iir R) (chunks : List (List R)) (h0 : chunks ≠ [])
    (hne : ∀ c ∈ chunks, c ≠ []) :
    callChunks Iir.filter f chunks = f.filter chunks.flatten := by
  refine callChunks_eq_filter Iir.step Iir.filter ?_ f chunks h0 hne
  intro st x hx
  have : x.length ≠ 0 := by simpa using hx
  simp [Iir.filter, this]

example : callChunks Iir.filter (⟨id, [0, 1], [1, 0], [0, 0]⟩ : Iir ℤ) [[1, 2], [3]]
    = (.ok [1, 3, 6], ⟨id, [0, 1], [1, 0], [3, 3]⟩) := rfl

theorem runLoop_fixed {σ ι ο : Type*} (step : σ → ι → Res ο × σ) (st : σ) (x : ι) (y : ο) (h : step st x = (.ok y, st))
    (k : ℕ) : runLoop step st (List.replicate k x) = (.ok (List.replicate k y), st) := by
  induction k with
  | zero => rfl
  | succ k ih => simp [List.replicate_succ, runLoop, h, ih]

/-- C09.  For unity DC gain, `reset(x)` is a steady state: the constant `x` passes unchanged from the first sample on. -/
theorem C09_iir_reset_steady_unity [Field R] [DecidableEq R] (a b : List R) (s : Option (List R)) (x : R) (k : ℕ)
    (h0 : at0 a 0 = 0) (hunity : b.sum = 1 - a.sum) (ha1 : a.sum ≠ 1) (hb0 : at0 b 0 ≠ 1)
    (hs : (s.getD []).length ≤ max a.length b.length) (hk : 0 < k) :
    ∃ f g g', Iir.new id (some a) (some b) s = .ok f ∧ f.reset (.scalar x) = (.ok (), g) ∧
      g.filter (List.replicate k x) = (.ok (List.replicate k x), g') := by
  have hne : a ≠ [] ∨ b ≠ [] := by
    by_contra h
    push Not at h
    rw [h.1, h.2] at hunity; simp at hunity
  obtain ⟨f, h1, hc, hfa, hfb, hfs⟩ := Iir.new_spec id a b s hne h0
  have hpos : 0 < max a.length b.length := by
    rcases hne with h | h
    · exact lt_of_lt_of_le (List.length_pos_iff.mpr h) (le_max_left _ _)
    · exact lt_of_lt_of_le (List.length_pos_iff.mpr h) (le_max_right _ _)
  have hmax : max (max a.length b.length) (s.getD []).length = max a.length b.length := by omega
  rw [hmax] at hfb hfs
  have la : f.a.length = max a.length b.length := by rw [hfa]; simp [padTo]
  have lb : f.b.length = max a.length b.length := by rw [hfb]; simp [padTo]
  have ls : f.s.length = max a.length b.length := by rw [hfs]; simp [padTo]; omega
  have sa : f.a.sum = a.sum := by rw [hfa]; simp [padTo]
  have sb : f.b.sum = b.sum := by rw [hfb]; simp [padTo]
  have za : at0 f.a 0 = 0 := by rw [hfa, at0_padTo, h0]
  have zb : at0 f.b 0 = at0 b 0 := by rw [hfb, at0_padTo]
  rcases ea : f.a with _ | ⟨a0, at'⟩
  · rw [ea] at la; simp at la; omega
  rcases eb : f.b with _ | ⟨b0, bt⟩
  · rw [eb] at lb; simp at lb; omega
  rcases es : f.s with _ | ⟨s0, st⟩
  · rw [es] at ls; simp at ls; omega
  rw [ea] at la sa za; rw [eb] at lb sb zb; rw [es] at ls
  simp only [List.length_cons] at la lb ls
  simp only [List.sum_cons] at sa sb
  simp only [at0_cons_zero] at za zb
  have a0z : a0 = 0 := za
  rw [← zb] at hb0
  -- sum of the combined coefficients
  have hl1 : ∀ (l m : List R) (c : R), l.length = m.length →
      (List.zipWith (· + ·) (l.map (· * c)) m).sum = l.sum * c + m.sum := by
    intro l
    induction l with
    | nil => intro m c h; cases m with | nil => simp | cons => simp at h
    | cons p l ih =>
      intro m c h
      cases m with
      | nil => simp at h
      | cons q m =>
        simp only [List.map_cons, List.zipWith_cons_cons, List.sum_cons]
        rw [ih m c (by simpa using h)]; ring
  have hab : at'.length = bt.length := by omega
  have hsum := hl1 at' bt b0 hab
  have hq : at'.sum * b0 + bt.sum = (1 - b0) * (1 - a.sum) := by
    have e1 : at'.sum = a.sum := by rw [← sa, a0z]; ring
    have e2 : bt.sum = 1 - a.sum - b0 := by rw [← hunity, ← sb]; ring
    rw [e1, e2]; ring
  have hne1 : (1 : R) - b0 ≠ 0 := sub_ne_zero.mpr (Ne.symm hb0)
  have hne2 : (1 : R) - a.sum ≠ 0 := sub_ne_zero.mpr (Ne.symm ha1)
  set c := x / (1 - a.sum) with hcdef
  have hcval : x * (1 - b0) / (at'.sum * b0 + bt.sum) = c := by
    rw [hq, hcdef]; field_simp
  set g : Iir R := ⟨id, a0 :: at', b0 :: bt, x :: List.replicate st.length c⟩ with hg
  have hreset : f.reset (.scalar x) = (.ok (), g) := by
    simp only [Iir.reset, es, ea, eb, List.headD_cons, List.tail_cons, hsum, hcval, hc, id, hg, List.map_const']
  have hgwf : g.WF := by
    refine ⟨?_, ?_, ?_⟩ <;> simp [hg] <;> omega
  -- dot products with the constant delay line
  have hdotc : ∀ (l : List R) (m : ℕ) (v : R), l.length = m → dot l (List.replicate m v) = l.sum * v := by
    intro l
    induction l with
    | nil => intro m v h; simp [dot_def]
    | cons p l ih =>
      intro m v h
      obtain ⟨m', rfl⟩ : ∃ m', m = m' + 1 := ⟨m - 1, by simp at h; omega⟩
      have := ih m' v (by simpa using h)
      simp only [dot_def] at this
      simp [dot_def, List.replicate_succ, this, add_mul]
  have hdcons : ∀ (p q : R) (l m : List R), dot (p :: l) (q :: m) = p * q + dot l m := by
    intro p q l m; simp [dot_def]
  have hmem : g.mem = List.replicate (st.length + 1) c := by
    simp only [Iir.mem, hg, List.modifyHead_cons, id, List.replicate_succ, List.cons.injEq, and_true]
    rw [hdcons, hdotc _ _ _ (by omega), a0z, show at'.sum = a.sum by rw [← sa, a0z]; ring, hcdef]
    field_simp; ring
  have hstep : g.step x = (.ok x, g) := by
    rw [Iir.step_wf g hgwf x, hmem]
    have e : (List.replicate (st.length + 1) c).dropLast = List.replicate st.length c := by
      simp
    rw [e]
    have e2 : dot g.comb (id x :: List.replicate st.length c) = x := by
      simp only [Iir.comb, hg, List.map_cons, List.zipWith_cons_cons]
      rw [hdcons, hdotc _ _ _ (by simp; omega), hsum, hq, a0z, hcdef, id]
      field_simp; ring
    simp only [hg] at e2 ⊢
    simp only [id] at e2 ⊢
    rw [e2]
  refine ⟨f, g, g, h1, hreset, ?_⟩
  have : (List.replicate k x).length ≠ 0 := by simp; omega
  simp only [Iir.filter, this, if_false]
  exact runLoop_fixed _ _ _ _ hstep k

/-- The hypotheses of C09 hold for a first-order low pass. -/
example : at0 ([0, 1/2] : List ℚ) 0 = 0 ∧ ([1/4, 1/4] : List ℚ).sum = 1 - ([0, 1/2] : List ℚ).sum ∧
    ([0, 1/2] : List ℚ).sum ≠ 1 ∧ at0 ([1/4, 1/4] : List ℚ) 0 ≠ 1 := by
  norm_num [at0]

/-- C09, limit of validity: without unity gain the documented "persistent operation" state is not steady
(witness: a = [0, 1/2], b = [1/2, 1/2], gain 2: the first two outputs for the constant 1 differ). -/
theorem C09_nonunity_not_steady :
    ∃ f g g' y0 y1, Iir.new id (some [0, 1/2]) (some [1/2, (1/2 : ℚ)]) none = .ok f ∧
      f.reset (.scalar 1) = (.ok (), g) ∧ g.filter [1, 1] = (.ok [y0, y1], g') ∧ y0 ≠ y1 := by
  refine ⟨⟨id, [0, 1/2], [1/2, 1/2], [0, 0]⟩, ⟨id, [0, 1/2], [1/2, 1/2], [1, 2/3]⟩, ⟨id, [0, 1/2], [1/2, 1/2], [1, 5/3]⟩, 3/2, 7/4,
    ?_, ?_, ?_, ?_⟩
  · simp [Iir.new, Fir.new, padTo]
  · norm_num [Iir.reset]
  · norm_num [Iir.filter, runLoop, Iir.step, shiftRight, bcAdd, dot_def]
  · norm_num

theorem Iir.after_wf [Field R] [Dot R] (f : Iir R) (hf : f.WF) (ops : List (IirOp R)) :
    (f.after ops).WF := by
  induction ops generalizing f with
  | nil => exact hf
  | cons op ops ih =>
    have key : (f.apply op).2.WF := by
      cases op with
      | filter x =>
        by_cases hx : x = []
        · subst hx; exact hf
        · have hl : x.length ≠ 0 := by simpa using hx
          simp only [Iir.apply, Iir.filter, hl, if_false]
          exact (runLoop_inv Iir.step Iir.WF (fun st v h => ⟨⟨_, by rw [Iir.step_wf st h v]⟩, (Iir.step_wf_wf st h v).1⟩)
            f hf x).2
      | reset arg =>
        cases arg with
        | nonScalar => exact hf
        | scalar x =>
          obtain ⟨h1, h2, h3⟩ := hf
          rcases es : f.s with _ | ⟨s0, t⟩
          · rw [es] at h2; simp at h2; simp [h2] at h3
          · simp only [Iir.apply, Iir.reset, es]
            refine ⟨h1, ?_, h3⟩
            rw [es] at h2; simpa using h2
    simpa [Iir.after] using ih _ key

/-- C10, proved part.  Full statement: every accepted construction gives `a`, `b`, `s` of equal lengths, and `filter` never raises on a nonempty
signal.  It is false for a state longer than the coefficients (`C10_long_state_unusable`), so it is proved here for all others: equal lengths, given values
kept, and after any history of `filter` and `reset` calls `filter` succeeds on every nonempty signal. -/
theorem C10_iir_construction_usable_partial [Field R] [Dot R] [DecidableEq R] (cast : R → R) (a b : List R)
    (s : Option (List R)) (hne : a ≠ [] ∨ b ≠ []) (h0 : at0 a 0 = 0)
    (hs : (s.getD []).length ≤ max a.length b.length) :
    ∃ f, Iir.new cast (some a) (some b) s = .ok f ∧
      f.a.length = max a.length b.length ∧ f.b.length = max a.length b.length ∧ f.s.length = max a.length b.length ∧
      (∀ i, at0 f.a i = at0 a i) ∧ (∀ i, at0 f.b i = at0 b i) ∧
      ∀ (ops : List (IirOp R)) (x : List R), x ≠ [] →
        ∃ y, ((f.after ops).filter x).1 = .ok y ∧ y.length = x.length := by
  obtain ⟨f, h1, hc, hfa, hfb, hfs⟩ := Iir.new_spec cast a b s hne h0
  have hmax : max (max a.length b.length) (s.getD []).length = max a.length b.length := by omega
  rw [hmax] at hfb hfs
  have hpos : 0 < max a.length b.length := by
    rcases hne with h | h
    · exact lt_of_lt_of_le (List.length_pos_iff.mpr h) (le_max_left _ _)
    · exact lt_of_lt_of_le (List.length_pos_iff.mpr h) (le_max_right _ _)
  have la : f.a.length = max a.length b.length := by rw [hfa]; simp [padTo]
  have lb : f.b.length = max a.length b.length := by rw [hfb]; simp [padTo]
  have ls : f.s.length = max a.length b.length := by rw [hfs]; simp [padTo]; omega
  refine ⟨f, h1, la, lb, ls, fun i => by rw [hfa, at0_padTo], fun i => by rw [hfb, at0_padTo], ?_⟩
  intro ops x hx
  have hw := Iir.after_wf f ⟨by omega, by omega, by omega⟩ ops
  have hl : x.length ≠ 0 := by simpa using hx
  obtain ⟨⟨y, hy⟩, _⟩ := runLoop_inv Iir.step Iir.WF
    (fun st v h => ⟨⟨_, by rw [Iir.step_wf st h v]⟩, (Iir.step_wf_wf st h v).1⟩) _ hw x
  refine ⟨y, by simpa [Iir.filter, hl] using hy, ?_⟩
  rcases hr : runLoop Iir.step (f.after ops) x with ⟨r, f'⟩
  rw [hr] at hy
  simp only at hy; subst hy
  exact runLoop_ok_length _ _ _ _ _ hr

/-- A running sum which starts at 5: the state is shorter than the coefficients. -/
example := C10_iir_construction_usable_partial (R := ℚ) id [0, 1] [1, 0] (some [5]) (by simp) rfl (by simp)

/-- C10, refuted part: *every* accepted construction with a state longer than both coefficient arrays yields an instance
on which `filter` raises ValueError for every nonempty signal (`a` is not padded to the state length). -/
theorem C10_long_state_unusable [Zero R] [Add R] [Mul R] [Dot R] [DecidableEq R] (cast : R → R) (a b s : List R)
    (hne : a ≠ [] ∨ b ≠ []) (h0 : at0 a 0 = 0) (hs : max a.length b.length < s.length) :
    ∃ f, Iir.new cast (some a) (some b) (some s) = .ok f ∧
      ∀ x, x ≠ [] → f.filter x = (.error .valueError, f) := by
  obtain ⟨f, h1, hc, hfa, hfb, hfs⟩ := Iir.new_spec cast a b (some s) hne h0
  refine ⟨f, h1, fun x hx => ?_⟩
  have hpos : 0 < max a.length b.length := by
    rcases hne with h | h
    · exact lt_of_lt_of_le (List.length_pos_iff.mpr h) (le_max_left _ _)
    · exact lt_of_lt_of_le (List.length_pos_iff.mpr h) (le_max_right _ _)
  have la : f.a.length = max a.length b.length := by rw [hfa]; simp [padTo]
  have ls : f.s.length = s.length := by
    rw [hfs]
    simp only [Option.getD_some, padTo, List.map_append, List.length_append, List.length_map, List.length_replicate]
    omega
  rcases x with _ | ⟨x0, xs⟩
  · exact absurd rfl hx
  have hstep : f.step x0 = (.error .valueError, f) := by
    unfold Iir.step
    have h2 : f.s.length > 1 := by omega
    have h3 : f.a.length ≠ f.s.length := by omega
    have h4 : f.b.length ≠ 0 := by rw [hfb, padTo, List.length_append, List.length_replicate]; omega
    simp only [h2, h3, h4, if_true, if_false]
  simp [Iir.filter, runLoop, hstep]

/-- A state of three for two coefficients. -/
example := C10_long_state_unusable (R := ℤ) id [0, 1] [1, 0] [1, 2, 3] (by simp) rfl (by simp)

/-- C10, concrete witness against the full claim. -/
theorem C10_long_state_witness : ∃ f, Iir.new id (some [0, 1]) (some [1, 0]) (some [(0 : ℤ), 0, 0]) = .ok f ∧
    f.a.length ≠ f.s.length ∧ f.filter [1] = (.error .valueError, f) := ⟨_, rfl, by decide, rfl⟩

/-- C10.  A nonzero `a[0]` is always rejected, whatever `b` and `s`. -/
theorem C10_nonzero_a0_rejected [Zero R] [DecidableEq R] (cast : R → R) (a0 : R) (a : List R) (b s : Option (List R))
    (h : a0 ≠ 0) : Iir.new cast (some (a0 :: a)) b s = .error .valueError := by
  simp [Iir.new, h]

example : (1 : ℤ) ≠ 0 := by decide

end Verif.Props
