import Verif.Props.Bibo
import Verif.Props.IirDesign

/-
Property C155: an IirFilter is undone by another one, IirFilter.filter (diamondback/filters/iir_filter.py:288-312).
-/

namespace Verif.Props

open Finset Spec

/-- Recursive coefficients of the filter which undoes one with the forward coefficients `b`: zero, then `-b[i] / b[0]`. -/
def undoA {R : Type*} [Field R] (b : List R) : List R := 0 :: b.tail.map fun v => -(v / at0 b 0)

/-- Its forward coefficients: `1 / b[0]`, then `-a[i] / b[0]`. -/
def undoB {R : Type*} [Field R] (a b : List R) : List R := 1 / at0 b 0 :: a.tail.map fun v => -(v / at0 b 0)

variable {R : Type*} [Field R]

theorem at0_undo (c : R) (d : R) (l : List R) (i : ℕ) (hi : 1 ≤ i) : at0 (d :: l.tail.map fun v => -(v / c)) i = -(at0 l i / c) := by
  obtain ⟨i, rfl⟩ := Nat.exists_eq_add_of_le' hi
  cases l with
  | nil => simp [at0]
  | cons v t =>
    by_cases h : i < t.length
    · simp [at0, h]
    · simp [at0, not_lt.mp h]

/-- A recursion solved for the signal. -/
theorem undo_recursion {a b a' b' x y : List R} (hb : at0 b 0 ≠ 0) (ha' : ∀ i, 1 ≤ i → at0 a' i = -(at0 b i / at0 b 0)) (hb0 : at0 b' 0 = 1 / at0 b 0)
    (hb' : ∀ i, 1 ≤ i → at0 b' i = -(at0 a i / at0 b 0)) (h : Recursion a b x y) : Recursion a' b' y x := by
  have hsplit : ∀ (n : ℕ) (g : ℕ → R), ∑ i ∈ range (n + 1), g i = g 0 + ∑ i ∈ Icc 1 n, g i := by
    intro n g
    rw [sum_range_succ', add_comm]
    congr 1
    rw [range_eq_Ico, sum_Ico_add' (fun i => g i) 0 n 1]
    rfl
  refine ⟨h.1.symm, fun n hn => ?_⟩
  have h2 := h.2 n (by rw [← h.1]; exact hn)
  rw [hsplit] at h2 ⊢
  have e1 : ∑ i ∈ Icc 1 n, at0 a' i * at0 x (n - i) = -((∑ i ∈ Icc 1 n, at0 b i * at0 x (n - i)) / at0 b 0) := by
    rw [sum_div, ← sum_neg_distrib]
    exact sum_congr rfl fun i hi => by rw [ha' i (mem_Icc.mp hi).1]; ring
  have e2 : ∑ i ∈ Icc 1 n, at0 b' i * at0 y (n - i) = -((∑ i ∈ Icc 1 n, at0 a i * at0 y (n - i)) / at0 b 0) := by
    rw [sum_div, ← sum_neg_distrib]
    exact sum_congr rfl fun i hi => by rw [hb' i (mem_Icc.mp hi).1]; ring
  rw [e1, e2, hb0, Nat.sub_zero]
  rw [Nat.sub_zero] at h2
  generalize ∑ i ∈ Icc 1 n, at0 b i * at0 x (n - i) = S at h2 ⊢
  generalize ∑ i ∈ Icc 1 n, at0 a i * at0 y (n - i) = T at h2 ⊢
  rw [h2]
  field_simp
  ring

theorem undo_rec {a b x y : List R} (hb : at0 b 0 ≠ 0) (h : Recursion a b x y) : Recursion (undoA b) (undoB a b) y x :=
  undo_recursion hb (fun i hi => at0_undo _ _ b i hi) (by simp [undoB, at0]) (fun i hi => at0_undo _ _ a i hi) h

theorem undo_rec' {a b x y : List R} (hb : at0 b 0 ≠ 0) (h : Recursion (undoA b) (undoB a b) x y) : Recursion a b y x := by
  have e : at0 (undoB a b) 0 = 1 / at0 b 0 := by simp [undoB, at0]
  refine undo_recursion (by rw [e]; simpa using hb) (fun i hi => ?_) (by rw [e]; simp) (fun i hi => ?_) h
  · rw [e, undoB, at0_undo _ _ a i hi]; field_simp
  · rw [e, undoA, at0_undo _ _ b i hi]; field_simp

variable [DecidableEq R]

/-- A filter is undone by any filter with which every recursion of the first turns round. -/
theorem undo_calls {a b a' b' : List R} (hab : a ≠ [] ∨ b ≠ []) (h0 : at0 a 0 = 0) (hab' : a' ≠ [] ∨ b' ≠ []) (h0' : at0 a' 0 = 0)
    (hrec : ∀ x y, Recursion a b x y → Recursion a' b' y x) (chunks : List (List R)) (hc : chunks ≠ []) (hne : ∀ c ∈ chunks, c ≠ []) :
    ∃ f g y f', Iir.new id (some a) (some b) none = .ok f ∧ Iir.new id (some a') (some b') none = .ok g ∧
      callChunks Iir.filter f chunks = (.ok y, f') ∧
      ∀ chunks' : List (List R), chunks'.flatten = y → (∀ c ∈ chunks', c ≠ []) → ∃ g', callChunks Iir.filter g chunks' = (.ok chunks.flatten, g') := by
  have hx : chunks.flatten ≠ [] := by
    obtain ⟨c, t, rfl⟩ := List.exists_cons_of_ne_nil hc
    have := hne c (by simp)
    simp [this]
  obtain ⟨f, y, f', h1, h2, h3⟩ := C07_iir_difference_equation a b chunks.flatten hab h0 hx
  have hy : y ≠ [] := by
    intro q
    have := h3.1
    rw [q] at this
    exact hx (List.length_eq_zero_iff.mp this.symm)
  obtain ⟨g, z, g', g1, g2, g3⟩ := C07_iir_difference_equation a' b' y hab' h0' hy
  refine ⟨f, g, y, f', h1, g1, by rw [C08_iir_streaming f chunks hc hne, h2], fun chunks' hf hn => ⟨g', ?_⟩⟩
  have hc' : chunks' ≠ [] := by
    rintro rfl
    exact hy hf.symm
  rw [C08_iir_streaming g chunks' hc' hn, hf, g2, Recursion.unique g3 (hrec _ _ h3)]

/-- C155.  The filter with exchanged and scaled coefficients returns the signal from the output of the first, without delay, however the signal and the output are cut into calls. -/
theorem C155_undo (a b : List R) (h0 : at0 a 0 = 0) (hb : at0 b 0 ≠ 0) (chunks : List (List R)) (hc : chunks ≠ []) (hne : ∀ c ∈ chunks, c ≠ []) :
    ∃ f g y f', Iir.new id (some a) (some b) none = .ok f ∧ Iir.new id (some (undoA b)) (some (undoB a b)) none = .ok g ∧
      callChunks Iir.filter f chunks = (.ok y, f') ∧
      ∀ chunks' : List (List R), chunks'.flatten = y → (∀ c ∈ chunks', c ≠ []) → ∃ g', callChunks Iir.filter g chunks' = (.ok chunks.flatten, g') :=
  undo_calls (.inr (by rintro rfl; simp [at0] at hb)) h0 (.inl (by simp [undoA])) (by simp [undoA, at0]) (fun _ _ => undo_rec hb) chunks hc hne

/-- A filter with a pole and a zero, and three calls. -/
example := C155_undo (R := ℚ) [0, 1 / 2] [1, 1 / 3] rfl (by simp [at0]) [[1, 2], [3], [4]] (by simp) (by simp)

/-- C155.  The order of the two does not matter. -/
theorem C155_undo_first (a b : List R) (h0 : at0 a 0 = 0) (hb : at0 b 0 ≠ 0) (chunks : List (List R)) (hc : chunks ≠ []) (hne : ∀ c ∈ chunks, c ≠ []) :
    ∃ f g y g', Iir.new id (some a) (some b) none = .ok f ∧ Iir.new id (some (undoA b)) (some (undoB a b)) none = .ok g ∧
      callChunks Iir.filter g chunks = (.ok y, g') ∧
      ∀ chunks' : List (List R), chunks'.flatten = y → (∀ c ∈ chunks', c ≠ []) → ∃ f', callChunks Iir.filter f chunks' = (.ok chunks.flatten, f') := by
  obtain ⟨g, f, y, g', h1, h2, h3, h4⟩ := undo_calls (a := undoA b) (b := undoB a b) (a' := a) (b' := b) (.inl (by simp [undoA])) (by simp [undoA, at0])
    (.inr (by rintro rfl; simp [at0] at hb)) h0 (fun _ _ => undo_rec' hb) chunks hc hne
  exact ⟨f, g, y, g', h2, h1, h3, h4⟩

/-- A moving average is undone by [1, -1, 1, -1, ...] times two. -/
example : undoA ([1/2, 1/2] : List ℚ) = [0, -1] ∧ undoB ([] : List ℚ) [1/2, 1/2] = [2] ∧ at0 ([1/2, 1/2] : List ℚ) 0 ≠ 0 := by decide +kernel

/-- C155.  With `b[0] = 0` nothing can undo the filter: the output does not depend on the last sample. -/
theorem C155_lost (a b : List R) (h0 : at0 a 0 = 0) (hab : a ≠ [] ∨ b ≠ []) (hb : at0 b 0 = 0) (x : List R) (u v : R) :
    ∃ f y f' f'', Iir.new id (some a) (some b) none = .ok f ∧ f.filter (x ++ [u]) = (.ok y, f') ∧ f.filter (x ++ [v]) = (.ok y, f'') := by
  obtain ⟨f, y, f', h1, h2, h3⟩ := C07_iir_difference_equation a b (x ++ [u]) hab h0 (by simp)
  obtain ⟨g, z, f'', g1, g2, g3⟩ := C07_iir_difference_equation a b (x ++ [v]) hab h0 (by simp)
  rw [h1] at g1; cases g1
  have h4 : Recursion a b (x ++ [v]) y := by
    refine ⟨by simpa using h3.1, fun n hn => ?_⟩
    rw [h3.2 n (by simpa using hn)]
    congr 1
    apply sum_congr rfl
    intro i hi
    rcases Nat.eq_zero_or_pos i with rfl | hi'
    · simp [hb]
    · have hlt : n - i < x.length := by
        have := mem_range.mp hi
        rw [List.length_append, List.length_singleton] at hn
        omega
      congr 1
      simp [at0, List.getElem?_append_left hlt]
  exact ⟨f, y, f', f'', h1, h2, by rw [g2, Recursion.unique g3 h4]⟩

/-- A pure delay. -/
example : at0 ([0, 1] : List ℚ) 0 = 0 := rfl

omit [DecidableEq R] in
theorem recursion_add {a b x y u v : List R} (h : Recursion a b x y) (k : Recursion a b u v) (hl : u.length = x.length) :
    Recursion a b (List.zipWith (· + ·) x u) (List.zipWith (· + ·) y v) := by
  have hz : ∀ (p q : List R), p.length = q.length → ∀ n, at0 (List.zipWith (· + ·) p q) n = at0 p n + at0 q n := by
    intro p q hpq n
    by_cases hn : n < p.length
    · simp [at0, hn, hpq ▸ hn]
    · have h1 : p.length ≤ n := not_lt.mp hn
      have h2 : q.length ≤ n := hpq ▸ h1
      simp [at0, h1, h2]
  refine ⟨by simp [h.1, k.1, hl], fun n hn => ?_⟩
  have hn' : n < x.length := by simp [hl] at hn; exact hn
  rw [hz y v (by rw [h.1, k.1, hl]), h.2 n hn', k.2 n (hl ▸ hn')]
  simp only [hz y v (by rw [h.1, k.1, hl]), hz x u hl.symm, mul_add, sum_add_distrib]
  ring

/-- C155.  If every zero of the first filter is inside the unit circle, errors in its output are multiplied by at most a constant. -/
theorem C155_robust (a b : List ℝ) (h0 : at0 a 0 = 0) (hb : at0 b 0 ≠ 0)
    (hz : ∀ z : ℂ, 1 ≤ ‖z‖ → ∑ i ∈ range b.length, ((at0 b i : ℝ) : ℂ) * z⁻¹ ^ i ≠ 0) :
    ∃ f g, Iir.new id (some a) (some b) none = .ok f ∧ Iir.new id (some (undoA b)) (some (undoB a b)) none = .ok g ∧
      ∃ K, ∀ (x e : List ℝ) (M : ℝ), x ≠ [] → e.length = x.length → (∀ v ∈ e, |v| ≤ M) →
        ∃ y f' z g', f.filter x = (.ok y, f') ∧ y.length = x.length ∧ g.filter (List.zipWith (· + ·) y e) = (.ok z, g') ∧ z.length = x.length ∧
          ∀ n < x.length, |at0 z n - at0 x n| ≤ K * M := by
  have hbne : b ≠ [] := by rintro rfl; simp [at0] at hb
  have hune : undoA b ≠ [] := by simp [undoA]
  have hu0 : at0 (undoA b) 0 = 0 := by simp [undoA, at0]
  obtain ⟨f, f1, -⟩ := Iir.new_spec id a b none (.inr hbne) h0
  obtain ⟨g, g1, gc, ga, gb, gs⟩ := Iir.new_spec id (undoA b) (undoB a b) none (.inl hune) hu0
  refine ⟨f, g, f1, g1, ?_⟩
  have hL : 0 < b.length := List.length_pos_iff.mpr hbne
  have hga : ∀ i, at0 g.a i = at0 (undoA b) i := by intro i; rw [ga, at0_padTo]
  have hal : b.length ≤ g.a.length := by rw [ga]; simp [padTo, undoA]; omega
  have hst : Stable g.a := by
    intro z hp
    by_contra hn
    have hn := not_lt.mp hn
    have hz0 : z ≠ 0 := by rintro rfl; simp at hn; linarith
    apply hz z hn
    unfold Pole at hp
    have hb0 : ((at0 b 0 : ℝ) : ℂ) ≠ 0 := by exact_mod_cast hb
    have key : ∑ i ∈ Icc 1 (g.a.length - 1), ((at0 g.a i : ℝ) : ℂ) * z⁻¹ ^ i = 1 := by
      have e : ∀ i ∈ Icc 1 (g.a.length - 1), ((at0 g.a i : ℝ) : ℂ) * z⁻¹ ^ i = ((at0 g.a i : ℝ) : ℂ) * z ^ (g.a.length - 1 - i) / z ^ (g.a.length - 1) := by
        intro i hi
        rw [mem_Icc] at hi
        rw [mul_div_assoc]
        congr 1
        rw [eq_div_iff (pow_ne_zero _ hz0), show z ^ (g.a.length - 1) = z ^ i * z ^ (g.a.length - 1 - i) by rw [← pow_add]; congr 1; omega, ← mul_assoc,
          inv_pow, inv_mul_cancel₀ (pow_ne_zero _ hz0), one_mul]
      rw [sum_congr rfl e, ← sum_div, ← hp, div_self (pow_ne_zero _ hz0)]
    have key2 : ∑ i ∈ Icc 1 (g.a.length - 1), ((at0 b i : ℝ) : ℂ) * z⁻¹ ^ i = -((at0 b 0 : ℝ) : ℂ) := by
      have : ∑ i ∈ Icc 1 (g.a.length - 1), ((at0 g.a i : ℝ) : ℂ) * z⁻¹ ^ i = -((∑ i ∈ Icc 1 (g.a.length - 1), ((at0 b i : ℝ) : ℂ) * z⁻¹ ^ i) / ((at0 b 0 : ℝ) : ℂ)) := by
        rw [sum_div, ← sum_neg_distrib]
        refine sum_congr rfl fun i hi => ?_
        rw [hga, undoA, at0_undo _ _ b i (mem_Icc.mp hi).1]
        push_cast
        ring
      rw [this] at key
      generalize ∑ i ∈ Icc 1 (g.a.length - 1), ((at0 b i : ℝ) : ℂ) * z⁻¹ ^ i = S at key ⊢
      field_simp at key
      linear_combination -key
    have key3 : ∑ i ∈ range g.a.length, ((at0 b i : ℝ) : ℂ) * z⁻¹ ^ i = 0 := by
      obtain ⟨m, hm⟩ : ∃ m, g.a.length = m + 1 := ⟨g.a.length - 1, by omega⟩
      rw [hm, sum_range_succ']
      rw [hm, Nat.add_sub_cancel] at key2
      have : ∑ i ∈ range m, ((at0 b (i + 1) : ℝ) : ℂ) * z⁻¹ ^ (i + 1) = ∑ i ∈ Icc 1 m, ((at0 b i : ℝ) : ℂ) * z⁻¹ ^ i := by
        rw [range_eq_Ico, sum_Ico_add' (fun i => ((at0 b i : ℝ) : ℂ) * z⁻¹ ^ i) 0 m 1]
        rfl
      rw [this, key2]
      simp
    rw [← key3]
    refine sum_subset (fun i hi => ?_) (fun i _ hi => ?_)
    · rw [mem_range] at hi ⊢; omega
    · rw [mem_range, not_lt] at hi
      rw [at0_of_le _ _ hi]; simp
  have gl : g.a.length = g.b.length := by rw [ga, gb]; simp [padTo]
  have gls : g.b.length = g.s.length := by rw [gb, gs]; simp [padTo]
  obtain ⟨K, hK⟩ := C13_stable_bibo g gc ⟨gl, gls, by omega⟩ (by
    intro v hv
    rw [gs] at hv
    simp [padTo] at hv
    exact hv.2) (by rw [hga, hu0]) hst
  refine ⟨K, fun x e M hx he hM => ?_⟩
  have hene : e ≠ [] := by
    rintro rfl
    exact hx (List.length_eq_zero_iff.mp he.symm)
  obtain ⟨f2, y, f', h1, h2, h3⟩ := C07_iir_difference_equation a b x (.inr hbne) h0 hx
  rw [f1] at h1; cases h1
  obtain ⟨g2, d, g', k1, k2, k3⟩ := C07_iir_difference_equation (undoA b) (undoB a b) e (.inl hune) hu0 hene
  rw [g1] at k1; cases k1
  have hye : e.length = y.length := he.trans h3.1.symm
  have hne : List.zipWith (· + ·) y e ≠ [] := by
    intro q
    have := congrArg List.length q
    simp [hye] at this
    rw [this] at hye
    exact hene (List.length_eq_zero_iff.mp hye)
  obtain ⟨g2, z, g'', l1, l2, l3⟩ := C07_iir_difference_equation (undoA b) (undoB a b) (List.zipWith (· + ·) y e) (.inl hune) hu0 hne
  rw [g1] at l1; cases l1
  have hzz := Recursion.unique l3 (recursion_add (undo_rec hb h3) k3 hye)
  have hzl : z.length = x.length := by rw [hzz]; simp [k3.1, he]
  refine ⟨y, f', z, g'', h2, h3.1, l2, hzl, fun n hn => ?_⟩
  obtain ⟨d', g3, m1, -, m3⟩ := hK e M hene hM
  rw [k2] at m1; cases m1
  have hdn : n < d.length := by rw [k3.1, he]; exact hn
  have hzn : at0 z n = at0 x n + at0 d n := by
    rw [hzz]
    simp [at0, hn, hdn]
  rw [hzn, add_sub_cancel_left, at0_of_lt _ _ hdn]
  exact m3 _ (List.getElem_mem _)

/-- Numerator 1 + z⁻¹ / 2. -/
example := C155_robust [0, 1 / 4] [1, 1 / 2] rfl (by simp [at0]) (fun z hz h => by
  have h0 : z ≠ 0 := fun h => by rw [h, norm_zero] at hz; linarith
  simp [at0, sum_range_succ] at h
  have h2 : z = -(1 / 2) := by field_simp at h; linear_combination h / 2
  rw [h2] at hz
  norm_num at hz)

/-- C155.  If the first filter has a zero on or outside the unit circle which is not one of its poles, then there are errors within [-1, 1] after which, for every signal,
the signal returned is off by more than every bound. -/
theorem C155_fragile (a b : List ℝ) (h0 : at0 a 0 = 0) (hb : at0 b 0 ≠ 0) (z : ℂ) (hz : 1 ≤ ‖z‖)
    (hzero : ∑ i ∈ range b.length, ((at0 b i : ℝ) : ℂ) * z⁻¹ ^ i = 0) (hpole : ∑ i ∈ range a.length, ((at0 a i : ℝ) : ℂ) * z⁻¹ ^ i ≠ 1) :
    ∃ f g, Iir.new id (some a) (some b) none = .ok f ∧ Iir.new id (some (undoA b)) (some (undoB a b)) none = .ok g ∧
      ∃ e : ℕ → ℝ, (∀ n, |e n| ≤ 1) ∧ ∀ (x : ℕ → ℝ) (K : ℝ), ∃ N y f' w g', f.filter ((List.range (N + 1)).map x) = (.ok y, f') ∧
        g.filter (List.zipWith (· + ·) y ((List.range (N + 1)).map e)) = (.ok w, g') ∧ w.length = N + 1 ∧ K < |at0 w N - x N| := by
  have hbne : b ≠ [] := by rintro rfl; simp [at0] at hb
  have hL : 0 < b.length := List.length_pos_iff.mpr hbne
  have hune : undoA b ≠ [] := by simp [undoA]
  have hu0 : at0 (undoA b) 0 = 0 := by simp [undoA, at0]
  have hz0 : z ≠ 0 := by rintro rfl; simp at hz; linarith
  have hb0 : ((at0 b 0 : ℝ) : ℂ) ≠ 0 := by exact_mod_cast hb
  obtain ⟨f, f1, -⟩ := Iir.new_spec id a b none (.inr hbne) h0
  have hul : (undoA b).length = b.length := by simp [undoA]; omega
  have tailsum : ∀ (l : List ℝ), 0 < l.length → ∑ i ∈ range l.length, ((at0 l i : ℝ) : ℂ) * z⁻¹ ^ i = ((at0 l 0 : ℝ) : ℂ) + ∑ i ∈ Icc 1 (l.length - 1), ((at0 l i : ℝ) : ℂ) * z⁻¹ ^ i := by
    intro l hl
    obtain ⟨m, hm⟩ : ∃ m, l.length = m + 1 := ⟨l.length - 1, by omega⟩
    rw [hm, sum_range_succ', add_comm, Nat.add_sub_cancel]
    congr 1
    · simp
    · rw [range_eq_Ico, sum_Ico_add' (fun i => ((at0 l i : ℝ) : ℂ) * z⁻¹ ^ i) 0 m 1]
      rfl
  have hp : Pole (undoA b) z := by
    unfold Pole
    rw [hul]
    rw [tailsum b hL] at hzero
    have e : ∀ i ∈ Icc 1 (b.length - 1), ((at0 (undoA b) i : ℝ) : ℂ) * z ^ (b.length - 1 - i) = -(((at0 b i : ℝ) : ℂ) * z⁻¹ ^ i) * (z ^ (b.length - 1) / ((at0 b 0 : ℝ) : ℂ)) := by
      intro i hi
      have hi := mem_Icc.mp hi
      rw [undoA, at0_undo _ _ b i hi.1, show z ^ (b.length - 1) = z ^ i * z ^ (b.length - 1 - i) by rw [← pow_add]; congr 1; omega]
      push_cast
      rw [inv_pow]
      field_simp
    rw [sum_congr rfl e, ← sum_mul, sum_neg_distrib]
    have : -∑ i ∈ Icc 1 (b.length - 1), ((at0 b i : ℝ) : ℂ) * z⁻¹ ^ i = ((at0 b 0 : ℝ) : ℂ) := by linear_combination -hzero
    rw [this]
    field_simp
  have hq : ∑ i ∈ range (undoB a b).length, ((at0 (undoB a b) i : ℝ) : ℂ) * z⁻¹ ^ i ≠ 0 := by
    rw [tailsum _ (by simp [undoB])]
    have e : ∑ i ∈ Icc 1 ((undoB a b).length - 1), ((at0 (undoB a b) i : ℝ) : ℂ) * z⁻¹ ^ i = -((∑ i ∈ range a.length, ((at0 a i : ℝ) : ℂ) * z⁻¹ ^ i) / ((at0 b 0 : ℝ) : ℂ)) := by
      have hl : (undoB a b).length - 1 = a.length - 1 := by simp [undoB]
      rw [hl]
      have : ∑ i ∈ range a.length, ((at0 a i : ℝ) : ℂ) * z⁻¹ ^ i = ∑ i ∈ Icc 1 (a.length - 1), ((at0 a i : ℝ) : ℂ) * z⁻¹ ^ i := by
        rcases Nat.eq_zero_or_pos a.length with h | h
        · simp [h]
        · rw [tailsum a h, h0]; simp
      rw [this, sum_div, ← sum_neg_distrib]
      refine sum_congr rfl fun i hi => ?_
      rw [undoB, at0_undo _ _ a i (mem_Icc.mp hi).1]
      push_cast
      ring
    rw [e]
    have h1 : ((at0 (undoB a b) 0 : ℝ) : ℂ) = 1 / ((at0 b 0 : ℝ) : ℂ) := by simp [undoB, at0]
    rw [h1, ← sub_eq_add_neg, ← sub_div]
    exact div_ne_zero (sub_ne_zero.mpr (Ne.symm hpole)) hb0
  obtain ⟨g, g1, e, he, hun⟩ := C148_unbounded (undoA b) (undoB a b) (.inl hune) hu0 z hz hp hq
  refine ⟨f, g, f1, g1, e, he, fun x K => ?_⟩
  obtain ⟨N, d, g', k1, k2, k3⟩ := hun K
  have hxne : (List.range (N + 1)).map x ≠ [] := by simp
  obtain ⟨f2, y, f', h1, h2, h3⟩ := C07_iir_difference_equation a b ((List.range (N + 1)).map x) (.inr hbne) h0 hxne
  rw [f1] at h1; cases h1
  have hyl : y.length = N + 1 := by rw [h3.1]; simp
  obtain ⟨g2, d2, g3, m1, m2, m3⟩ := C07_iir_difference_equation (undoA b) (undoB a b) ((List.range (N + 1)).map e) (.inl hune) hu0 (by simp)
  rw [g1] at m1; cases m1
  rw [k1] at m2; cases m2
  have hne : List.zipWith (· + ·) y ((List.range (N + 1)).map e) ≠ [] := by
    intro q
    have := congrArg List.length q
    simp [hyl] at this
  obtain ⟨g2, w, g4, l1, l2, l3⟩ := C07_iir_difference_equation (undoA b) (undoB a b) (List.zipWith (· + ·) y ((List.range (N + 1)).map e)) (.inl hune) hu0 hne
  rw [g1] at l1; cases l1
  have hww := Recursion.unique l3 (recursion_add (undo_rec hb h3) m3 (by simp [hyl]))
  refine ⟨N, y, f', w, g4, h2, l2, by rw [hww]; simp [k2], ?_⟩
  have : at0 w N = x N + at0 d N := by
    rw [hww]
    simp [at0, k2]
  rw [this, add_sub_cancel_left]
  exact k3

/-- The moving average of two samples has its zero on the unit circle, at -1, and no pole there: what undoes it is fragile. -/
example : ∑ i ∈ range ([1/2, 1/2] : List ℝ).length, ((at0 ([1/2, 1/2] : List ℝ) i : ℝ) : ℂ) * (-1 : ℂ)⁻¹ ^ i = 0 ∧
    ∑ i ∈ range ([0] : List ℝ).length, ((at0 ([0] : List ℝ) i : ℝ) : ℂ) * (-1 : ℂ)⁻¹ ^ i ≠ 1 := by
  constructor
  · simp [sum_range_succ, at0]
  · simp [at0]

/-- A filter with its zero at -1/2 meets the hypothesis of `C155_robust`: what undoes it is robust. -/
example : ∀ z : ℂ, 1 ≤ ‖z‖ → ∑ i ∈ range ([1, 1/2] : List ℝ).length, ((at0 ([1, 1/2] : List ℝ) i : ℝ) : ℂ) * z⁻¹ ^ i ≠ 0 := by
  intro z hz h
  have h' : (1 : ℂ) = -(2⁻¹ * z⁻¹) := by
    simp [sum_range_succ, at0] at h
    linear_combination h
  have h2 : (1 : ℝ) = 2⁻¹ * ‖z‖⁻¹ := by
    have := congrArg norm h'
    simpa using this
  have h3 : ‖z‖⁻¹ ≤ 1 := inv_le_one_of_one_le₀ hz
  linarith

end Verif.Props
