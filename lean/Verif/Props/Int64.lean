import Verif.Model.Int64
import Verif.Props.Fir
import Verif.Props.Iir

/- Property C137: integer filters wrap around. -/

namespace Verif.Props

open Finset Spec

/-- The integers of an int64. -/
def Fits (v : ℤ) : Prop := -2 ^ 63 ≤ v ∧ v < 2 ^ 63

/-- `u` is what remains of `v` in an int64. -/
def WrapsTo (v u : ℤ) : Prop := Fits u ∧ (2 ^ 64 : ℤ) ∣ v - u

theorem WrapsTo.unique {v u w : ℤ} (h1 : WrapsTo v u) (h2 : WrapsTo v w) : u = w := by
  obtain ⟨⟨a1, a2⟩, k, hk⟩ := h1
  obtain ⟨⟨b1, b2⟩, l, hl⟩ := h2
  omega

theorem WrapsTo.exact {v u : ℤ} (h1 : WrapsTo v u) (h : Fits v) : u = v := h1.unique ⟨h, by simp⟩

/-- int64 arithmetic is that of the integers modulo 2^64. -/
def toI64 : ℤ →+* I64 where
  toFun := BitVec.ofInt 64
  map_one' := rfl
  map_zero' := rfl
  map_add' := BitVec.ofInt_add
  map_mul' := BitVec.ofInt_mul

theorem wrapsTo_toI64 (v : ℤ) : WrapsTo v (toI64 v).toInt := by
  have h : (toI64 v).toInt = Int.bmod v (2 ^ 64) := BitVec.toInt_ofInt v
  rw [h, Int.bmod_def]
  unfold WrapsTo Fits
  norm_num
  split <;> omega

theorem at0_i64 (l : List ℤ) (n : ℕ) : at0 (i64 l) n = toI64 (at0 l n) := by
  unfold at0 i64
  rw [List.getD_eq_getElem?_getD, List.getD_eq_getElem?_getD, List.getElem?_map]
  rcases l[n]? with _ | _
  · exact (map_zero toI64).symm
  · rfl

theorem i64_ne_nil {l : List ℤ} (h : l ≠ []) : i64 l ≠ [] := by
  intro h0; exact h (List.map_eq_nil_iff.mp h0)

theorem unI64_at0 (l : List I64) (n : ℕ) : at0 (unI64 l) n = (at0 l n).toInt := by
  unfold at0 unI64
  rw [List.getD_eq_getElem?_getD, List.getD_eq_getElem?_getD, List.getElem?_map]
  rcases l[n]? with _ | _ <;> rfl

theorem unI64_i64 (l : List ℤ) (h : ∀ v ∈ l, Fits v) : unI64 (i64 l) = l := by
  unfold unI64 i64
  rw [List.map_map]
  conv_rhs => rw [← List.map_id l]
  apply List.map_congr_left
  intro v hv
  exact (wrapsTo_toI64 v).exact (h v hv)

/-- C137.  FirFilter with integer coefficients, state and signal: every sample of the output is the value of the difference equation over the integers, wrapped
around to an int64. -/
theorem C137_fir (b : List ℤ) (s : Option (List ℤ)) (x : List ℤ) (hb : b ≠ []) (_hs : (s.getD []).length ≤ b.length) (hx : x ≠ []) :
    ∃ f y f', Fir.newI64 b s = .ok f ∧ f.filter (i64 x) = (.ok y, f') ∧ y.length = x.length ∧
      ∀ n, n < x.length → WrapsTo (conv b x n + tail b (s.getD []) n) (at0 (unI64 y) n) := by
  obtain ⟨f, y, f', h1, h2, h3, h4⟩ := C01_fir_difference_equation (i64 b) (s.map i64) (i64 x) (i64_ne_nil hb) (i64_ne_nil hx)
  refine ⟨f, y, f', h1, h2, by rw [h3]; simp [i64], fun n hn => ?_⟩
  have h5 := h4 n (by simpa [i64] using hn)
  have h6 : at0 y n = toI64 (conv b x n + tail b (s.getD []) n) := by
    have hs : (s.map i64).getD [] = i64 (s.getD []) := by cases s <;> rfl
    rw [at0, List.getD_eq_getElem?_getD, h5, Option.getD_some, map_add, hs]
    congr 1
    · unfold conv
      rw [map_sum]
      exact sum_congr rfl fun i _ => by rw [at0_i64, at0_i64, map_mul]
    · unfold tail
      rw [map_sum]
      have : (i64 b).length = b.length := by simp [i64]
      rw [this]
      refine sum_congr rfl fun i _ => ?_
      split
      · rw [at0_i64, at0_i64, map_mul]
      · rw [map_zero]
  rw [unI64_at0, h6]
  exact wrapsTo_toI64 _

/-- Large coefficients and a state. -/
example := C137_fir [2 ^ 62, 2 ^ 62, -2 ^ 62] (some [1, 1]) [1, 1, 1, -1] (by simp) (by simp) (by simp)

theorem Recursion.unique {R : Type*} [Semiring R] {a b x y z : List R} (hy : Recursion a b x y) (hz : Recursion a b x z) : y = z := by
  have h : ∀ n, n < x.length → at0 y n = at0 z n := by
    intro n
    induction n using Nat.strong_induction_on with
    | _ n ih =>
      intro hn
      rw [hy.2 n hn, hz.2 n hn]
      congr 1
      refine sum_congr rfl fun i hi => ?_
      have := mem_Icc.mp hi
      rw [ih (n - i) (by omega) (by omega)]
  apply List.ext_getElem (hy.1.trans hz.1.symm)
  intro n h1 h2
  have := h n (by rw [← hy.1]; exact h1)
  simpa [at0, h1, h2] using this

theorem Recursion.toI64 {a b x w : List ℤ} (h : Recursion a b x w) : Recursion (i64 a) (i64 b) (i64 x) (i64 w) := by
  refine ⟨by simpa [i64] using h.1, fun n hn => ?_⟩
  rw [at0_i64, h.2 n (by simpa [i64] using hn), map_add, map_sum, map_sum]
  congr 1 <;> exact sum_congr rfl fun i _ => by rw [at0_i64, at0_i64, map_mul]

/-- C137.  IirFilter with integers: every sample of the output is that of the recursion over the integers, wrapped around to an int64; what is held inside may have
wrapped around before. -/
theorem C137_iir (a b x : List ℤ) (_hab : a.length = b.length) (hne : a ≠ []) (h0 : at0 a 0 = 0) (hx : x ≠ []) (w : List ℤ) (hw : Recursion a b x w) :
    ∃ f y f', Iir.newI64 a b = .ok f ∧ f.filter (i64 x) = (.ok y, f') ∧ y.length = x.length ∧
      ∀ n, n < x.length → WrapsTo (at0 w n) (at0 (unI64 y) n) := by
  obtain ⟨f, y, f', h1, h2, h3⟩ := C07_iir_difference_equation (i64 a) (i64 b) (i64 x) (.inl (i64_ne_nil hne))
    (by rw [at0_i64, h0, map_zero]) (i64_ne_nil hx)
  have h4 : y = i64 w := Recursion.unique h3 (Recursion.toI64 hw)
  refine ⟨f, y, f', h1, h2, by rw [h4]; simpa [i64] using hw.1, fun n hn => ?_⟩
  rw [unI64_at0, h4, at0_i64]
  exact wrapsTo_toI64 _

/-- C137.  So the output is exact wherever the exact output fits into an int64. -/
theorem C137_exact (a b x : List ℤ) (_hab : a.length = b.length) (hne : a ≠ []) (h0 : at0 a 0 = 0) (hx : x ≠ []) (w : List ℤ) (hw : Recursion a b x w)
    (hfit : ∀ v ∈ w, Fits v) : ∃ f y f', Iir.newI64 a b = .ok f ∧ f.filter (i64 x) = (.ok y, f') ∧ unI64 y = w := by
  obtain ⟨f, y, f', h1, h2, h3, h4⟩ := C137_iir a b x _hab hne h0 hx w hw
  refine ⟨f, y, f', h1, h2, ?_⟩
  apply List.ext_getElem (by rw [hw.1, unI64, List.length_map, h3])
  intro n hn1 hn2
  have hn : n < x.length := by rw [← hw.1]; exact hn2
  have h5 : at0 w n = w[n] := by simp [at0, hn2]
  have h6 : at0 (unI64 y) n = (unI64 y)[n] := by simp [at0, hn1]
  have := h4 n hn
  rw [h5, h6] at this
  exact this.exact (hfit _ (List.getElem_mem hn2))

/-- The running sums of four samples, the last of which does not fit, and of two, which do. -/
example : (∃ f y f', Iir.newI64 [0, 1] [1, 0] = .ok f ∧ f.filter (i64 [2 ^ 62, 2 ^ 62]) = (.ok y, f') ∧ y.length = 2 ∧
    ∀ n, n < 2 → WrapsTo (at0 [2 ^ 62, 2 ^ 63] n) (at0 (unI64 y) n)) ∧
    ∃ f y f', Iir.newI64 [0, 1] [1, 0] = .ok f ∧ f.filter (i64 [3, 4]) = (.ok y, f') ∧ unI64 y = [3, 7] := by
  have hr : ∀ u v : ℤ, Recursion [0, 1] [1, 0] [u, v] [u, u + v] := by
    intro u v
    refine ⟨rfl, fun n hn => ?_⟩
    match n, hn with
    | 0, _ => simp [at0]
    | 1, _ => simp [sum_range_succ, at0, add_comm]
  exact ⟨C137_iir [0, 1] [1, 0] [2 ^ 62, 2 ^ 62] rfl (by simp) rfl (by simp) _ (hr _ _),
    C137_exact [0, 1] [1, 0] [3, 4] rfl (by simp) rfl (by simp) _ (hr _ _) (by simp [Fits])⟩

/-- C137.  An integrator followed by a comb sums the last `M` samples exactly, as long as that sum fits into an int64, no matter how often the integrator
wraps around. -/
theorem C137_comb (M : ℕ) (hM : 0 < M) (x : List ℤ) (hx : x ≠ []) :
    ∃ f y f' g z g', Iir.newI64 [0, 1] [1, 0] = .ok f ∧ f.filter (i64 x) = (.ok y, f') ∧
      Fir.newI64 (1 :: (List.replicate (M - 1) 0 ++ [-1])) none = .ok g ∧ g.filter y = (.ok z, g') ∧ z.length = x.length ∧
      ∀ n, n < x.length → WrapsTo (∑ j ∈ range (n + 1), if n < j + M then at0 x j else 0) (at0 (unI64 z) n) := by
  have hint : ∀ n, ∑ i ∈ range (n + 1), at0 ([1, 0] : List ℤ) i * at0 x (n - i) = at0 x n := by
    intro n
    rw [sum_eq_single 0]
    · simp [at0]
    · intro i _ hi
      rcases i with _ | _ | i
      · exact absurd rfl hi
      · simp [at0]
      · simp [at0]
    · simp
  -- the integrator
  have hw : Recursion ([0, 1] : List ℤ) [1, 0] x ((List.range x.length).map fun n => ∑ j ∈ range (n + 1), at0 x j) := by
    have hat : ∀ n, n < x.length → at0 ((List.range x.length).map fun n => ∑ j ∈ range (n + 1), at0 x j) n = ∑ j ∈ range (n + 1), at0 x j := by
      intro n hn; simp [at0, hn]
    refine ⟨by simp, fun n hn => ?_⟩
    rw [hint, hat n hn]
    rcases n with _ | n
    · simp
    · rw [sum_range_succ _ (n + 1)]
      congr 1
      symm
      rw [sum_eq_single 1]
      · rw [show n + 1 - 1 = n from rfl, hat n (by omega)]; simp [at0]
      · intro i hi hi1
        have := mem_Icc.mp hi
        obtain ⟨i, rfl⟩ : ∃ k, i = k + 2 := ⟨i - 2, by omega⟩
        simp [at0]
      · simp
  obtain ⟨f, y, f', h1, h2, h3, h4⟩ := C07_iir_difference_equation (i64 [0, 1]) (i64 [1, 0]) (i64 x) (.inl (by simp [i64]))
    (by simp [i64, at0]) (i64_ne_nil hx)
  have hy : y = i64 ((List.range x.length).map fun n => ∑ j ∈ range (n + 1), at0 x j) := Recursion.unique ⟨h3, h4⟩ (Recursion.toI64 hw)
  obtain ⟨g, z, g', k1, k2, k3, k4⟩ := C137_fir (1 :: (List.replicate (M - 1) 0 ++ [-1])) none
    ((List.range x.length).map fun n => ∑ j ∈ range (n + 1), at0 x j) (by simp) (by simp) (by simpa using hx)
  refine ⟨f, y, f', g, z, g', h1, h2, k1, by rw [hy]; exact k2, by simpa using k3, fun n hn => ?_⟩
  have k5 := k4 n (by simpa using hn)
  convert k5 using 1
  have htail : tail (1 :: (List.replicate (M - 1) 0 ++ [-1])) ((none : Option (List ℤ)).getD []) n = 0 := by simp [tail, at0]
  rw [htail, add_zero]
  unfold conv
  have hb : ∀ i, at0 (1 :: (List.replicate (M - 1) (0 : ℤ) ++ [-1])) i = (if i = 0 then 1 else 0) - if i = M then 1 else 0 := by
    intro i
    rcases i with _ | i
    · rw [if_pos rfl, if_neg (by omega)]; simp [at0]
    · rw [if_neg (by omega), zero_sub]
      unfold at0
      rw [List.getD_cons_succ, List.getD_eq_getElem?_getD, List.getElem?_append, List.getElem?_replicate, List.length_replicate]
      by_cases hi : i < M - 1
      · rw [if_pos hi, if_pos hi, if_neg (by omega)]; rfl
      · rw [if_neg hi]
        by_cases hi' : i = M - 1
        · rw [hi', if_pos (by omega)]; simp
        · rw [if_neg (by omega), List.getElem?_eq_none (by simp; omega)]; rfl
  have hat : ∀ m, at0 ((List.range x.length).map fun n => ∑ j ∈ range (n + 1), at0 x j) m = if m < x.length then ∑ j ∈ range (m + 1), at0 x j else 0 := by
    intro m
    unfold at0
    rw [List.getD_eq_getElem?_getD, List.getElem?_map]
    split
    · next h => rw [List.getElem?_range h]; rfl
    · next h => rw [List.getElem?_eq_none (by simpa using h)]; rfl
  simp_rw [hb, sub_mul, sum_sub_distrib, ite_mul, one_mul, zero_mul]
  rw [sum_ite_eq', sum_ite_eq', if_pos (by simp), Nat.sub_zero, hat n, if_pos hn]
  by_cases hMn : M ≤ n
  · rw [if_pos (by simp; omega), hat, if_pos (by omega), eq_sub_iff_add_eq]
    have hsplit : ∑ j ∈ range (n - M + 1), at0 x j = ∑ j ∈ range (n + 1), if n < j + M then 0 else at0 x j := by
      rw [show n + 1 = (n - M + 1) + M by omega, sum_range_add _ (n - M + 1) M]
      have h1 : ∑ j ∈ range M, (if n < n - M + 1 + j + M then 0 else at0 x (n - M + 1 + j)) = 0 :=
        sum_eq_zero fun j _ => if_pos (by omega)
      rw [h1, add_zero]
      refine sum_congr rfl fun j hj => ?_
      have := mem_range.mp hj
      rw [if_neg (by omega)]
    rw [hsplit, ← sum_add_distrib]
    refine sum_congr rfl fun j _ => ?_
    split <;> simp
  · rw [if_neg (by simp; omega), sub_zero]
    refine sum_congr rfl fun j _ => ?_
    rw [if_pos (by omega)]

/-- The integrator of ones times `2^62` wraps around at the third sample; the values before are exact. -/
example : ∃ f y f', Iir.newI64 [0, 1] [1, 0] = .ok f ∧ f.filter (i64 [2 ^ 62, 2 ^ 62 - 1, 1, 7]) = (.ok y, f') ∧
    unI64 y = [2 ^ 62, 2 ^ 63 - 1, -2 ^ 63, -2 ^ 63 + 7] := ⟨_, _, _, rfl, rfl, by decide +kernel⟩

/-- A partial sum overflows, the sum does not. -/
example : ∃ f y f', Fir.newI64 [2 ^ 62, 2 ^ 62, -2 ^ 62] none = .ok f ∧ f.filter (i64 [1, 1, 1, -1]) = (.ok y, f') ∧
    unI64 y = [2 ^ 62, -2 ^ 63, 2 ^ 62, -2 ^ 62] := ⟨_, _, _, rfl, rfl, by decide +kernel⟩

/-- The sum of the last two samples, through an integrator which has wrapped around. -/
example : WrapsTo (∑ j ∈ range (3 + 1), if 3 < j + 2 then at0 ([2 ^ 62, 2 ^ 62, 5, 6] : List ℤ) j else 0) 11 := by
  simp only [sum_range_succ, sum_range_zero]
  norm_num [WrapsTo, Fits, at0]

end Verif.Props
