import Verif.Lemmas.Fir
import Mathlib.Tactic.NormNum
import Mathlib.Data.Rat.Floor
import Mathlib.Algebra.Order.Ring.Rat
import Mathlib.Algebra.BigOperators.Ring.Finset

/-
Properties C01–C06 of FirFilter (diamondback/filters/fir_filter.py).
-/

namespace Verif.Props

open Finset Spec

variable {R : Type*}

/-- C01.  Output of `FirFilter(b=b, s=s).filter(x)` for float/complex dtype (`cast = id`): the difference equation,
with the given state as past samples (most recent first). -/
theorem C01_fir_difference_equation [Semiring R] (b : List R) (s : Option (List R)) (x : List R)
    (hb : b ≠ []) (hx : x ≠ []) :
    ∃ f y f', Fir.new id b s = .ok f ∧ f.filter x = (.ok y, f') ∧ y.length = x.length ∧
      ∀ n, n < x.length → y[n]? = some (conv b x n + tail b (s.getD []) n) := by
  obtain ⟨f, h1, hwf, hc, hfb, hfs⟩ := Fir.new_spec id b s hb
  obtain ⟨y, h2, h3, h4⟩ := Fir.filter_wf f hwf x hx
  refine ⟨f, y, _, h1, h2, h3, fun n hn => ?_⟩
  rw [h4 n hn, hc]
  simp only [List.map_id, id]
  rw [dot_window f.b x f.s n _ le_rfl hn]
  congr 2
  · simp [conv, hfb, at0_padTo]
  · rw [hfb, hfs]
    unfold tail
    simp only [at0_padTo, List.map_id]
    symm
    apply sum_subset
    · intro i; simp [padTo]; omega
    · intro i _ hi
      rw [at0_of_le b i (by simpa using hi)]
      simp

/-- The hypotheses hold of a filter with a state. -/
example := C01_fir_difference_equation [1, 2, 3] (some [4, 5]) [(6 : ℤ), 7] (by simp) (by simp)

/-- C01, default state: the output is the causal convolution of `b` and `x`. -/
theorem C01_fir_convolution [Semiring R] (b : List R) (x : List R) (hb : b ≠ []) (hx : x ≠ []) :
    ∃ f y f', Fir.new id b none = .ok f ∧ f.filter x = (.ok y, f') ∧ y.length = x.length ∧
      ∀ n, n < x.length → y[n]? = some (∑ i ∈ range (n + 1), at0 b i * at0 x (n - i)) := by
  obtain ⟨f, y, f', h1, h2, h3, h4⟩ := C01_fir_difference_equation b none x hb hx
  refine ⟨f, y, f', h1, h2, h3, fun n hn => ?_⟩
  rw [h4 n hn]
  simp [tail, conv, at0_nil]

/-- The hypotheses of C01 hold for a concrete filter, and the values are the expected ones. -/
example : ∃ f y f', Fir.new id [1, 2, 3] none = .ok f ∧ f.filter [(1 : ℤ), 0, 5, 7] = (.ok y, f') ∧
    y = [1, 2, 8, 17] := ⟨_, _, _, rfl, rfl, by decide⟩

/-- C02.  Chunk boundaries are invisible, for every instance (well formed or not), every dtype conversion and every
arithmetic: `dot` is an arbitrary function. -/
theorem C02_fir_streaming [Dot R] (f : Fir R) (chunks : List (List R)) (h0 : chunks ≠ [])
    (hne : ∀ c ∈ chunks, c ≠ []) :
    callChunks Fir.filter f chunks = f.filter chunks.flatten := by
  refine callChunks_eq_filter Fir.step Fir.filter ?_ f chunks h0 hne
  intro st x hx
  have : x.length ≠ 0 := by simpa using hx
  simp [Fir.filter, this]

example : ([[1, 2], [3]] : List (List ℤ)) ≠ [] ∧ ∀ c ∈ ([[1, 2], [3]] : List (List ℤ)), c ≠ [] := by decide

/-- The signal `p*x + q*z`. -/
def lin [Semiring R] (p : R) (x : List R) (q : R) (z : List R) : List R :=
  List.zipWith (fun u v => p * u + q * v) x z

theorem at0_lin [Semiring R] (p q : R) (x z : List R) (h : x.length = z.length) (n : ℕ) :
    at0 (lin p x q z) n = p * at0 x n + q * at0 z n := by
  by_cases hn : n < x.length
  · rw [at0_of_lt _ _ (by simp [lin]; omega), at0_of_lt _ _ hn, at0_of_lt _ _ (by omega)]
    simp [lin]
  · rw [at0_of_le _ _ (by simp [lin]; omega), at0_of_le x _ (by omega), at0_of_le z _ (by omega)]
    simp

/-- C03.  Superposition with the default (zero) state. -/
theorem C03_fir_linear [CommSemiring R] (b x z : List R) (p q : R) (hb : b ≠ []) (hx : x ≠ [])
    (hxz : x.length = z.length) :
    ∃ f yx yz fx fz f', Fir.new id b none = .ok f ∧ f.filter x = (.ok yx, fx) ∧ f.filter z = (.ok yz, fz) ∧
      f.filter (lin p x q z) = (.ok (lin p yx q yz), f') := by
  have hz : z ≠ [] := by intro h; rw [h] at hxz; simp at hxz; exact hx hxz
  have hl : lin p x q z ≠ [] := by
    intro h
    have : (lin p x q z).length = 0 := by rw [h]; rfl
    simp [lin, ← hxz] at this
    exact hx this
  obtain ⟨f, yx, fx, h1, h2, h3, h4⟩ := C01_fir_convolution b x hb hx
  obtain ⟨f2, yz, fz, h1', h2', h3', h4'⟩ := C01_fir_convolution b z hb hz
  obtain ⟨f3, yl, fl, h1'', h2'', h3'', h4''⟩ := C01_fir_convolution b (lin p x q z) hb hl
  rw [h1] at h1' h1''
  cases h1'; cases h1''
  refine ⟨f, yx, yz, fx, fz, fl, h1, h2, h2', ?_⟩
  rw [h2'']
  congr 2
  have hll : (lin p x q z).length = x.length := by simp [lin]; omega
  apply List.ext_getElem?
  intro n
  by_cases hn : n < x.length
  · rw [h4'' n (by omega)]
    simp only [lin, List.getElem?_zipWith, h4 n hn, h4' n (by omega)]
    rw [mul_sum, mul_sum, ← sum_add_distrib]
    congr 1
    apply sum_congr rfl
    intro i _
    have := at0_lin p q x z hxz (n - i)
    unfold lin at this
    rw [this]; ring
  · rw [List.getElem?_eq_none (by omega), List.getElem?_eq_none (by simp [lin]; omega)]

example : ([1, 2] : List ℚ) ≠ [] ∧ ([1, 2] : List ℚ).length = ([5, 6] : List ℚ).length := by simp

/-- C03, limit of validity: with *integer* coefficients the state has an integer dtype, samples are truncated when stored
and superposition fails (witness: b = [1], half of the signal 1 twice). -/
theorem C03_integer_dtype_not_linear :
    ∃ f : Fir ℚ, Fir.new truncInt [1] none = .ok f ∧
      (f.filter [1/2 + 1/2]).1 = .ok [1] ∧ (f.filter [1/2]).1 = .ok [0] := by
  refine ⟨⟨truncInt, [1], [0]⟩, ?_, ?_, ?_⟩
  · have : truncInt (0 : ℚ) = 0 := by norm_num [truncInt]
    simp [Fir.new, padTo, this]
  · have : truncInt (1 : ℚ) = 1 := by norm_num [truncInt]
    norm_num [Fir.filter, runLoop, Fir.step, dot_def, this]
  · have h1 : truncInt (1/2 : ℚ) = 0 := by norm_num [truncInt]
    have h0 : truncInt (0 : ℚ) = 0 := by norm_num [truncInt]
    simp only [Fir.filter, runLoop, Fir.step, h1]
    simp [dot_def, h0]

/-- C04.  After `reset(x)` the constant `x` passes with gain `sum(b)` from the first sample on. -/
theorem C04_fir_reset_no_transient [Semiring R] (b : List R) (s : Option (List R)) (x : R) (k : ℕ)
    (hb : b ≠ []) (hk : 0 < k) :
    ∃ f g g', Fir.new id b s = .ok f ∧ f.reset (.scalar x) = (.ok (), g) ∧
      g.filter (List.replicate k x) = (.ok (List.replicate k (b.sum * x)), g') := by
  obtain ⟨f, h1, hwf, hc, hfb, hfs⟩ := Fir.new_spec id b s hb
  have hg : Fir.WF { f with s := f.s.map (fun _ => f.cast x) } := ⟨by simpa using hwf.1, hwf.2⟩
  obtain ⟨y, h2, h3, h4⟩ := Fir.filter_wf _ hg (List.replicate k x) (by simp; omega)
  suffices hy : y = List.replicate k (b.sum * x) from ⟨f, _, _, h1, rfl, hy ▸ h2⟩
  simp only [hc, id, List.map_id] at h4
  apply List.ext_getElem?
  intro n
  by_cases hn : n < k
  · rw [h4 n (by simpa using hn)]
    simp only [List.getElem?_replicate, hn, if_true]
    congr 1
    have e : (((List.replicate k x).take (n+1)).map (fun a => a)).reverse ++ f.s.map (fun _ => x)
        = List.replicate (min (n+1) k + f.s.length) x := by
      simp
    simp only [List.map_id'] at e
    rw [e, List.take_replicate]
    have hmin : min f.b.length (min (n+1) k + f.s.length) = f.b.length := by rw [hwf.1]; omega
    rw [hmin, dot_def]
    have h5 : ∀ l : List R, (List.zipWith (· * ·) l (List.replicate l.length x)).sum = l.sum * x := by
      intro l
      induction l with
      | nil => simp
      | cons a l ih => simp [List.replicate_succ, ih, add_mul]
    rw [h5, hfb]
    simp [padTo]
  · rw [List.getElem?_eq_none (by rw [h3]; simpa using hn)]
    simp [hn]

example : ∃ f g g', Fir.new id [1, 2, 3] none = .ok f ∧ f.reset (.scalar (5 : ℤ)) = (.ok (), g) ∧
    g.filter [5, 5] = (.ok [30, 30], g') := ⟨_, _, _, rfl, rfl, rfl⟩

/-- C05.  Rejected calls raise ValueError and leave the instance unchanged. -/
theorem C05_fir_rejects_unchanged [Dot R] (f : Fir R) :
    f.filter [] = (.error .valueError, f) ∧ f.reset .nonScalar = (.error .valueError, f) := ⟨rfl, rfl⟩

example := C05_fir_rejects_unchanged (⟨id, [1, 2], [0, 3]⟩ : Fir ℚ)

/-- C05.  If the caller has assigned nonempty `b` and `s` of different lengths, `filter` raises ValueError on the first
sample; `b` is untouched, and that one sample has already been shifted into `s`. -/
theorem C05_fir_mismatch_raises [Dot R] (f : Fir R) (x0 : R) (x : List R) (hb : f.b ≠ []) (hs : f.s ≠ [])
    (hm : f.b.length ≠ f.s.length) :
    f.filter (x0 :: x) = (.error .valueError, { f with s := f.cast x0 :: f.s.dropLast }) := by
  rcases hs' : f.s with _ | ⟨a, t⟩
  · exact absurd hs' hs
  · rw [hs'] at hm
    have hstep : f.step x0 = (.error .valueError, { f with s := f.cast x0 :: (a :: t).dropLast }) := by
      unfold Fir.step
      rw [hs', if_neg (by simpa using hb)]
      rcases t with _ | ⟨c, u⟩
      · simpa using hm
      · simpa [shiftRight] using hm
    simp [Fir.filter, runLoop, hstep]

example : ((⟨id, [1, 2], [0, 0, 0]⟩ : Fir ℤ)).filter [7] = (.error .valueError, ⟨id, [1, 2], [7, 0, 0]⟩) := rfl

theorem Fir.after_wf [Dot R] (f : Fir R) (hf : f.WF) (ops : List (FirOp R)) :
    (f.after ops).WF ∧ (f.after ops).b = f.b ∧ (f.after ops).s.length = f.s.length := by
  induction ops generalizing f with
  | nil => exact ⟨hf, rfl, rfl⟩
  | cons op ops ih =>
    have key : (f.apply op).2.WF ∧ (f.apply op).2.b = f.b ∧ (f.apply op).2.s.length = f.s.length := by
      cases op with
      | filter x =>
        by_cases hx : x = []
        · subst hx; exact ⟨hf, rfl, rfl⟩
        · obtain ⟨y, h2, _, _⟩ := Fir.filter_wf f hf x hx
          have h1 := hf.1
          have h2' := hf.2
          simp only [Fir.apply, h2]
          refine ⟨⟨?_, hf.2⟩, trivial, ?_⟩ <;> simp <;> omega
      | reset a =>
        cases a with
        | nonScalar => exact ⟨hf, rfl, rfl⟩
        | scalar x =>
          simp only [Fir.apply, Fir.reset]
          exact ⟨⟨by simpa using hf.1, hf.2⟩, trivial, by simp⟩
    obtain ⟨k1, k2, k3⟩ := key
    obtain ⟨h1, h2, h3⟩ := ih _ k1
    refine ⟨?_, ?_, ?_⟩
    · simpa [Fir.after] using h1
    · simpa [Fir.after, k2] using h2
    · simpa [Fir.after, k3] using h3

/-- C06.  Every nonempty `b` with any `s` is accepted; the instance holds the given values padded with zeros to a common
length; and after any history of `filter` and `reset` calls (including rejected ones) `filter` succeeds on every
nonempty signal. -/
theorem C06_fir_construction_usable [Zero R] [Dot R] (cast : R → R) (b : List R) (s : Option (List R)) (hb : b ≠ []) :
    ∃ f, Fir.new cast b s = .ok f ∧
      f.b.length = max b.length (s.getD []).length ∧ f.s.length = max b.length (s.getD []).length ∧
      (∀ i, at0 f.b i = at0 b i) ∧
      (∀ i, i < f.s.length → f.s[i]? = some (cast (at0 (s.getD []) i))) ∧
      ∀ (ops : List (FirOp R)) (x : List R), x ≠ [] →
        ∃ y, ((f.after ops).filter x).1 = .ok y ∧ y.length = x.length := by
  obtain ⟨f, h1, hwf, hc, hfb, hfs⟩ := Fir.new_spec cast b s hb
  refine ⟨f, h1, ?_, ?_, ?_, ?_, ?_⟩
  · rw [hfb]; simp [padTo]
  · rw [hfs]; simp [padTo]
  · intro i; rw [hfb, at0_padTo]
  · intro i hi
    have hi' : i < (padTo (max b.length (s.getD []).length) (s.getD [])).length := by
      rw [hfs] at hi; simpa using hi
    rw [← at0_padTo _ (max b.length (s.getD []).length), at0_of_lt _ _ hi', hfs]
    simp [List.getElem?_map, List.getElem?_eq_getElem hi']
  · intro ops x hx
    obtain ⟨hw, _, _⟩ := Fir.after_wf f hwf ops
    obtain ⟨y, h2, h3, _⟩ := Fir.filter_wf _ hw x hx
    exact ⟨y, by rw [h2], h3⟩

/-- The hypothesis holds of a filter of integers. -/
example := C06_fir_construction_usable (truncInt : ℚ → ℚ) [1, 2] (some [3, 4, 5]) (by simp)

/-- An empty coefficient list is rejected. -/
theorem C06_fir_empty_rejected [Zero R] (cast : R → R) (s : Option (List R)) :
    Fir.new cast [] s = .error .valueError := rfl

example : ∃ f, Fir.new id [1, 2] (some [(3 : ℤ), 4, 5]) = .ok f ∧ f.b = [1, 2, 0] ∧ f.s = [3, 4, 5] :=
  ⟨_, rfl, rfl, rfl⟩

end Verif.Props
