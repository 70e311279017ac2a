import Verif.Lemmas.Fir
import Verif.Model.Iir
import Mathlib.RingTheory.PowerSeries.Inverse
import Mathlib.Algebra.BigOperators.NatAntidiagonal

/-
IirFilter: step on well-formed instances, and the output as a power-series quotient.
-/

namespace Verif

open Finset Spec

variable {R : Type*}

/-- `a`, `b` and `s` have the same positive length. -/
def Iir.WF (f : Iir R) : Prop := f.a.length = f.b.length ∧ f.b.length = f.s.length ∧ 0 < f.b.length

/-- Delay line after the recursive update of line 307: `(s_0 + a·s, s_1, …)`. -/
def Iir.mem [Add R] [Dot R] (f : Iir R) : List R :=
  f.s.modifyHead (fun s0 => f.cast (s0 + dot f.a f.s))

theorem Iir.mem_length [Add R] [Dot R] (f : Iir R) : f.mem.length = f.s.length := by simp [Iir.mem]

/-- Combined coefficients of line 310. -/
def Iir.comb [Add R] [Mul R] (f : Iir R) : List R :=
  match f.b with
  | [] => []
  | b0 :: _ => List.zipWith (· + ·) (f.a.map (· * b0)) f.b

theorem Iir.comb_length [Add R] [Mul R] (f : Iir R) (hf : f.WF) : f.comb.length = f.b.length := by
  obtain ⟨h1, h2, h3⟩ := hf
  unfold Iir.comb
  rcases hb : f.b with _ | ⟨b0, bt⟩
  · simp
  · simp [h1, hb]

theorem Iir.step_wf [Add R] [Mul R] [Dot R] (f : Iir R) (hf : f.WF) (x : R) :
    f.step x = (.ok (f.cast (dot f.comb (f.cast x :: f.mem.dropLast))),
      { f with s := f.cast x :: f.mem.dropLast }) := by
  obtain ⟨h1, h2, h3⟩ := hf
  rcases hs : f.s with _ | ⟨s0, t⟩
  · rw [hs] at h2; simp at h2; simp [h2] at h3
  rcases hb : f.b with _ | ⟨b0, bt⟩
  · simp [hb] at h3
  have hbl : bt.length = t.length := by rw [hb, hs] at h2; simpa using h2
  have hal : f.a.length = t.length + 1 := by rw [h1, h2, hs]; simp
  unfold Iir.step Iir.comb Iir.mem
  rw [hs, hb]
  rcases t with _ | ⟨c, u⟩
  · simp [bcAdd, hal, hbl]
  · simp [shiftRight, bcAdd, hal, hbl]

theorem Iir.step_wf_wf [Add R] [Mul R] [Dot R] (f : Iir R) (hf : f.WF) (x : R) :
    (f.step x).2.WF ∧ (f.step x).2.a = f.a ∧ (f.step x).2.b = f.b ∧ (f.step x).2.cast = f.cast := by
  rw [Iir.step_wf f hf]
  obtain ⟨h1, h2, h3⟩ := hf
  refine ⟨⟨h1, ?_, h3⟩, rfl, rfl, rfl⟩
  simp [Iir.mem_length]; omega

/-! ### Exact arithmetic -/

/-- Generating function of a list. -/
noncomputable def ser [CommRing R] (l : List R) : PowerSeries R := PowerSeries.mk (at0 l)

@[simp] theorem coeff_ser [CommRing R] (l : List R) (n : ℕ) : PowerSeries.coeff n (ser l) = at0 l n := by
  simp [ser]

/-- `1 / (1 - A)`. -/
noncomputable def recip [CommRing R] (a : List R) : PowerSeries R := PowerSeries.invOfUnit (1 - ser a) 1

theorem mul_recip [CommRing R] (a : List R) (h0 : at0 a 0 = 0) : (1 - ser a) * recip a = 1 := by
  apply PowerSeries.mul_invOfUnit
  simp [ser, h0, PowerSeries.constantCoeff_mk]

theorem sum_range_extend [CommRing R] (a : List R) (g : ℕ → R) (n : ℕ) (L : ℕ) (hL : a.length ≤ L)
    (hg : ∀ i, n < i → i < L → g i = 0) :
    ∑ i ∈ range L, at0 a i * g i = ∑ i ∈ range (n + 1), at0 a i * g i := by
  rcases le_total L (n+1) with h | h
  · apply sum_subset
    · intro i; simp; omega
    · intro i _ hi
      rw [at0_of_le a i (le_trans hL (by simpa using hi))]; simp
  · symm
    apply sum_subset
    · intro i; simp; omega
    · intro i hi hi2
      rw [hg i (by simpa using hi2) (by simpa using hi)]; simp

theorem at0_dropLast [Zero R] (l : List R) (i : ℕ) (h : i + 1 < l.length) : at0 l.dropLast i = at0 l i := by
  rw [at0_of_lt _ _ (by simp; omega), at0_of_lt _ _ (by omega)]
  simp

theorem at0_modifyHead_succ [Zero R] (l : List R) (g : R → R) (i : ℕ) :
    at0 (l.modifyHead g) (i+1) = at0 l (i+1) := by
  cases l <;> rfl

theorem at0_modifyHead_zero [Zero R] (l : List R) (g : R → R) (h : l ≠ []) :
    at0 (l.modifyHead g) 0 = g (at0 l 0) := by
  cases l with
  | nil => exact absurd rfl h
  | cons => rfl

theorem at0_zipWith_add [AddZeroClass R] (u v : List R) (h : u.length = v.length) (i : ℕ) :
    at0 (List.zipWith (· + ·) u v) i = at0 u i + at0 v i := by
  by_cases hi : i < u.length
  · rw [at0_of_lt _ _ (by simp; omega), at0_of_lt _ _ hi, at0_of_lt _ _ (by omega)]
    simp
  · rw [at0_of_le _ _ (by simp; omega), at0_of_le _ _ (by omega), at0_of_le _ _ (by omega)]
    simp

theorem at0_map_mul [MulZeroClass R] (u : List R) (c : R) (i : ℕ) : at0 (u.map (· * c)) i = at0 u i * c := by
  by_cases hi : i < u.length
  · rw [at0_of_lt _ _ (by simpa using hi), at0_of_lt _ _ hi]
    simp
  · rw [at0_of_le _ _ (by simpa using hi), at0_of_le _ _ (by omega)]
    simp

/-- The output of a step is `b` applied to the delay line of the new state. -/
theorem Iir.comb_dot [CommRing R] (f : Iir R) (hf : f.WF) (hc : f.cast = id) :
    dot f.comb f.s = dot f.b f.mem := by
  obtain ⟨h1, h2, h3⟩ := hf
  rw [dot_eq_sum, dot_eq_sum, Iir.comb_length f ⟨h1, h2, h3⟩]
  rcases hb : f.b with _ | ⟨b0, bt⟩
  · simp
  have hs : f.s ≠ [] := by intro h; rw [h] at h2; simp at h2; simp [h2] at h3
  have hcomb : ∀ i, at0 f.comb i = at0 f.a i * b0 + at0 f.b i := by
    intro i
    simp only [Iir.comb, hb]
    rw [at0_zipWith_add _ _ (by simp [h1, hb]), at0_map_mul]
  have hmem : ∀ i, at0 f.mem i = at0 f.s i + if i = 0 then dot f.a f.s else 0 := by
    intro i
    rcases i with _ | i
    · simp only [Iir.mem]; rw [at0_modifyHead_zero _ _ hs]; simp [hc]
    · simp only [Iir.mem]; rw [at0_modifyHead_succ]; simp
  simp only [hcomb, hmem, hb]
  simp only [mul_add, add_mul, sum_add_distrib]
  have e1 : ∑ i ∈ range (b0 :: bt).length, at0 (b0 :: bt) i * (if i = 0 then dot f.a f.s else 0) = b0 * dot f.a f.s := by
    simp [at0_cons_zero]
  rw [e1, dot_eq_sum, mul_sum, h1, hb, add_comm]
  congr 1
  apply sum_congr rfl
  intro i _; ring

/-- Invariant: after `n` samples of `x` from the zero state, the delay line holds the last `w` values. -/
def Iir.Inv [CommRing R] (f : Iir R) (w : ℕ → R) (n : ℕ) : Prop :=
  ∀ i, i < f.s.length → at0 f.mem i = if i < n then w (n - 1 - i) else 0

theorem Iir.run_series [CommRing R] (w : ℕ → R) (xs : List R) : ∀ (f : Iir R), f.WF → f.cast = id → at0 f.a 0 = 0 →
    ∀ (n : ℕ), f.Inv w n →
    (∀ k, k < xs.length → w (n + k) = at0 xs k + ∑ i ∈ range (n + k + 1), at0 f.a i * w (n + k - i)) →
    ∃ ys f', runLoop Iir.step f xs = (.ok ys, f') ∧ ys.length = xs.length ∧
      ∀ k, k < xs.length → ys[k]? = some (∑ i ∈ range (n + k + 1), at0 f.b i * w (n + k - i)) := by
  induction xs with
  | nil => intro f _ _ _ n _ _; exact ⟨[], f, rfl, rfl, by simp⟩
  | cons x xs ih =>
    intro f hf hc h0 n hinv hw
    have hst := Iir.step_wf f hf x
    obtain ⟨hwf', ha', hb', hc'⟩ := Iir.step_wf_wf f hf x
    rw [hst] at hwf' ha' hb' hc'
    set f' : Iir R := { f with s := f.cast x :: f.mem.dropLast } with hf'
    replace hwf' : f'.WF := hwf'
    replace ha' : f'.a = f.a := ha'
    replace hb' : f'.b = f.b := hb'
    replace hc' : f'.cast = f.cast := hc'
    have hpos : 0 < f.s.length := by rw [← hf.2.1]; exact hf.2.2
    have hml := Iir.mem_length f
    have hs' : f'.s = x :: f.mem.dropLast := by simp [hf', hc]
    have hlen' : f'.s.length = f.s.length := by rw [hs']; simp [hml]; omega
    have hold : ∀ i, i + 1 < f.s.length → at0 f'.s (i+1) = if i < n then w (n - 1 - i) else 0 := by
      intro i hi
      rw [hs', at0_cons_succ, at0_dropLast _ _ (by omega)]
      exact hinv i (by omega)
    have hw0 := hw 0 (by simp)
    simp only [Nat.add_zero, at0_cons_zero] at hw0
    have hdot : dot f.a f'.s = ∑ i ∈ range (n + 1), at0 f.a i * w (n - i) := by
      rw [dot_eq_sum]
      rw [← sum_range_extend f.a (fun i => if i ≤ n then w (n - i) else 0) n f.a.length le_rfl (fun i hi _ => by simp; omega)
        |>.trans (sum_congr rfl fun i hi => by simp [Nat.lt_succ_iff.mp (mem_range.mp hi)])]
      apply sum_congr rfl
      intro i hi
      rcases i with _ | i
      · simp [h0]
      · have hi' : i + 1 < f.s.length := by rw [← hf.2.1, ← hf.1]; simpa using hi
        rw [hold i hi']
        congr 1
        by_cases hin : i < n
        · simp [hin, Nat.succ_le_of_lt hin]; congr 1; omega
        · simp [hin]
    have hinv' : f'.Inv w (n+1) := by
      intro i hi
      rcases i with _ | i
      · simp only [Iir.mem]
        rw [at0_modifyHead_zero _ _ (by rw [hs']; simp)]
        simp only [Nat.zero_lt_succ, if_true, Nat.add_sub_cancel, Nat.sub_zero]
        rw [show f'.cast = id from hc, show f'.a = f.a from rfl, hdot, hw0, hs', at0_cons_zero]; rfl
      · simp only [Iir.mem]
        rw [at0_modifyHead_succ, hold i (by omega)]
        by_cases hin : i < n
        · simp [hin]; congr 1; omega
        · simp [hin]
    obtain ⟨ys, f'', h1, h2, h3⟩ := ih f' hwf' (by rw [hc', hc]) (by rw [ha', h0]) (n+1) hinv' (by
      intro k hk
      have := hw (k+1) (by simpa using hk)
      rw [at0_cons_succ] at this
      rw [show n + 1 + k = n + (k + 1) by omega, ha', this])
    refine ⟨f.cast (dot f.comb (f.cast x :: f.mem.dropLast)) :: ys, f'', ?_, by simp [h2], ?_⟩
    · rw [runLoop_cons_ok _ _ _ _ _ _ hst]
      simp [thenRun, h1]
    · intro k hk
      rcases k with _ | k
      · simp only [List.getElem?_cons_zero, Nat.add_zero, Option.some.injEq]
        have hcomb' : f'.comb = f.comb := rfl
        have := Iir.comb_dot f' hwf' (by rw [hc', hc])
        rw [hcomb'] at this
        have e : f.cast x :: f.mem.dropLast = f'.s := rfl
        rw [e, this, hc, id, hb', dot_eq_sum]
        rw [← sum_range_extend f.b (fun i => if i ≤ n then w (n - i) else 0) n f.b.length le_rfl (fun i hi _ => by simp; omega)
          |>.trans (sum_congr rfl fun i hi => by simp [Nat.lt_succ_iff.mp (mem_range.mp hi)])]
        apply sum_congr rfl
        intro i hi
        rw [hinv' i (by rw [hlen', ← hf.2.1]; simpa using hi)]
        simp only [Nat.lt_succ_iff, Nat.add_sub_cancel]
      · simp only [List.getElem?_cons_succ]
        rw [h3 k (by simpa using hk), hb', show n + 1 + k = n + (k + 1) by omega]

/-- From the zero state the output is the power-series quotient `B X / (1 - A)`. -/
theorem Iir.filter_series [CommRing R] (f : Iir R) (hf : f.WF) (hc : f.cast = id) (h0 : at0 f.a 0 = 0)
    (hz : ∀ v ∈ f.s, v = 0) (xs : List R) (hx : xs ≠ []) :
    ∃ ys f', f.filter xs = (.ok ys, f') ∧ ys.length = xs.length ∧
      ∀ k, k < xs.length → ys[k]? = some (PowerSeries.coeff k (ser f.b * (recip f.a * ser xs))) := by
  have hxl : xs.length ≠ 0 := by simpa using hx
  have hz0 : ∀ i, at0 f.s i = 0 := by
    intro i
    by_cases hi : i < f.s.length
    · rw [at0_of_lt _ _ hi]; exact hz _ (List.getElem_mem hi)
    · exact at0_of_le _ _ (by omega)
  have hsne : f.s ≠ [] := by
    intro h
    have h1 := hf.2.1; have h2 := hf.2.2
    rw [h] at h1; simp at h1; simp [h1] at h2
  have hinv : f.Inv (fun k => PowerSeries.coeff k (recip f.a * ser xs)) 0 := by
    intro i hi
    simp only [Nat.not_lt_zero, if_false]
    rcases i with _ | i
    · simp only [Iir.mem]
      rw [at0_modifyHead_zero _ _ hsne, hc, id, dot_eq_sum]
      simp [hz0]
    · simp only [Iir.mem]
      rw [at0_modifyHead_succ, hz0]
  have hW : recip f.a * ser xs = ser xs + ser f.a * (recip f.a * ser xs) := by
    have := mul_recip f.a h0
    linear_combination (ser xs) * this
  obtain ⟨ys, f', h1, h2, h3⟩ := Iir.run_series (fun k => PowerSeries.coeff k (recip f.a * ser xs)) xs f hf hc h0 0 hinv (by
    intro k _
    simp only [Nat.zero_add]
    conv_lhs => rw [hW]
    rw [map_add, coeff_ser, PowerSeries.coeff_mul, Finset.Nat.sum_antidiagonal_eq_sum_range_succ_mk]
    simp)
  refine ⟨ys, f', by simp [Iir.filter, hxl, h1], h2, fun k hk => ?_⟩
  rw [h3 k hk, PowerSeries.coeff_mul, Finset.Nat.sum_antidiagonal_eq_sum_range_succ_mk]
  simp

theorem Iir.new_spec [Zero R] [DecidableEq R] (cast : R → R) (a b : List R) (s : Option (List R))
    (hne : a ≠ [] ∨ b ≠ []) (h0 : at0 a 0 = 0) :
    ∃ f, Iir.new cast (some a) (some b) s = .ok f ∧ f.cast = cast ∧
      f.a = padTo (max a.length b.length) a ∧
      f.b = padTo (max (max a.length b.length) (s.getD []).length) b ∧
      f.s = (padTo (max (max a.length b.length) (s.getD []).length) (s.getD [])).map cast := by
  have hpos : ¬ (a.length = 0 ∧ b.length = 0) := by
    rintro ⟨h1, h2⟩
    rcases hne with h | h
    · exact h (by simpa using h1)
    · exact h (by simpa using h2)
  have hhead : ¬ (a.length > 0 ∧ a.head? ≠ some 0) := by
    rintro ⟨h1, h2⟩
    cases a with
    | nil => simp at h1
    | cons a0 t => simp [at0] at h0; simp [h0] at h2
  have ha' : (if a.length < b.length then padTo b.length a else a) = padTo (max a.length b.length) a := by
    by_cases h : a.length < b.length
    · simp [h, max_eq_right (le_of_lt h)]
    · simp [h, max_eq_left (not_lt.mp h), padTo]
  have hal : (padTo (max a.length b.length) a).length = max a.length b.length := by simp [padTo]
  have hb' : (if b.length < max a.length b.length then padTo (max a.length b.length) b else b)
      = padTo (max a.length b.length) b := by
    by_cases h : b.length < max a.length b.length
    · simp only [h, if_true]
    · have : max a.length b.length - b.length = 0 := by omega
      simp only [h, if_false]
      simp [padTo, this]
  have hah : (padTo (max a.length b.length) a).head? = some 0 := by
    have h1 := at0_padTo a (max a.length b.length) 0
    rw [h0] at h1
    have h2 : 0 < (padTo (max a.length b.length) a).length := by rw [hal]; omega
    rw [at0_of_lt _ _ h2] at h1
    rw [List.head?_eq_getElem?, List.getElem?_eq_getElem h2, h1]
  have hbne : padTo (max a.length b.length) b ≠ [] := by
    intro h
    have : (padTo (max a.length b.length) b).length = 0 := by rw [h]; rfl
    simp only [padTo, List.length_append, List.length_replicate] at this
    omega
  obtain ⟨g, g1, g2, g3, g4, g5⟩ := Fir.new_spec cast (padTo (max a.length b.length) b) s hbne
  refine ⟨⟨g.cast, padTo (max a.length b.length) a, g.b, g.s⟩, ?_, g3, rfl, ?_, ?_⟩
  · unfold Iir.new
    simp only [Option.getD_some, hpos, if_false, hhead, ha', hal, hb', hah, ne_eq, not_true, g1]
  · simp only [g4]
    have hbl : (padTo (max a.length b.length) b).length = max a.length b.length := by simp [padTo]
    rw [hbl]
    simp only [padTo, List.append_assoc, List.append_cancel_left_eq, List.length_append, List.length_replicate]
    rw [← List.replicate_add]
    congr 1; omega
  · simp only [g5]
    have hbl : (padTo (max a.length b.length) b).length = max a.length b.length := by simp [padTo]
    rw [hbl]

end Verif
