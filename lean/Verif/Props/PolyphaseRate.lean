import Verif.Props.Polyphase

/-!
Property C124: a rate assigned to a polyphase filter between calls (diamondback/filters/polyphase_rate_filter.py:97-103).
-/

namespace Verif.Props

open Spec

/-- The rate `b` is close to `a`: apart by at most one part in a hundred thousand of `b`, and 1e-8. -/
def CloseTo (a b : ℝ) : Prop := |a - b| ≤ 1 / 100000000 + b / 100000

private theorem isclose_iff (a b : ℝ) (hb : 0 ≤ b) : np.isclose a b = true ↔ CloseTo a b := by
  unfold np.isclose CloseTo
  rw [decide_eq_true_iff, abs_of_nonneg hb]
  constructor <;> intro h <;> norm_num at h ⊢ <;> linarith

/-- C124.  A rate close to the last one is taken on and leaves state and phase: the first sample of the next call is taken where the last call left off. -/
theorem C124_keeps (cc : ℕ) (B : List (List ℝ)) (hB : IsBank cc B) (p : Polyphase) (hp : PPReach cc p) (r : ℝ) (h0 : 0 ≤ r) (h1 : r ≤ B.length) (h : CloseTo p.rate r)
    (x : List ℝ) (hx : x ≠ []) :
    ∃ p1 y p', p.setRate B.length r = (.ok (), p1) ∧ p1 = { p with rate := r } ∧ p1.filter B x = (.ok y, p') ∧
      ∀ k < y.length, ∃ (i : ℕ) (m : ℤ) (row : List ℝ), (i : ℝ) ≤ p.index / B.length + k / r ∧ p.index / B.length + k / r < i + 1 ∧
        IsRound (B.length * (p.index / B.length + k / r - i)) m ∧ 0 ≤ m ∧ B[(min m (B.length - 1)).toNat]? = some row ∧ y[k]? = some (weigh row x p.s i) := by
  obtain ⟨y, p', m, e1, -, -, -, -, -, e2⟩ := C36_filter cc B hB { p with rate := r } ⟨hp.1, h0, hp.2.2⟩ x hx
  refine ⟨{ p with rate := r }, y, p', ?_, rfl, e1, fun k hk => ?_⟩
  · unfold Polyphase.setRate
    rw [if_neg (by push Not; exact ⟨h0, h1⟩), (isclose_iff p.rate r h0).mpr h]
    rfl
  · obtain ⟨i, m, row, -, a⟩ := e2 k hk
    exact ⟨i, m, row, a⟩

/-- Two rows of one coefficient, and a rate moved by a five millionth. -/
example := C124_keeps 1 [[1], [1 / 2]] ⟨by simp, by simp, by simp⟩ { index := 1, rate := 1, s := [7] } ⟨by norm_num, by norm_num, rfl⟩ (1 + 1 / 5000000) (by norm_num) (by norm_num)
  (by unfold CloseTo; norm_num [abs_le]) [1, 2, 3] (by simp)

/-- C124.  Any other rate begins anew: the next call takes its first sample at the first of the signal, and as many samples as the rate asks for.  The
samples before stay in the state. -/
theorem C124_restarts (cc : ℕ) (B : List (List ℝ)) (hB : IsBank cc B) (p : Polyphase) (hp : PPReach cc p) (r : ℝ) (h0 : 0 ≤ r) (h1 : r ≤ B.length) (h : ¬ CloseTo p.rate r)
    (x : List ℝ) (hx : x ≠ []) :
    ∃ (p1 : Polyphase) (y : List ℝ) (p' : Polyphase) (m : ℤ), p.setRate B.length r = (.ok (), p1) ∧ p1.s = p.s ∧ p1.rate = r ∧ p1.filter B x = (.ok y, p') ∧ IsRound (x.length * r) m ∧ (y.length : ℤ) = m ∧
      (y ≠ [] → ∃ row, B[0]? = some row ∧ y[0]? = some (weigh row x p.s 0)) := by
  obtain ⟨y, p', m, e1, -, -, e3, -, e4, e2⟩ := C36_filter cc B hB { p with rate := r, index := 0 } ⟨le_rfl, h0, hp.2.2⟩ x hx
  refine ⟨{ p with rate := r, index := 0 }, y, p', m, ?_, rfl, rfl, e1, e3, e4 rfl, fun hy => ?_⟩
  · unfold Polyphase.setRate
    rw [if_neg (by push Not; exact ⟨h0, h1⟩)]
    have : np.isclose p.rate r = false := by
      rcases hc : np.isclose p.rate r with _ | _
      · rfl
      · exact absurd ((isclose_iff p.rate r h0).mp hc) h
    rw [this]
    rfl
  · obtain ⟨i, m, row, -, a1, a2, a3, a4, a5, a6⟩ := e2 0 (List.length_pos_of_ne_nil hy)
    simp only [Nat.cast_zero, zero_div, add_zero] at a1 a2 a3
    have hi : i = 0 := by
      have : (i : ℝ) ≤ 0 := a1
      exact_mod_cast le_antisymm this (Nat.cast_nonneg i)
    subst hi
    simp only [Nat.cast_zero, sub_zero, mul_zero] at a3
    have hm : m = 0 := by
      have := a3.1
      simp only [zero_sub, abs_neg] at this
      by_contra hne
      have h1 : (1 : ℝ) ≤ |(m : ℝ)| := by exact_mod_cast Int.one_le_abs hne
      linarith
    subst hm
    have hlen : 0 < B.length := List.length_pos_of_ne_nil hB.1
    have : (min (0 : ℤ) (B.length - 1)).toNat = 0 := by omega
    rw [this] at a5
    exact ⟨row, a5, a6⟩

/-- Two rows of one coefficient, and the rate doubled. -/
example := C124_restarts 1 [[1], [1 / 2]] ⟨by simp, by simp, by simp⟩ { index := 1, rate := 1, s := [7] } ⟨by norm_num, by norm_num, rfl⟩ 2 (by norm_num) (by norm_num)
  (by unfold CloseTo; norm_num [abs_le]) [1, 2, 3] (by simp)

private theorem keep (rr : ℕ) (p : Polyphase) (r : ℝ) (h0 : 0 ≤ r) (h1 : r ≤ rr) (h : CloseTo p.rate r) : (p.setRate rr r).2 = { p with rate := r } := by
  unfold Polyphase.setRate
  rw [if_neg (by push Not; exact ⟨h0, h1⟩), (isclose_iff p.rate r h0).mpr h]
  rfl

/-- C124.  From every rate every other is reached by assignments none of which begins anew. -/
theorem C124_drift (rr : ℕ) (p : Polyphase) (hp : 0 < p.rate) (hr : p.rate ≤ rr) (r : ℝ) (h0 : 0 < r) (h1 : r ≤ rr) :
    ∃ rates : List ℝ, (∀ q ∈ rates, 0 < q ∧ q ≤ rr) ∧ rates.foldl (fun p q => (p.setRate rr q).2) p = { p with rate := r } := by
  have up : ∀ (n : ℕ) (p : Polyphase), 0 < p.rate → p.rate ≤ r → r ≤ p.rate * (1 + 1 / 100000) ^ n →
      ∃ rates : List ℝ, (∀ q ∈ rates, 0 < q ∧ q ≤ rr) ∧ rates.foldl (fun p q => (p.setRate rr q).2) p = { p with rate := r } := by
    intro n
    induction n with
    | zero =>
      intro p _ ha hb
      have : p.rate = r := by rw [pow_zero, mul_one] at hb; exact le_antisymm ha hb
      exact ⟨[], by simp, by rw [← this]; rfl⟩
    | succ n ih =>
      intro p hp ha hb
      by_cases hc : r ≤ p.rate * (1 + 1 / 100000)
      · refine ⟨[r], by simpa using ⟨h0, h1⟩, keep rr p r h0.le h1 ?_⟩
        unfold CloseTo
        rw [abs_le]
        constructor <;> linarith
      · push Not at hc
        have hq : (p.setRate rr (p.rate * (1 + 1 / 100000))).2 = { p with rate := p.rate * (1 + 1 / 100000) } := by
          refine keep rr p _ (by positivity) (by linarith) ?_
          unfold CloseTo
          rw [abs_le]
          constructor <;> linarith
        obtain ⟨l, l1, l2⟩ := ih { p with rate := p.rate * (1 + 1 / 100000) } (by positivity) hc.le (by rw [pow_succ] at hb; dsimp only; linarith)
        refine ⟨p.rate * (1 + 1 / 100000) :: l, ?_, by rw [List.foldl_cons, hq, l2]⟩
        intro q hq'
        rcases List.mem_cons.mp hq' with rfl | h
        · exact ⟨by positivity, by linarith⟩
        · exact l1 q h
  have down : ∀ (n : ℕ) (p : Polyphase), p.rate ≤ rr → r ≤ p.rate → p.rate ≤ r * (1 + 1 / 100000) ^ n →
      ∃ rates : List ℝ, (∀ q ∈ rates, 0 < q ∧ q ≤ rr) ∧ rates.foldl (fun p q => (p.setRate rr q).2) p = { p with rate := r } := by
    intro n
    induction n with
    | zero =>
      intro p _ ha hb
      have : p.rate = r := by rw [pow_zero, mul_one] at hb; exact le_antisymm hb ha
      exact ⟨[], by simp, by rw [← this]; rfl⟩
    | succ n ih =>
      intro p hr ha hb
      by_cases hc : p.rate ≤ r * (1 + 1 / 100000)
      · refine ⟨[r], by simpa using ⟨h0, h1⟩, keep rr p r h0.le h1 ?_⟩
        unfold CloseTo
        rw [abs_le]
        constructor <;> linarith
      · push Not at hc
        obtain ⟨q, hq⟩ : ∃ q, q = p.rate / (1 + 1 / 100000) := ⟨_, rfl⟩
        have hpq : p.rate = q * (1 + 1 / 100000) := by rw [hq]; field_simp
        have hrq : r < q := by rw [hpq] at hc; exact lt_of_mul_lt_mul_right hc (by norm_num)
        have hqr : q ≤ rr := by linarith
        have hset : (p.setRate rr q).2 = { p with rate := q } := by
          refine keep rr p q (by linarith) hqr ?_
          unfold CloseTo
          rw [abs_le]
          constructor <;> linarith
        obtain ⟨l, l1, l2⟩ := ih { p with rate := q } hqr hrq.le (by
          rw [hpq, pow_succ, ← mul_assoc] at hb
          exact le_of_mul_le_mul_right hb (by norm_num))
        refine ⟨q :: l, ?_, by rw [List.foldl_cons, hset, l2]⟩
        intro q' hq'
        rcases List.mem_cons.mp hq' with rfl | h
        · exact ⟨by linarith, hqr⟩
        · exact l1 q' h
  obtain hle | hle := le_total p.rate r
  · obtain ⟨n, hn⟩ := pow_unbounded_of_one_lt (r / p.rate) (show (1 : ℝ) < 1 + 1 / 100000 by norm_num)
    exact up n p hp hle (by rw [div_lt_iff₀ hp] at hn; linarith)
  · obtain ⟨n, hn⟩ := pow_unbounded_of_one_lt (p.rate / r) (show (1 : ℝ) < 1 + 1 / 100000 by norm_num)
    exact down n p hr hle (by rw [div_lt_iff₀ h0] at hn; linarith)

/-- From 1/3 to 100, with 256 rows. -/
example := C124_drift 256 { index := 1, rate := 1 / 3, s := [7] } (by norm_num) (by norm_num) 100 (by norm_num) (by norm_num)

/-- C124.  The test is not symmetric: from every rate below the greatest there is one which can be assigned without beginning anew, while to assign
the former again begins anew. -/
theorem C124_asymmetric (rr : ℕ) (p : Polyphase) (hp : 0 < p.rate) (hr : p.rate + p.rate / 10000 + 1 / 10000000 ≤ rr) (hi : p.index ≠ 0) :
    ∃ r p1 p2, p.setRate rr r = (.ok (), p1) ∧ p1.index = p.index ∧ p1.setRate rr p.rate = (.ok (), p2) ∧ p2.rate = p.rate ∧ p2.index ≠ p.index := by
  obtain ⟨r, hr'⟩ : ∃ r, r = (p.rate + 1 / 100000000) / (1 - 1 / 100000) := ⟨_, rfl⟩
  have e : r - p.rate = 1 / 100000000 + r / 100000 := by rw [hr']; field_simp; ring
  have h1 : p.rate < r := by nlinarith
  have h2 : r ≤ rr := by linarith
  have h3 : CloseTo p.rate r := by
    unfold CloseTo
    rw [abs_sub_comm, abs_of_pos (by linarith)]
    linarith
  have h4 : ¬ CloseTo r p.rate := by
    unfold CloseTo
    rw [abs_of_pos (by linarith)]
    linarith
  have h5 : np.isclose r p.rate = false := by
    rcases hc : np.isclose r p.rate with _ | _
    · rfl
    · exact absurd ((isclose_iff r p.rate hp.le).mp hc) h4
  refine ⟨r, { p with rate := r }, { p with index := 0 }, ?_, rfl, ?_, rfl, fun h => hi h.symm⟩
  · unfold Polyphase.setRate
    rw [if_neg (by push Not; exact ⟨by linarith, h2⟩), (isclose_iff p.rate r (by linarith)).mpr h3]
    rfl
  · unfold Polyphase.setRate
    rw [if_neg (by push Not; exact ⟨hp.le, by linarith⟩)]
    simp only [h5]
    rfl

example : CloseTo 1 (1 + 1 / 200000) ∧ ¬ CloseTo 1 (1 + 1 / 50000) ∧ ¬ CloseTo 1 0 ∧ CloseTo (1 / 100000000) 0 := by
  unfold CloseTo
  refine ⟨?_, ?_, ?_, ?_⟩ <;> norm_num [abs_le]

/-- A bank of two rows, in the middle of a signal. -/
example : IsBank 1 [[1], [1 / 2]] ∧ PPReach 1 { index := 1, rate := 3 / 2, s := [7] } ∧ (0 : ℝ) < 3 / 2 ∧ (3 / 2 : ℝ) + 3 / 2 / 10000 + 1 / 10000000 ≤ (2 : ℕ) := by
  refine ⟨⟨by simp, by simp, by simp⟩, ⟨by norm_num, by norm_num, rfl⟩, by norm_num, by norm_num⟩

end Verif.Props
