import Verif.Props.Pid
import Mathlib.Algebra.Order.Archimedean.Real.Basic
import Mathlib.Tactic.Linarith
import Mathlib.Tactic.Positivity

/- Property C97: the control law of PidFilter with a limit. -/

namespace Verif.Props

open Finset Spec

/-- The integral with a limit, from the start value `s`: a sum is taken only while it is below the limit. -/
noncomputable def hold (L s : ℝ) (x : ℕ → ℝ) : ℕ → ℝ
  | 0 => s
  | n + 1 => if |hold L s x n + x n| < L then hold L s x n + x n else hold L s x n

theorem hold_shift (L s : ℝ) (x : ℕ → ℝ) (n : ℕ) : hold L s x (n + 1) = hold L (if |s + x 0| < L then s + x 0 else s) (fun k => x (k + 1)) n := by
  induction n with
  | zero => rfl
  | succ n ih =>
    rw [hold, ih]
    rfl

theorem hold_lt (L s : ℝ) (hs : |s| < L) (x : ℕ → ℝ) (n : ℕ) : |hold L s x n| < L := by
  induction n with
  | zero => exact hs
  | succ n ih =>
    rw [hold]
    split
    · assumption
    · exact ih

theorem pid_loop (L : ℝ) (xs : List ℝ) : ∀ f : Pid ℝ ℝ, f.cast = id → f.limit = some L →
    ∃ ys f', runLoop (Pid.step (fun v => |v|)) f xs = (.ok ys, f') ∧ ys.length = xs.length ∧ f'.s1 = hold L f.s1 (at0 xs) xs.length ∧
      ∀ n, n < xs.length → at0 ys n = f.b0 * at0 xs n + f.b1 * hold L f.s1 (at0 xs) (n + 1) + f.b2 * (at0 xs n - if n = 0 then f.s0 else at0 xs (n - 1)) := by
  induction xs with
  | nil => intro f _ _; exact ⟨[], f, rfl, rfl, rfl, by simp⟩
  | cons x xs ih =>
    intro f hc hl
    set s1 := if |f.s1 + x| < L then f.s1 + x else f.s1 with hs1
    obtain ⟨ys, f', h1, h2, h3, h4⟩ := ih { f with s0 := x, s1 := s1, s2 := x - f.s0 } hc hl
    have hst : Pid.step (fun v => |v|) f x = (.ok (dot [f.b0, f.b1, f.b2] [x, s1, x - f.s0]), { f with s0 := x, s1 := s1, s2 := x - f.s0 }) := by
      simp only [Pid.step, hc, hl, belowLimit, id, hs1, decide_eq_true_eq]
    have hsh : ∀ n, hold L f.s1 (at0 (x :: xs)) (n + 1) = hold L s1 (at0 xs) n := by
      intro n
      rw [hold_shift, at0_cons_zero]
      congr 1
    refine ⟨dot [f.b0, f.b1, f.b2] [x, s1, x - f.s0] :: ys, f', ?_, by simp [h2], ?_, ?_⟩
    · rw [runLoop_cons_ok _ _ _ _ _ _ hst]; simp [thenRun, h1]
    · rw [List.length_cons, hsh]; exact h3
    · intro n hn
      rcases n with _ | n
      · rw [hsh]
        simp [at0_cons_zero, dot_def, hold]; ring
      · rw [at0_cons_succ, at0_cons_succ, h4 n (by simpa using hn), hsh]
        simp only [Nat.add_sub_cancel]
        rcases n with _ | n
        · simp [at0_cons_zero]
        · simp [at0_cons_succ]

theorem pid_chunks (f : Pid ℝ ℝ) (chunks : List (List ℝ)) (h0 : chunks ≠ []) (hne : ∀ c ∈ chunks, c ≠ []) :
    callChunks (Pid.filter (fun v => |v|)) f chunks = runLoop (Pid.step (fun v => |v|)) f chunks.flatten := by
  rw [C20_pid_streaming _ _ chunks h0 hne]
  have : chunks.flatten.length ≠ 0 := by
    rcases chunks with _ | ⟨c, cs⟩
    · exact absurd rfl h0
    · have := List.length_pos_iff.mpr (hne c (by simp))
      rw [List.flatten_cons, List.length_append]; omega
  simp only [Pid.filter, this, if_false]

/-- C97: a new filter with the limit `L`: proportional, derivative and held integral terms. -/
theorem C97_law (b0 b1 b2 L : ℝ) (hL : 0 ≤ L) (chunks : List (List ℝ)) (h0 : chunks ≠ []) (hne : ∀ c ∈ chunks, c ≠ []) :
    ∃ f g y g', Pid.new id [b0, b1, b2] = .ok f ∧ f.setLimit L = (.ok (), g) ∧ callChunks (Pid.filter (fun v => |v|)) g chunks = (.ok y, g') ∧ y.length = chunks.flatten.length ∧
      ∀ n < chunks.flatten.length, at0 y n = b0 * at0 chunks.flatten n + b1 * hold L 0 (at0 chunks.flatten) (n + 1) +
        b2 * (at0 chunks.flatten n - if n = 0 then 0 else at0 chunks.flatten (n - 1)) := by
  obtain ⟨ys, f', h1, h2, -, h4⟩ := pid_loop L chunks.flatten ⟨id, b0, b1, b2, 0, 0, 0, some L⟩ rfl rfl
  refine ⟨⟨id, b0, b1, b2, 0, 0, 0, none⟩, ⟨id, b0, b1, b2, 0, 0, 0, some L⟩, ys, f', rfl, by simp [Pid.setLimit, not_lt.mpr hL], ?_, h2, h4⟩
  rw [pid_chunks _ chunks h0 hne, h1]

/-- Two calls, with the limit 5. -/
example := C97_law 1 2 3 5 (by norm_num) [[2, 2], [2, -2]] (by simp) (by simp)

/-- C97: with a limit the output is bounded for bounded signals. -/
theorem C97_bounded (b0 b1 b2 L X : ℝ) (hL : 0 < L) (hX : 0 ≤ X) (chunks : List (List ℝ)) (h0 : chunks ≠ []) (hne : ∀ c ∈ chunks, c ≠ []) (hx : ∀ n, |at0 chunks.flatten n| ≤ X) :
    ∃ f g y g', Pid.new id [b0, b1, b2] = .ok f ∧ f.setLimit L = (.ok (), g) ∧ callChunks (Pid.filter (fun v => |v|)) g chunks = (.ok y, g') ∧ y.length = chunks.flatten.length ∧
      ∀ n < chunks.flatten.length, |at0 y n| ≤ |b0| * X + |b1| * L + 2 * |b2| * X := by
  obtain ⟨f, g, y, g', h1, h2, h3, h4, h5⟩ := C97_law b0 b1 b2 L hL.le chunks h0 hne
  refine ⟨f, g, y, g', h1, h2, h3, h4, fun n hn => ?_⟩
  rw [h5 n hn]
  have e1 := hold_lt L 0 (by simpa using hL) (at0 chunks.flatten) (n + 1)
  have e2 : |if n = 0 then 0 else at0 chunks.flatten (n - 1)| ≤ X := by
    split
    · simpa using hX
    · exact hx _
  refine (abs_add_le _ _).trans (add_le_add ((abs_add_le _ _).trans (add_le_add ?_ ?_)) ?_)
  · rw [abs_mul]; exact mul_le_mul_of_nonneg_left (hx n) (abs_nonneg _)
  · rw [abs_mul]; exact mul_le_mul_of_nonneg_left e1.le (abs_nonneg _)
  · rw [abs_mul, mul_comm 2, mul_assoc]
    refine mul_le_mul_of_nonneg_left ?_ (abs_nonneg _)
    have := abs_sub (at0 chunks.flatten n) (if n = 0 then 0 else at0 chunks.flatten (n - 1))
    linarith [hx n]

/-- Two calls, with the limit 5 and samples up to 2. -/
example := C97_bounded 1 2 3 5 2 (by norm_num) (by norm_num) [[2, 2], [2, -2]] (by simp) (by simp) (fun n => by
  match n with
  | 0 => simp [at0]
  | 1 => simp [at0]
  | 2 => simp [at0]
  | 3 => simp [at0]
  | n + 4 => simp [at0])

/-- C97: without a limit it is not: the constant one drives the output beyond every bound. -/
theorem C97_unbounded (b0 b1 b2 : ℝ) (h : b1 ≠ 0) (B : ℝ) : ∃ f y g' n, Pid.new (K := ℝ) id [b0, b1, b2] = .ok f ∧ f.filter (fun v => |v|) (List.replicate (n + 1) 1) = (.ok y, g') ∧ y.length = n + 1 ∧ B < |at0 y n| := by
  obtain ⟨n, hn⟩ := exists_nat_gt ((|B| + |b0| + |b2|) / |b1|)
  obtain ⟨f, y, g', h1, h2, h3, h4⟩ := C20_pid_formula (fun v : ℝ => |v|) b0 b1 b2 [List.replicate (n + 2) 1] (by simp) (by simp)
  rw [C20_pid_streaming _ _ _ (by simp) (by simp)] at h2
  simp only [List.flatten_cons, List.flatten_nil, List.append_nil, List.length_replicate] at h2 h3 h4
  refine ⟨f, y, g', n + 1, h1, h2, h3, ?_⟩
  have e : ∀ k < n + 2, at0 (List.replicate (n + 2) (1 : ℝ)) k = 1 := fun k hk => by rw [at0_of_lt _ _ (by simpa using hk)]; simp
  rw [h4 (n + 1) (by omega), if_neg (by omega), e (n + 1) (by omega), e (n + 1 - 1) (by omega), sum_congr rfl fun k hk => e k (by have := mem_range.mp hk; omega)]
  simp only [sum_const, card_range, nsmul_eq_mul, mul_one, sub_self, mul_zero, add_zero]
  have hb : 0 < |b1| := abs_pos.mpr h
  rw [div_lt_iff₀ hb] at hn
  have h5 : |b1 * ((n + 1 + 1 : ℕ) : ℝ)| = |b1| * (n + 2) := by
    rw [abs_mul, abs_of_nonneg (by positivity : (0 : ℝ) ≤ ((n + 1 + 1 : ℕ) : ℝ))]; push_cast; ring
  have h6 := abs_sub_abs_le_abs_sub (b1 * ((n + 1 + 1 : ℕ) : ℝ)) (-b0)
  rw [abs_neg, sub_neg_eq_add, add_comm (b1 * _) b0, h5] at h6
  have := le_abs_self B
  nlinarith [abs_nonneg b2]

/-- A small integral term suffices. -/
example := C97_unbounded 1 (1 / 1000) 0 (by norm_num) 1000000

/-- C97: the limit does not hold the integral back on its way to zero: a sample of the other sign, less than the limit, is always taken. -/
theorem C97_releases (f : Pid ℝ ℝ) (hc : f.cast = id) (L x : ℝ) (hL : f.limit = some L) (hs : |f.s1| < L) (hx : |x| < L) (ho : f.s1 * x ≤ 0) : (Pid.step (fun v => |v|) f x).2.s1 = f.s1 + x := by
  refine (C21_pid_integral_update f hc L x hL).2.1 ?_
  rw [abs_lt] at *
  constructor
  · by_contra hn
    push Not at hn
    rcases le_total 0 x with h | h
    · nlinarith
    · have : 0 < f.s1 ∨ f.s1 ≤ 0 := lt_or_ge _ _
      rcases this with h' | h'
      · linarith
      · have : x = 0 ∨ f.s1 = 0 := by
          by_contra hne
          push Not at hne
          have := mul_pos_of_neg_of_neg (lt_of_le_of_ne h' hne.2) (lt_of_le_of_ne h hne.1)
          linarith
        rcases this with h | h <;> rw [h] at hn <;> linarith
  · by_contra hn
    push Not at hn
    rcases le_total 0 x with h | h
    · have : f.s1 < 0 ∨ 0 ≤ f.s1 := lt_or_ge _ _
      rcases this with h' | h'
      · linarith
      · have : x = 0 ∨ f.s1 = 0 := by
          by_contra hne
          push Not at hne
          have := mul_pos (lt_of_le_of_ne h' (Ne.symm hne.2)) (lt_of_le_of_ne h (Ne.symm hne.1))
          linarith
        rcases this with h | h <;> rw [h] at hn <;> linarith
    · linarith

/-- From 4 towards zero. -/
example := C97_releases ⟨id, 0, 1, 0, 0, 4, 0, some 5⟩ rfl 5 (-3) rfl (by norm_num [abs_of_pos]) (by norm_num [abs_of_neg]) (by norm_num)

/-- C97, the code does not unwind after the limit has been lowered: an integral which is beyond the new limit by the largest sample keeps its value for ever. -/
theorem C97_stuck (f : Pid ℝ ℝ) (hc : f.cast = id) (L X : ℝ) (hL : f.limit = some L) (hs : L + X ≤ |f.s1|) (chunks : List (List ℝ)) (h0 : chunks ≠ []) (hne : ∀ c ∈ chunks, c ≠ []) (hx : ∀ n, |at0 chunks.flatten n| ≤ X) :
    ∃ y f', callChunks (Pid.filter (fun v => |v|)) f chunks = (.ok y, f') ∧ f'.s1 = f.s1 := by
  obtain ⟨ys, f', h1, -, h3, -⟩ := pid_loop L chunks.flatten f hc hL
  refine ⟨ys, f', by rw [pid_chunks _ chunks h0 hne, h1], ?_⟩
  rw [h3]
  generalize chunks.flatten.length = n
  induction n with
  | zero => rfl
  | succ n ih =>
    rw [hold, ih, if_neg]
    rw [not_lt]
    have := abs_sub_abs_le_abs_sub f.s1 (-at0 chunks.flatten n)
    rw [abs_neg, sub_neg_eq_add] at this
    linarith [hx n]

/-- Limits that hold and release: the third sample is refused, the fourth taken. -/
example : hold 5 0 (fun n => if n = 3 then -2 else 2) 3 = 4 ∧ hold 5 0 (fun n => if n = 3 then -2 else 2) 4 = 2 := by
  constructor <;> norm_num [hold]

/-- The integral 10 under a limit lowered to 5 stays, although the samples are negative. -/
example : ∃ y f', callChunks (Pid.filter (fun v => |v|)) (⟨id, 0, 1, 0, 0, 10, 0, some 5⟩ : Pid ℝ ℝ) [[-4, -4], [-4]] = (.ok y, f') ∧ f'.s1 = 10 :=
  C97_stuck ⟨id, 0, 1, 0, 0, 10, 0, some 5⟩ rfl 5 4 rfl (by norm_num [abs_of_pos]) _ (by simp) (by simp) (by
    intro n
    rcases (by omega : n = 0 ∨ n = 1 ∨ n = 2 ∨ 3 ≤ n) with rfl | rfl | rfl | h
    · norm_num [at0]
    · norm_num [at0]
    · norm_num [at0]
    · rw [at0_of_le _ _ (by simpa using h)]; norm_num)

end Verif.Props
