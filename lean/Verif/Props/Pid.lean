import Verif.Lemmas.Fir
import Verif.Model.Pid
import Mathlib.Algebra.Order.Ring.Rat
import Mathlib.Algebra.Order.Group.Abs
import Mathlib.Tactic.NormNum

/-
Properties C20–C21 of PidFilter (diamondback/filters/pid_filter.py).
-/

namespace Verif.Props

open Finset Spec

variable {R K : Type*}

/-- Chunk boundaries are invisible for PidFilter, for any arithmetic. -/
theorem C20_pid_streaming [Add R] [Sub R] [Dot R] [LT K] [DecidableLT K] (mag : R → K) (f : Pid R K)
    (chunks : List (List R)) (h0 : chunks ≠ []) (hne : ∀ c ∈ chunks, c ≠ []) :
    callChunks (Pid.filter mag) f chunks = f.filter mag chunks.flatten := by
  refine callChunks_eq_filter (Pid.step mag) (Pid.filter mag) ?_ f chunks h0 hne
  intro st x hx
  have : x.length ≠ 0 := by simpa using hx
  simp [Pid.filter, this]

example : ([[1, 2], [3]] : List (List ℤ)) ≠ [] ∧ ∀ c ∈ ([[1, 2], [3]] : List (List ℤ)), c ≠ [] := by decide

theorem Pid.runLoop_nolimit [CommRing R] [LT K] [DecidableLT K] (mag : R → K) (xs : List R) :
    ∀ (f : Pid R K), f.cast = id → f.limit = none →
    ∃ ys f', runLoop (Pid.step mag) f xs = (.ok ys, f') ∧ ys.length = xs.length ∧
      ∀ n, n < xs.length → at0 ys n = f.b0 * at0 xs n + f.b1 * (f.s1 + ∑ i ∈ range (n + 1), at0 xs i)
        + f.b2 * (at0 xs n - if n = 0 then f.s0 else at0 xs (n - 1)) := by
  induction xs with
  | nil => intro f _ _; exact ⟨[], f, rfl, rfl, by simp⟩
  | cons x xs ih =>
    intro f hc hl
    obtain ⟨ys, f', h1, h2, h3⟩ := ih { f with s0 := x, s1 := f.s1 + x, s2 := x - f.s0 } hc hl
    have hst : Pid.step mag f x = (.ok (dot [f.b0, f.b1, f.b2] [x, f.s1 + x, x - f.s0]),
        { f with s0 := x, s1 := f.s1 + x, s2 := x - f.s0 }) := by
      simp [Pid.step, hc, hl, belowLimit]
    refine ⟨dot [f.b0, f.b1, f.b2] [x, f.s1 + x, x - f.s0] :: ys, f', ?_, by simp [h2], ?_⟩
    · rw [runLoop_cons_ok _ _ _ _ _ _ hst]; simp [thenRun, h1]
    · intro n hn
      rcases n with _ | n
      · simp [at0_cons_zero, dot_def]; ring
      · rw [at0_cons_succ, at0_cons_succ, h3 n (by simpa using hn)]
        simp only [sum_range_succ' _ (n + 1), at0_cons_zero, at0_cons_succ, Nat.add_sub_cancel]
        rcases n with _ | n
        · simp [at0_cons_zero]; ring
        · simp [at0_cons_succ]; ring

/-- C20.  Fresh `PidFilter(b)` (no limit): proportional, integral and derivative terms, `x[-1] = 0`; for one call or any
chunking of the signal. -/
theorem C20_pid_formula [CommRing R] [LT K] [DecidableLT K] (mag : R → K) (b0 b1 b2 : R) (chunks : List (List R))
    (h0 : chunks ≠ []) (hne : ∀ c ∈ chunks, c ≠ []) :
    ∃ f y f', Pid.new (K := K) id [b0, b1, b2] = .ok f ∧ callChunks (Pid.filter mag) f chunks = (.ok y, f') ∧
      y.length = chunks.flatten.length ∧
      ∀ n, n < chunks.flatten.length →
        at0 y n = b0 * at0 chunks.flatten n + b1 * (∑ i ∈ range (n + 1), at0 chunks.flatten i)
          + b2 * (at0 chunks.flatten n - if n = 0 then 0 else at0 chunks.flatten (n - 1)) := by
  obtain ⟨y, f', h1, h2, h3⟩ := Pid.runLoop_nolimit mag chunks.flatten
    (⟨id, b0, b1, b2, 0, 0, 0, none⟩ : Pid R K) rfl rfl
  refine ⟨⟨id, b0, b1, b2, 0, 0, 0, none⟩, y, f', rfl, ?_, h2, fun n hn => by rw [h3 n hn]; simp⟩
  rw [C20_pid_streaming mag _ chunks h0 hne]
  have : chunks.flatten.length ≠ 0 := by
    rcases chunks with _ | ⟨c, cs⟩
    · exact absurd rfl h0
    · have := List.length_pos_iff.mpr (hne c (by simp))
      rw [List.flatten_cons, List.length_append]; omega
  simp only [Pid.filter, this, if_false, h1]

example : ∃ f f', Pid.new (K := ℤ) id [1, 10, 100] = .ok f ∧
    callChunks (Pid.filter (fun v : ℤ => |v|)) f [[1, 2], [4]] = (.ok [111, 132, 274], f') := ⟨_, _, rfl, by rfl⟩

/-- Coefficient arrays of any other length are rejected. -/
theorem C20_pid_rejects_length [Zero R] (cast : R → R) (b : List R) (h : b.length ≠ 3) :
    Pid.new (K := K) cast b = .error .valueError := by
  rcases b with _ | ⟨p, _ | ⟨q, _ | ⟨r, _ | ⟨t, u⟩⟩⟩⟩ <;> simp_all [Pid.new]

example : ([1, 2] : List ℤ).length ≠ 3 := by decide

section Limit

variable [Ring R] [LinearOrder R]

/-- C21, one sample: the integral term moves by exactly `x` when the result stays below the limit in magnitude, and is
held otherwise; the limit is untouched. -/
theorem C21_pid_integral_update [Dot R] (f : Pid R R) (hc : f.cast = id) (L x : R) (hL : f.limit = some L) :
    (Pid.step (fun v => |v|) f x).2.limit = some L ∧
    (|f.s1 + x| < L → (Pid.step (fun v => |v|) f x).2.s1 = f.s1 + x) ∧
    (L ≤ |f.s1 + x| → (Pid.step (fun v => |v|) f x).2.s1 = f.s1) := by
  refine ⟨by simp [Pid.step, hL], ?_, ?_⟩
  · intro h; simp [Pid.step, hL, belowLimit, hc, h]
  · intro h; simp [Pid.step, hL, belowLimit, not_lt.mpr h]

/-- A limit of 5, reached by the second sample. -/
example := C21_pid_integral_update (⟨id, 1, 1, 1, 0, 3, 0, some 5⟩ : Pid ℤ ℤ) rfl 5 4 rfl

/-- C21.  Whatever signals are filtered, an integral state inside the open interval `(-L, L)` stays inside. -/
theorem C21_pid_integral_bounded [Dot R] (f : Pid R R) (hc : f.cast = id) (L : R) (hL : f.limit = some L)
    (hin : |f.s1| < L) (signals : List (List R)) :
    |(signals.foldl (fun g x => (Pid.filter (fun v => |v|) g x).2) f).s1| < L ∧
      (signals.foldl (fun g x => (Pid.filter (fun v => |v|) g x).2) f).limit = some L := by
  have hloop : ∀ (xs : List R) (g : Pid R R), g.cast = id → g.limit = some L → |g.s1| < L →
      (runLoop (Pid.step (fun v => |v|)) g xs).2.cast = id ∧
      (runLoop (Pid.step (fun v => |v|)) g xs).2.limit = some L ∧
      |(runLoop (Pid.step (fun v => |v|)) g xs).2.s1| < L := by
    intro xs g h1 h2 h3
    refine (runLoop_inv (Pid.step (fun v => |v|)) (fun g => g.cast = id ∧ g.limit = some L ∧ |g.s1| < L) ?_ g
      ⟨h1, h2, h3⟩ xs).2
    rintro st x ⟨k1, k2, k3⟩
    refine ⟨⟨_, rfl⟩, k1, k2, ?_⟩
    obtain ⟨_, a1, a2⟩ := C21_pid_integral_update st k1 L x k2
    rcases lt_or_ge |st.s1 + x| L with h | h
    · rw [a1 h]; exact h
    · rw [a2 h]; exact k3
  induction signals generalizing f with
  | nil => exact ⟨hin, hL⟩
  | cons x xs ih =>
    simp only [List.foldl_cons]
    by_cases hx : x.length = 0
    · have e : (Pid.filter (fun v => |v|) f x).2 = f := by simp [Pid.filter, hx]
      rw [e]; exact ih f hc hL hin
    · have e : (Pid.filter (fun v => |v|) f x).2 = (runLoop (Pid.step (fun v => |v|)) f x).2 := by
        simp [Pid.filter, hx]
      rw [e]
      obtain ⟨k1, k2, k3⟩ := hloop x f hc hL hin
      exact ih _ k1 k2 k3

/-- A limit of 5 and two calls. -/
example := C21_pid_integral_bounded (⟨id, 1, 1, 1, 0, 3, 0, some 5⟩ : Pid ℤ ℤ) rfl 5 rfl (by decide) [[1, 4], [-7]]

/-- A call of filter or an assignment of limit. -/
inductive PidCall (R : Type*)
  | filter (x : List R)
  | limit (l : R)

/-- The instance after a call or an assignment, accepted or rejected. -/
def PidCall.run [Dot R] (f : Pid R R) : PidCall R → Pid R R
  | .filter x => (Pid.filter (fun v => |v|) f x).2
  | .limit l => (f.setLimit l).2

/-- The limit in force after a history: that of the last accepted assignment. -/
def lastLimit (L : R) : List (PidCall R) → R
  | [] => L
  | .filter _ :: ops => lastLimit L ops
  | .limit l :: ops => lastLimit (if l < 0 then L else l) ops

/-- C21.  Histories of calls and of assignments of limit, accepted or not: the integral state stays inside `(-B, B)` if it begins there and no limit is above `B`,
and the limit in force is that of the last accepted assignment. -/
theorem C21_pid_history [Dot R] (f : Pid R R) (hc : f.cast = id) (L B : R) (hL : f.limit = some L) (hB : L ≤ B) (hin : |f.s1| < B) (ops : List (PidCall R))
    (hops : ∀ l, .limit l ∈ ops → l ≤ B) : |(ops.foldl PidCall.run f).s1| < B ∧ (ops.foldl PidCall.run f).limit = some (lastLimit L ops) := by
  induction ops generalizing f L with
  | nil => exact ⟨hin, hL⟩
  | cons op ops ih =>
    simp only [List.foldl_cons]
    cases op with
    | filter x =>
      have hk : (Pid.filter (fun v => |v|) f x).2.cast = id ∧ (Pid.filter (fun v => |v|) f x).2.limit = some L ∧ |(Pid.filter (fun v => |v|) f x).2.s1| < B := by
        by_cases hx : x.length = 0
        · simp [Pid.filter, hx, hc, hL, hin]
        · have e : (Pid.filter (fun v => |v|) f x).2 = (runLoop (Pid.step (fun v => |v|)) f x).2 := by simp [Pid.filter, hx]
          rw [e]
          refine (runLoop_inv (Pid.step (fun v => |v|)) (fun g => g.cast = id ∧ g.limit = some L ∧ |g.s1| < B) ?_ f ⟨hc, hL, hin⟩ x).2
          rintro st x ⟨k1, k2, k3⟩
          refine ⟨⟨_, rfl⟩, k1, k2, ?_⟩
          obtain ⟨_, a1, a2⟩ := C21_pid_integral_update st k1 L x k2
          rcases lt_or_ge |st.s1 + x| L with h | h
          · rw [a1 h]; exact lt_of_lt_of_le h hB
          · rw [a2 h]; exact k3
      exact ih _ hk.1 L hk.2.1 hB hk.2.2 fun l hl => hops l (List.mem_cons_of_mem _ hl)
    | limit l =>
      have hl := hops l List.mem_cons_self
      have ht : ∀ l, PidCall.limit l ∈ ops → l ≤ B := fun l hl => hops l (List.mem_cons_of_mem _ hl)
      rw [lastLimit]
      by_cases h : l < 0
      · have e : PidCall.run f (.limit l) = f := by simp [PidCall.run, Pid.setLimit, h]
        rw [e, if_pos h]
        exact ih f hc L hL hB hin ht
      · have e : PidCall.run f (.limit l) = { f with limit := some l } := by simp [PidCall.run, Pid.setLimit, h]
        rw [e, if_neg h]
        exact ih { f with limit := some l } hc l rfl hl hin ht

example : lastLimit 5 [.filter [4, 4], .limit 2, .limit (-1), .filter [(1 : ℤ)]] = 2 ∧ (∀ l, PidCall.limit l ∈ [.filter [4, 4], .limit 2, .limit (-1), .filter [(1 : ℤ)]] → l ≤ 5) := by
  refine ⟨by decide, ?_⟩
  intro l hl
  simp at hl
  omega

/-- The hypotheses hold for a fresh filter with any positive limit, and the integral really saturates. -/
example : |(0 : ℤ)| < 5 ∧ ((Pid.filter (fun v => |v|) (⟨id, 0, 1, 0, 0, 0, 0, some 5⟩ : Pid ℤ ℤ) [3, 3, -1, 2, 1]).1
    = .ok [3, 3, 2, 4, 4]) := ⟨by decide, by rfl⟩

/-- C21.  Negative limits are rejected and change nothing, all others (zero included) are stored. -/
theorem C21_pid_limit_setter (f : Pid R R) (l : R) :
    (l < 0 → f.setLimit l = (.error .valueError, f)) ∧ (0 ≤ l → f.setLimit l = (.ok (), { f with limit := some l })) := by
  constructor
  · intro h; simp [Pid.setLimit, h]
  · intro h; simp [Pid.setLimit, not_lt.mpr h]

example (f : Pid ℚ ℚ) := C21_pid_limit_setter f (-1)

/-- C21, disagreement with the documented formula: the reference says the integral is *clamped* to the limit
(`max(min(s + x, L), -L)`); the code holds it instead.  Witness: from 3, adding 3 with limit 5 gives 3, not 5. -/
theorem C21_hold_is_not_clamp : ∃ f : Pid ℤ ℤ, f.limit = some 5 ∧ f.s1 = 3 ∧
    (Pid.step (fun v => |v|) f 3).2.s1 ≠ max (min (f.s1 + 3) 5) (-5) :=
  ⟨⟨id, 0, 1, 0, 0, 3, 0, some 5⟩, rfl, rfl, by decide⟩

end Limit

end Verif.Props
