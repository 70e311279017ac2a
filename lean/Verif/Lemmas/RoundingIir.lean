import Verif.Lemmas.Rounding
import Mathlib.Tactic.LinearCombination
import Mathlib.Tactic.Linarith
import Mathlib.Tactic.Positivity

/-
IirFilter in machine arithmetic: the states visited, and the bound on the error of the recursion.
-/

namespace Verif

open Finset Spec

section iter
variable {F : Type*} [Add F] [Mul F] [Dot F]

/-- The instance after `k` samples. -/
def Iir.iter (f : Iir F) (xs : List F) (k : ℕ) : Iir F := (xs.take k).foldl (fun g x => (g.step x).2) f

theorem Iir.iter_wf (f : Iir F) (hf : f.WF) (xs : List F) (k : ℕ) :
    (f.iter xs k).WF ∧ (f.iter xs k).a = f.a ∧ (f.iter xs k).b = f.b ∧ (f.iter xs k).cast = f.cast := by
  have : ∀ (l : List F) (g : Iir F), g.WF → (l.foldl (fun g x => (g.step x).2) g).WF ∧ (l.foldl (fun g x => (g.step x).2) g).a = g.a ∧
      (l.foldl (fun g x => (g.step x).2) g).b = g.b ∧ (l.foldl (fun g x => (g.step x).2) g).cast = g.cast := by
    intro l
    induction l with
    | nil => intro g hg; exact ⟨hg, rfl, rfl, rfl⟩
    | cons x l ih =>
      intro g hg
      obtain ⟨w1, w2, w3, w4⟩ := Iir.step_wf_wf g hg x
      obtain ⟨i1, i2, i3, i4⟩ := ih _ w1
      exact ⟨i1, i2.trans w2, i3.trans w3, i4.trans w4⟩
  exact this _ f hf

theorem Iir.iter_succ (f : Iir F) (hf : f.WF) (xs : List F) (k : ℕ) (x : F) (hx : xs[k]? = some x) :
    (f.iter xs (k + 1)).s = f.cast x :: (f.iter xs k).mem.dropLast := by
  obtain ⟨w1, -, -, w4⟩ := Iir.iter_wf f hf xs k
  have : xs.take (k + 1) = xs.take k ++ [x] := by rw [List.take_add_one, hx]; rfl
  unfold Iir.iter at *
  rw [this, List.foldl_append, List.foldl_cons, List.foldl_nil, Iir.step_wf _ w1, w4]

theorem Iir.run_iter (xs : List F) : ∀ (f : Iir F), f.WF → ∃ ys f', runLoop Iir.step f xs = (.ok ys, f') ∧ ys.length = xs.length ∧
    ∀ k < xs.length, ys[k]? = some (f.cast (dot f.comb (f.iter xs (k + 1)).s)) := by
  induction xs with
  | nil => intro f _; exact ⟨[], f, rfl, rfl, by simp⟩
  | cons x xs ih =>
    intro f hf
    have hst := Iir.step_wf f hf x
    obtain ⟨hwf', -, -, -⟩ := Iir.step_wf_wf f hf x
    rw [hst] at hwf'
    obtain ⟨ys, f', h1, h2, h3⟩ := ih _ hwf'
    refine ⟨f.cast (dot f.comb (f.cast x :: f.mem.dropLast)) :: ys, f', ?_, by simp [h2], ?_⟩
    · rw [runLoop_cons_ok _ _ _ _ _ _ hst]
      simp [thenRun, h1]
    · intro k hk
      rcases k with _ | k
      · simp [Iir.iter, hst]
      · rw [List.getElem?_cons_succ, h3 k (by simpa using hk)]
        simp only [Iir.iter, List.take_succ_cons, List.foldl_cons, hst]
        rfl
end iter

/-- Value of the update of the recursion, before rounding. -/
noncomputable def updateR (a : List ℝ) (p : ℕ → ℝ) : ℝ := p 0 + ∑ i ∈ range a.length, at0 a i * p i

/-- The state entries in `F` and their successive values. -/
theorem Iir.iter_entries {F : Type*} [Add F] [Mul F] [Dot F] [Zero F] (f : Iir F) (hf : f.WF) (hc : f.cast = id) (xs : List F) (k : ℕ)
    (hk : k < xs.length) :
    at0 (f.iter xs (k + 1)).s 0 = at0 xs k ∧
    (1 < f.a.length → at0 (f.iter xs (k + 1)).s 1 = at0 (f.iter xs k).s 0 + dot f.a (f.iter xs k).s) ∧
    ∀ i, i + 2 < f.a.length → at0 (f.iter xs (k + 1)).s (i + 2) = at0 (f.iter xs k).s (i + 1) := by
  obtain ⟨w1, w2, w3, w4⟩ := Iir.iter_wf f hf xs k
  have hl : (f.iter xs k).s.length = f.a.length := by rw [← w1.2.1, w3, hf.1]
  have hm := Iir.mem_length (f.iter xs k)
  have hx : xs[k]? = some xs[k] := List.getElem?_eq_getElem hk
  rw [Iir.iter_succ f hf xs k _ hx, hc]
  refine ⟨?_, ?_, ?_⟩
  · rw [at0_cons_zero, at0_of_lt _ _ hk]; rfl
  · intro h
    rw [at0_cons_succ, at0_dropLast _ _ (by omega)]
    unfold Iir.mem
    rw [at0_modifyHead_zero _ _ (by intro h'; rw [h'] at hl; simp at hl; omega), w4, hc, w2]; rfl
  · intro i hi
    rw [at0_cons_succ, at0_dropLast _ _ (by omega)]
    unfold Iir.mem
    rw [at0_modifyHead_succ]

theorem at0_map_val {F : Type*} [Zero F] (val : F → ℝ) (h0 : val 0 = 0) (l : List F) (i : ℕ) : at0 (l.map val) i = val (at0 l i) := by
  by_cases hi : i < l.length
  · rw [at0_of_lt _ _ (by simpa using hi), at0_of_lt _ _ hi]; simp
  · rw [at0_of_le _ _ (by simpa using hi), at0_of_le _ _ (by omega), h0]

/-- Bounds for a stable recursion and a perturbed copy of it.  `p k i` and `q k i` are the entries of the exact and of the perturbed state after `k` samples. -/
theorem perturbed_recursion (a : List ℝ) (h0 : at0 a 0 = 0) (G : ℝ) (hG1 : 1 ≤ G) (A : ℝ)
    (hA : A = ∑ i ∈ range a.length, |at0 a i|) (N : ℕ) (hG : ∀ n ≤ N, ∑ k ∈ range n, |PowerSeries.coeff k (recip a)| ≤ G) (x : ℕ → ℝ) (p q : ℕ → ℕ → ℝ) (v : ℕ → ℝ) (M u η : ℝ)
    (hM : 0 ≤ M) (hu : 0 ≤ u) (hη : 0 ≤ η) (hsmall : 6 * u * A * G ≤ 1)
    (hx : ∀ k < N, |x k| ≤ M) (hs : ∀ i < a.length, |p 0 i| ≤ M) (hpq : ∀ i, q 0 i = p 0 i)
    (p0 : ∀ k < N, p (k + 1) 0 = x k) (p1 : ∀ k < N, 1 < a.length → p (k + 1) 1 = updateR a (p k))
    (p2 : ∀ k < N, ∀ i, i + 2 < a.length → p (k + 1) (i + 2) = p k (i + 1))
    (q0 : ∀ k < N, q (k + 1) 0 = x k) (q1 : ∀ k < N, 1 < a.length → q (k + 1) 1 = v k)
    (q2 : ∀ k < N, ∀ i, i + 2 < a.length → q (k + 1) (i + 2) = q k (i + 1))
    (hv : ∀ k < N, |v k - updateR a (q k)| ≤ u * (|q k 0| + 3 * ∑ i ∈ range a.length, |at0 a i * q k i|) + 3 * η) :
    ∀ k ≤ N, ∀ i < a.length, |p k i| ≤ G * (1 + A) * M ∧
      |q k i - p k i| ≤ 2 * G * (u * (1 + 3 * A) * (G * (1 + A) * M) + 3 * η) := by
  have hA0 : 0 ≤ A := hA ▸ sum_nonneg fun i _ => abs_nonneg _
  have hW : M ≤ G * (1 + A) * M := le_mul_of_one_le_left hM (by nlinarith)
  set W := G * (1 + A) * M with hWd
  set E := 2 * G * (u * (1 + 3 * A) * W + 3 * η) with hEd
  have hW0 : 0 ≤ W := hM.trans hW
  have hE0 : 0 ≤ E := by positivity
  set w : ℕ → ℝ := fun k => updateR a (p k) with hw
  have dp := delay_line a.length N p w p1 p2
  have dq := delay_line a.length N q v q1 q2
  have hp00 : ∀ k ≤ N, 0 < a.length → |p k 0| ≤ M := by
    intro k hk hl
    rcases k with _ | k
    · exact hs 0 hl
    · rw [p0 k (by omega)]; exact hx k (by omega)
  have hq00 : ∀ k ≤ N, q k 0 = p k 0 := by
    intro k hk
    rcases k with _ | k
    · exact hpq 0
    · rw [p0 k (by omega), q0 k (by omega)]
  rcases Nat.eq_zero_or_pos a.length with hl0 | hl
  · intro k _ i hi; omega
  -- the exact recursion
  have hwb : ∀ n < N, |w n| ≤ W := by
    have hb := recursion_bound a h0 G N hG w (fun n => w n - ∑ i ∈ range (n + 1), at0 a i * w (n - i)) (fun n _ => by ring) ((1 + A) * M) ?_
    · intro n hn; have := hb n hn; rw [hWd, mul_assoc]; exact this
    · intro n hn
      have e : w n - ∑ i ∈ range (n + 1), at0 a i * w (n - i) = p n 0 + ∑ i ∈ range a.length, at0 a i * (if i ≤ n then 0 else p n i) := by
        have e1 : ∑ i ∈ range (n + 1), at0 a i * w (n - i) = ∑ i ∈ range a.length, at0 a i * (if i ≤ n then w (n - i) else 0) := by
          rw [sum_range_extend a (fun i => if i ≤ n then w (n - i) else 0) n a.length le_rfl (fun i hi _ => by simp; omega)]
          apply sum_congr rfl
          intro i hi
          rw [if_pos (by have := mem_range.mp hi; omega)]
        rw [e1, hw]
        simp only [updateR]
        rw [add_sub_assoc, ← sum_sub_distrib]
        congr 1
        apply sum_congr rfl
        intro i hi
        rcases i with _ | i
        · simp [h0]
        · have := dp n hn.le (i + 1) (by omega) (mem_range.mp hi)
          by_cases h : i + 1 ≤ n
          · rw [if_pos h] at this; rw [if_pos h, if_pos h, this]; simp only [hw, updateR]; ring
          · rw [if_neg h, if_neg h]; ring
      rw [e]
      refine (abs_add_le _ _).trans ?_
      have : |∑ i ∈ range a.length, at0 a i * (if i ≤ n then 0 else p n i)| ≤ A * M := by
        rw [hA, sum_mul]
        refine (abs_sum_le_sum_abs _ _).trans (sum_le_sum fun i hi => ?_)
        rw [abs_mul]
        apply mul_le_mul_of_nonneg_left _ (abs_nonneg _)
        split_ifs with h
        · simpa using hM
        · have := dp n hn.le i (by omega) (mem_range.mp hi)
          rw [if_neg h] at this
          rw [this]
          exact hs _ (by have := mem_range.mp hi; omega)
      have := hp00 n hn.le hl
      linarith
  have hpb : ∀ k ≤ N, ∀ i < a.length, |p k i| ≤ W := by
    intro k hk i hi
    rcases i with _ | i
    · exact (hp00 k hk hl).trans hW
    · rw [dp k hk (i + 1) (by omega) hi]
      split_ifs with h
      · exact hwb _ (by omega)
      · exact (hs _ (by omega)).trans hW
  -- the error
  set e : ℕ → ℝ := fun k => v k - w k with he
  set δ : ℕ → ℝ := fun k => v k - updateR a (q k) with hδ
  have hrec : ∀ n < N, e n = δ n + ∑ i ∈ range (n + 1), at0 a i * e (n - i) := by
    intro n hn
    have e1 : ∑ i ∈ range (n + 1), at0 a i * e (n - i) = ∑ i ∈ range a.length, at0 a i * (if i ≤ n then e (n - i) else 0) := by
      rw [sum_range_extend a (fun i => if i ≤ n then e (n - i) else 0) n a.length le_rfl (fun i hi _ => by simp; omega)]
      apply sum_congr rfl
      intro i hi
      rw [if_pos (by have := mem_range.mp hi; omega)]
    have e2 : updateR a (q n) - w n = ∑ i ∈ range a.length, at0 a i * (if i ≤ n then e (n - i) else 0) := by
      simp only [hw, updateR]
      rw [hq00 n hn.le, add_sub_add_left_eq_sub, ← sum_sub_distrib]
      apply sum_congr rfl
      intro i hi
      rcases i with _ | i
      · simp [h0]
      · have a1 := dp n hn.le (i + 1) (by omega) (mem_range.mp hi)
        have a2 := dq n hn.le (i + 1) (by omega) (mem_range.mp hi)
        rw [a1, a2]
        by_cases h : i + 1 ≤ n
        · rw [if_pos h, if_pos h, if_pos h]; simp only [he]; ring
        · rw [if_neg h, if_neg h, if_neg h, hpq]; ring
    rw [e1, ← e2]; simp only [he, hδ]; ring
  have hdiff : ∀ m, m ≤ N → (∀ n < m, |e n| ≤ E) → ∀ i < a.length, |q m i - p m i| ≤ E := by
    intro m hm hem i hi
    rcases i with _ | i
    · rw [hq00 m hm]; simpa using hE0
    · rw [dp m hm (i + 1) (by omega) hi, dq m hm (i + 1) (by omega) hi]
      split_ifs with h
      · exact hem _ (by omega)
      · rw [hpq]; simpa using hE0
  have heb : ∀ m, m ≤ N → ∀ n < m, |e n| ≤ E := by
    intro m
    induction m with
    | zero => intro _ n hn; omega
    | succ m ih =>
      intro hm n hn
      have hprev := ih (by omega)
      have hδb : ∀ k < m + 1, |δ k| ≤ u * (W + 3 * (A * (W + E))) + 3 * η := by
        intro k hk
        refine (hv k (by omega)).trans ?_
        have hd := hdiff k (by omega) (fun n hn => hprev n (by omega))
        have h1 : |q k 0| ≤ W := by rw [hq00 k (by omega)]; exact hpb k (by omega) 0 hl
        have h2 : ∑ i ∈ range a.length, |at0 a i * q k i| ≤ A * (W + E) := by
          rw [hA, sum_mul]
          refine sum_le_sum fun i hi => ?_
          rw [abs_mul]
          apply mul_le_mul_of_nonneg_left _ (abs_nonneg _)
          have b1 := hd i (mem_range.mp hi)
          have b2 := hpb k (by omega) i (mem_range.mp hi)
          calc |q k i| = |p k i + (q k i - p k i)| := by congr 1; ring
            _ ≤ |p k i| + |q k i - p k i| := abs_add_le _ _
            _ ≤ W + E := by linarith
        have := mul_le_mul_of_nonneg_left (show |q k 0| + 3 * ∑ i ∈ range a.length, |at0 a i * q k i| ≤ W + 3 * (A * (W + E)) by linarith) hu
        linarith
      have hb := recursion_bound a h0 G (m + 1) (fun n hn => hG n (by omega)) e δ (fun n hn => hrec n (by omega)) _ hδb n hn
      refine hb.trans ?_
      have : 6 * u * A * G * E ≤ 1 * E := mul_le_mul_of_nonneg_right hsmall hE0
      nlinarith [hEd]
  intro k hk i hi
  exact ⟨hpb k hk i hi, hdiff k hk (heb k hk) i hi⟩

/-- Two roundings in sequence. -/
theorem two_roundings (v x d S T u η : ℝ) (hu : 0 ≤ u) (hu1 : u ≤ 1) (hη : 0 ≤ η) (hST : |S| ≤ T) (h1 : |v - (x + d)| ≤ u * (|x| + |d|) + η)
    (h2 : |d - S| ≤ u * T + η) : |v - (x + S)| ≤ u * (|x| + 3 * T) + 3 * η := by
  have hT0 : 0 ≤ T := (abs_nonneg _).trans hST
  have hdabs : |d| ≤ T + (u * T + η) := by
    have := abs_sub_abs_le_abs_sub d S
    linarith
  have h3 := abs_add_le (v - (x + d)) (d - S)
  rw [show v - (x + d) + (d - S) = v - (x + S) by ring] at h3
  have h4 := mul_le_mul_of_nonneg_left hdabs hu
  have h5 : u * T ≤ T := mul_le_of_le_one_left hT0 hu1
  have h6 : u * η ≤ η := mul_le_of_le_one_left hη hu1
  have h7 : u * (u * T) ≤ u * T := mul_le_mul_of_nonneg_left h5 hu
  linarith

/-- The error of the recursion is of first order. -/
theorem first_order (G A M u η : ℝ) (hG : 0 ≤ G) (hA : 0 ≤ A) (hM : 0 ≤ M) (hu : 0 ≤ u) (hη : 0 ≤ η) :
    2 * G * (u * (1 + 3 * A) * (G * (1 + A) * M) + 3 * η) ≤ 2 * G * ((1 + 3 * A) * (G * (1 + A)) + 3) * (u * M + η) := by
  have e1 : 0 ≤ 2 * G * (3 * (u * M)) := by positivity
  have e2 : 0 ≤ 2 * G * ((1 + 3 * A) * (G * (1 + A)) * η) := by positivity
  linarith

/-- Constants of the output error. -/
theorem output_constants (K1 K2 Q L M u η E : ℝ) (hK1 : 0 ≤ K1) (hK2 : 0 ≤ K2) (hQ : 0 ≤ Q) (hL : 0 ≤ L) (hM : 0 ≤ M) (hu : 0 ≤ u) (hu1 : u ≤ 1)
    (hη : 0 ≤ η) (hη1 : η ≤ 1) (hE0 : 0 ≤ E) (hE : E ≤ K2 * (u * M + η)) :
    u * ((4 * Q + L * (3 * η)) * (K1 * M + E)) + η + ((3 * u * Q + L * (3 * η)) * (K1 * M + E) + Q * E) ≤
      (7 * Q * (K1 + K2) + 7 * Q * K2 + 6 * L * (K1 + K2) + 6 * L * K2 + 1 + Q * K2) * (u * M + η * (1 + M)) := by
  have huM : u * M ≤ M := mul_le_of_le_one_left hM hu1
  have hWE : K1 * M + E ≤ (K1 + K2) * M + K2 * η := by
    have : K2 * (u * M + η) ≤ K2 * (M + η) := mul_le_mul_of_nonneg_left (by linarith) hK2
    linarith
  have hWE0 : 0 ≤ K1 * M + E := by positivity
  have c1 : u * (4 * Q + L * (3 * η)) + (3 * u * Q + L * (3 * η)) ≤ 7 * u * Q + 6 * L * η := by
    have : u * (L * η) ≤ L * η := mul_le_of_le_one_left (by positivity) hu1
    linarith
  have c2 := mul_le_mul c1 hWE hWE0 (by positivity)
  have c3 := mul_le_mul_of_nonneg_left hE hQ
  have huη : u * η ≤ η := mul_le_of_le_one_left hη hu1
  have hηη : η * η ≤ η := mul_le_of_le_one_left hη hη1
  have d1 : 7 * Q * K2 * (u * η) ≤ 7 * Q * K2 * η := mul_le_mul_of_nonneg_left huη (by positivity)
  have d2 : 6 * L * K2 * (η * η) ≤ 6 * L * K2 * η := mul_le_mul_of_nonneg_left hηη (by positivity)
  have huM0 : 0 ≤ u * M := mul_nonneg hu hM
  have hηM0 : 0 ≤ η * M := mul_nonneg hη hM
  have n1 : 7 * Q * (K1 + K2) * (u * M) ≤ 7 * Q * (K1 + K2) * (u * M + η * (1 + M)) := mul_le_mul_of_nonneg_left (by linarith) (by positivity)
  have n2 : 7 * Q * K2 * η ≤ 7 * Q * K2 * (u * M + η * (1 + M)) := mul_le_mul_of_nonneg_left (by linarith) (by positivity)
  have n3 : 6 * L * (K1 + K2) * (η * M) ≤ 6 * L * (K1 + K2) * (u * M + η * (1 + M)) := mul_le_mul_of_nonneg_left (by linarith) (by positivity)
  have n4 : 6 * L * K2 * η ≤ 6 * L * K2 * (u * M + η * (1 + M)) := mul_le_mul_of_nonneg_left (by linarith) (by positivity)
  have n5 : Q * K2 * (u * M + η) ≤ Q * K2 * (u * M + η * (1 + M)) := mul_le_mul_of_nonneg_left (by linarith) (by positivity)
  linarith

/-- The constants of the output error grow with the square of `G`. -/
theorem growth_constants (G A Q L : ℝ) (hG1 : 1 ≤ G) (hA0 : 0 ≤ A) (hQ0 : 0 ≤ Q) (hL0 : 0 ≤ L) :
    7 * Q * (G * (1 + A) + 2 * G * ((1 + 3 * A) * (G * (1 + A)) + 3)) + 7 * Q * (2 * G * ((1 + 3 * A) * (G * (1 + A)) + 3)) +
      6 * L * (G * (1 + A) + 2 * G * ((1 + 3 * A) * (G * (1 + A)) + 3)) + 6 * L * (2 * G * ((1 + 3 * A) * (G * (1 + A)) + 3)) + 1 +
      Q * (2 * G * ((1 + 3 * A) * (G * (1 + A)) + 3)) ≤
    (7 * Q * (1 + A + 2 * ((1 + 3 * A) * (1 + A) + 3)) + 7 * Q * (2 * ((1 + 3 * A) * (1 + A) + 3)) + 6 * L * (1 + A + 2 * ((1 + 3 * A) * (1 + A) + 3)) +
      6 * L * (2 * ((1 + 3 * A) * (1 + A) + 3)) + 1 + Q * (2 * ((1 + 3 * A) * (1 + A) + 3))) * G ^ 2 := by
  have hGG : G ≤ G ^ 2 := by nlinarith
  have g1 : G * (1 + A) ≤ G ^ 2 * (1 + A) := mul_le_mul_of_nonneg_right hGG (by linarith)
  have g2 : 2 * G * ((1 + 3 * A) * (G * (1 + A)) + 3) ≤ G ^ 2 * (2 * ((1 + 3 * A) * (1 + A) + 3)) := by nlinarith only [hGG]
  generalize 2 * G * ((1 + 3 * A) * (G * (1 + A)) + 3) = K2 at *
  generalize 2 * ((1 + 3 * A) * (1 + A) + 3) = k2 at *
  generalize G * (1 + A) = K1 at *
  have q1 := mul_le_mul_of_nonneg_left g1 hQ0
  have q2 := mul_le_mul_of_nonneg_left g2 hQ0
  have l1 := mul_le_mul_of_nonneg_left g1 hL0
  have l2 := mul_le_mul_of_nonneg_left g2 hL0
  linarith

end Verif
