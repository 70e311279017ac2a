import Verif.Props.Int64
import Verif.Props.Pid
import Verif.Props.Tables
import Verif.Props.Rank
import Mathlib.Tactic.LinearCombination

/-!
Property C147: filters of different classes which give the same outputs (diamondback/filters/pid_filter.py:51-89, iir_filter.py:192-205 and 288-312, integral_filter.py:90-114,
derivative_filter.py:122-149, fir_filter.py:200-211 and 242-264, rank_filter.py:55-91).
-/

namespace Verif.Props

open Finset Spec

variable {K : Type*} [Field K] [DecidableEq K] {O : Type*} [LT O] [DecidableLT O]

private theorem flatten_ne_nil {R : Type*} (chunks : List (List R)) (h0 : chunks ≠ []) (hne : ∀ c ∈ chunks, c ≠ []) : chunks.flatten ≠ [] := by
  rcases chunks with _ | ⟨c, cs⟩
  · exact absurd rfl h0
  · have := hne c (by simp)
    simp [this]

omit [DecidableEq K] in
private theorem sum_three (n : ℕ) (b0 b1 b2 : K) (x : List K) : ∑ i ∈ range (n + 2 + 1), at0 [b0, b1, b2] i * at0 x (n + 2 - i) = b0 * at0 x (n + 2) + b1 * at0 x (n + 1) + b2 * at0 x n := by
  have h : ∑ i ∈ range 3, at0 [b0, b1, b2] i * at0 x (n + 2 - i) = ∑ i ∈ range (n + 2 + 1), at0 [b0, b1, b2] i * at0 x (n + 2 - i) := by
    refine sum_subset (fun i hi => ?_) (fun i _ hi => ?_)
    · rw [mem_range] at hi ⊢; omega
    · rw [mem_range, not_lt] at hi
      rw [at0_of_le _ _ (by simpa using hi), zero_mul]
  rw [← h, sum_range_succ, sum_range_succ, sum_range_one]
  simp [at0]

omit [DecidableEq K] in
private theorem sum_one (n : ℕ) (y : List K) : ∑ i ∈ Icc 1 (n + 1), at0 ([0, 1, 0] : List K) i * at0 y (n + 1 - i) = at0 y n := by
  have h : ∑ i ∈ Icc 1 1, at0 ([0, 1, 0] : List K) i * at0 y (n + 1 - i) = ∑ i ∈ Icc 1 (n + 1), at0 ([0, 1, 0] : List K) i * at0 y (n + 1 - i) := by
    refine sum_subset (fun i hi => ?_) (fun i hi hi' => ?_)
    · rw [mem_Icc] at hi ⊢; omega
    · rw [mem_Icc] at hi hi'
      rcases i with _ | _ | _ | i
      · omega
      · omega
      · simp [at0]
      · simp [at0]
  rw [← h, Icc_self, sum_singleton]
  simp [at0]

/-- C147: PidFilter without a limit is the IirFilter with one pole at one and these coefficients, however the signal is cut into calls. -/
theorem C147_pid_iir (mag : K → O) (p i d : K) (chunks : List (List K)) (h0 : chunks ≠ []) (hne : ∀ c ∈ chunks, c ≠ []) :
    ∃ f g y f' g', Pid.new (K := O) id [p, i, d] = .ok f ∧ Iir.new id (some [0, 1, 0]) (some [p + i + d, -p - 2 * d, d]) none = .ok g ∧
      callChunks (Pid.filter mag) f chunks = (.ok y, f') ∧ callChunks Iir.filter g chunks = (.ok y, g') := by
  obtain ⟨f, y, f', h1, h2, h3, h4⟩ := C20_pid_formula (K := O) mag p i d chunks h0 hne
  have hx := flatten_ne_nil chunks h0 hne
  obtain ⟨g, z, g', k1, k2, k3⟩ := C07_iir_difference_equation [0, 1, 0] [p + i + d, -p - 2 * d, d] chunks.flatten (.inl (by simp)) rfl hx
  have hrec : Recursion [0, 1, 0] [p + i + d, -p - 2 * d, d] chunks.flatten y := by
    refine ⟨h3, fun n hn => ?_⟩
    rcases n with _ | _ | n
    · rw [h4 0 hn]
      simp [at0]
      ring
    · rw [show (0 + 1 : ℕ) = 0 + 1 from rfl, sum_one, h4 _ hn, h4 0 (by omega)]
      simp [sum_range_succ, at0]
      ring
    · rw [sum_three, show n + 1 + 1 = (n + 1) + 1 from rfl, sum_one, h4 _ hn, h4 (n + 1) (by omega), sum_range_succ _ (n + 1 + 1)]
      simp
      ring
  rw [Recursion.unique hrec k3] at h2
  exact ⟨f, g, z, f', g', h1, k1, h2, by rw [C08_iir_streaming g chunks h0 hne]; exact k2⟩

/-- The hypotheses hold: three chunks. -/
example := C147_pid_iir (K := ℚ) (O := ℚ) (fun v => |v|) 3 2 5 [[1], [2, 4], [-3]] (by simp) (by simp)

/-- C147: PidFilter without a limit is the sum of a gain, an IntegralFilter of order 0 and a DerivativeFilter of derivative and order 1. -/
theorem C147_pid_parts (mag : K → O) (p i d : K) (x : List K) (hx : x ≠ []) :
    ∃ f F G y u v f' F' G', Pid.new (K := O) id [p, i, d] = .ok f ∧ Integral.new 0 = .ok F ∧ Derivative.new 1 1 = .ok G ∧
      f.filter mag x = (.ok y, f') ∧ F.filter x = (.ok u, F') ∧ G.filter x = (.ok v, G') ∧ y.length = x.length ∧ u.length = x.length ∧ v.length = x.length ∧
      ∀ n < x.length, at0 y n = p * at0 x n + i * at0 u n + d * at0 v n := by
  obtain ⟨f, y, f', h1, h2, h3, h4⟩ := C20_pid_formula (K := O) mag p i d [x] (by simp) (by simpa using hx)
  rw [C20_pid_streaming mag f [x] (by simp) (by simpa using hx)] at h2
  simp only [List.flatten_cons, List.flatten_nil, List.append_nil] at h2 h3 h4
  obtain ⟨F, u, F', k1, k2, k3, k4⟩ := C07_iir_difference_equation [0, 1] [1] x (.inl (by simp)) rfl hx
  obtain ⟨G, v, G', g1, g2, g3, g4⟩ := C01_fir_convolution [1, -1] x (by simp) hx
  refine ⟨f, F, G, y, u, v, f', F', G', h1, k1, g1, h2, k2, g2, h3, k3, g3, fun n hn => ?_⟩
  have hu : ∀ n < x.length, at0 u n = ∑ i ∈ range (n + 1), at0 x i := by
    intro n
    induction n with
    | zero =>
      intro hn
      rw [k4 0 hn]
      simp [at0]
    | succ n ih =>
      intro hn
      have hb : ∑ i ∈ range (n + 1 + 1), at0 ([1] : List K) i * at0 x (n + 1 - i) = at0 x (n + 1) := by
        rw [sum_range_succ']
        simp [at0]
      have ha : ∑ i ∈ Icc 1 (n + 1), at0 ([0, 1] : List K) i * at0 u (n + 1 - i) = at0 u n := by
        rw [← sum_one n u]
        refine sum_congr rfl fun i _ => ?_
        rcases i with _ | _ | _ | i <;> simp [at0]
      rw [k4 _ hn, ha, hb, ih (by omega), sum_range_succ _ (n + 1)]
  have hv : at0 v n = at0 x n - if n = 0 then 0 else at0 x (n - 1) := by
    have e := g4 n hn
    rw [at0, List.getD_eq_getElem?_getD, e, Option.getD_some]
    rcases n with _ | n
    · simp [at0]
    · rw [sum_range_succ', sum_range_succ']
      simp [at0]
      ring
  rw [h4 n hn, hu n hn, hv]

/-- Concrete case of C147: both filters give 10, 18, 39 for 1, 2, 4. -/
example : (Iir.new id (some [0, 1, 0]) (some [10, -12, 5]) none : Res (Iir ℚ)) = .ok ⟨id, [0, 1, 0], [10, -12, 5], [0, 0, 0]⟩ := rfl

example : ((⟨id, [0, 1, 0], [10, -12, 5], [0, 0, 0]⟩ : Iir ℚ).filter [1, 2, 4]).1.toOption = some [10, 18, 39] := by
  decide +kernel

/-- C147: IirFilter without recursive coefficients is FirFilter: same outputs and same state, from any state. -/
theorem C147_iir_fir {R : Type*} [CommRing R] (f : Fir R) (hf : f.WF) (hc : f.cast = id) (x : List R) (hx : x ≠ []) :
    ∃ y f', f.filter x = (.ok y, f') ∧ (⟨id, List.replicate f.b.length 0, f.b, f.s⟩ : Iir R).filter x = (.ok y, ⟨id, List.replicate f.b.length 0, f.b, f'.s⟩) ∧ f'.b = f.b := by
  have loop : ∀ (x : List R) (f : Fir R), f.WF → f.cast = id →
      ∃ y f', runLoop Fir.step f x = (.ok y, f') ∧ runLoop Iir.step (⟨id, List.replicate f.b.length 0, f.b, f.s⟩ : Iir R) x = (.ok y, ⟨id, List.replicate f.b.length 0, f.b, f'.s⟩) ∧ f'.b = f.b := by
    intro x
    induction x with
    | nil => intro f _ _; exact ⟨[], f, rfl, rfl, rfl⟩
    | cons v x ih =>
      intro f hf hc
      have e1 := Fir.step_wf f hf v
      have w1 := Fir.step_wf_wf f hf v
      rw [e1] at w1
      obtain ⟨g, hg⟩ : ∃ g : Iir R, g = ⟨id, List.replicate f.b.length 0, f.b, f.s⟩ := ⟨_, rfl⟩
      have gwf : g.WF := by rw [hg]; exact ⟨by simp, hf.1, hf.2⟩
      have e2 := Iir.step_wf g gwf v
      have hmem : g.mem = f.s := by
        have hd : dot g.a g.s = 0 := by
          rw [dot_eq_sum]
          refine sum_eq_zero fun i _ => ?_
          have : at0 g.a i = 0 := by
            rw [hg]
            simp only [at0, List.getD_eq_getElem?_getD, List.getElem?_replicate]
            split <;> rfl
          rw [this, zero_mul]
        unfold Iir.mem
        rw [hd]
        have : g.cast = id := by rw [hg]
        rw [this]
        have : g.s = f.s := by rw [hg]
        rw [this]
        cases f.s <;> simp
      have hcomb : g.comb = f.b := by
        rcases hb : f.b with _ | ⟨b0, t⟩
        · rw [hg]; simp [Iir.comb, hb]
        · have : g.comb = List.zipWith (· + ·) ((List.replicate (b0 :: t).length (0 : R)).map (· * b0)) (b0 :: t) := by rw [hg]; simp only [Iir.comb, hb]
          rw [this]
          refine List.ext_getElem (by simp) fun n h1 h2 => ?_
          simp
      have hgc : g.cast = id := by rw [hg]
      rw [hmem, hcomb, hgc] at e2
      rw [hc] at e1 w1
      obtain ⟨y, f', i1, i2, i3⟩ := ih ⟨id, f.b, v :: f.s.dropLast⟩ w1 rfl
      refine ⟨dot f.b (v :: f.s.dropLast) :: y, f', ?_, ?_, i3⟩
      · rw [runLoop_cons_ok _ _ _ _ _ _ e1]
        simp only [id, thenRun, i1]
        rfl
      · rw [← hg, runLoop_cons_ok _ _ _ _ _ _ e2]
        have : ({ g with cast := id, s := id v :: f.s.dropLast } : Iir R) = ⟨id, List.replicate f.b.length 0, f.b, v :: f.s.dropLast⟩ := by rw [hg]; rfl
        rw [this]
        simp only [id, thenRun] at i2 ⊢
        rw [i2]
        rfl
  obtain ⟨y, f', h1, h2, h3⟩ := loop x f hf hc
  refine ⟨y, f', ?_, ?_, h3⟩
  · unfold Fir.filter; rw [if_neg (by simpa using hx), h1]
  · unfold Iir.filter; rw [if_neg (by simpa using hx), h2]

example := C147_iir_fir (⟨id, [1, 2, 3], [4, 5, 6]⟩ : Fir ℤ) (by simp [Fir.WF]) rfl [7, 8] (by simp)

/-- C147: the same through the constructors and over several calls: IirFilter( b = b ) and FirFilter( b = b ) give the same outputs. -/
theorem C147_iir_fir_new {R : Type*} [CommRing R] [DecidableEq R] (b : List R) (hb : b ≠ []) (chunks : List (List R)) (h0 : chunks ≠ []) (hne : ∀ c ∈ chunks, c ≠ []) :
    ∃ f g y f' g', Fir.new id b none = .ok f ∧ Iir.new id none (some b) none = .ok g ∧
      callChunks Fir.filter f chunks = (.ok y, f') ∧ callChunks Iir.filter g chunks = (.ok y, g') := by
  have hl : b.length ≠ 0 := by simpa using hb
  have e1 : Fir.new id b none = .ok ⟨id, b, List.replicate b.length 0⟩ := by
    simp [Fir.new, hb, padTo, Nat.pos_of_ne_zero hl]
  have e2 : Iir.new id none (some b) none = .ok ⟨id, List.replicate b.length 0, b, List.replicate b.length 0⟩ := by
    have : (List.replicate b.length (0 : R)).head? = some 0 := by
      rw [List.head?_replicate, if_neg hl]
    simp [Iir.new, hb, padTo, e1, Nat.pos_of_ne_zero hl, this]
  obtain ⟨y, f', h1, h2, _⟩ := C147_iir_fir ⟨id, b, List.replicate b.length 0⟩ ⟨by simp, Nat.pos_of_ne_zero hl⟩ rfl chunks.flatten (flatten_ne_nil chunks h0 hne)
  refine ⟨_, _, y, f', ⟨id, List.replicate b.length 0, b, f'.s⟩, e1, e2, ?_, ?_⟩
  · rw [C02_fir_streaming _ _ h0 hne, h1]
  · rw [C08_iir_streaming _ _ h0 hne, h2]

/-- Concrete case: the constructor without `a` makes that instance. -/
example : (Iir.new id none (some [1, 2, 3]) none : Res (Iir ℤ)) = .ok ⟨id, [0, 0, 0], [1, 2, 3], [0, 0, 0]⟩ := rfl

/-- C147: RankFilter of order 0 returns the signal. -/
theorem C147_rank_zero {R : Type*} [Zero R] {κ : Type*} [LinearOrder κ] (argsort : List κ → List ℕ) (ha : IsArgsort argsort) (key : R → κ) (x : List R) (hx : x ≠ []) :
    ∃ f f', Rank.new 0 0 = .ok f ∧ f.filter argsort key x = (.ok x, f') := by
  have hs : ∀ k, argsort [k] = [0] := fun k => by simpa using (ha [k]).1
  have loop : ∀ (x : List R) (s : R), ∃ s', runLoop (Rank.step argsort key) (⟨[s], 0⟩ : Rank R) x = (.ok x, ⟨[s'], 0⟩) := by
    intro x
    induction x with
    | nil => intro s; exact ⟨s, rfl⟩
    | cons v x ih =>
      intro s
      obtain ⟨s', h⟩ := ih v
      have e : Rank.step argsort key (⟨[s], 0⟩ : Rank R) v = (.ok v, ⟨[v], 0⟩) := by
        simp [Rank.step, hs, pyGet]
      refine ⟨s', ?_⟩
      rw [runLoop_cons_ok _ _ _ _ _ _ e]
      simp only [thenRun, h]
      rfl
  obtain ⟨s', h⟩ := loop x 0
  refine ⟨⟨[0], 0⟩, ⟨[s'], 0⟩, rfl, ?_⟩
  unfold Rank.filter
  rw [if_neg (by simpa using hx), h]

/-- Concrete case: the hypothesis on `argsort` is met by a sorting function. -/
example : IsArgsort (argsortRef : List ℕ → List ℕ) := argsortRef_isArgsort

end Verif.Props
