import Verif.Props.RankCascade
import Mathlib.Logic.Function.Iterate
import Mathlib.Order.Interval.Finset.Nat

/-
Property C167 of RankFilter (diamondback/filters/rank_filter.py): medians of medians reach a signal which the median does not change.
-/

namespace Verif.Props

open Spec

section Majority

open scoped Classical in
/-- The majority of `2 k + 1` places around `n`. -/
def Maj (k : ℕ) (b : ℤ → Prop) (n : ℤ) : Prop := k + 1 ≤ ((Finset.range (2 * k + 1)).filter fun j : ℕ => b (n + k - j)).card

private theorem maj_not (k : ℕ) (b : ℤ → Prop) (n : ℤ) : Maj k (fun m => ¬ b m) n ↔ ¬ Maj k b n := by
  classical
  unfold Maj
  have : ((Finset.range (2 * k + 1)).filter fun j : ℕ => b (n + k - j)).card +
      (@Finset.filter ℕ (fun j : ℕ => ¬ b (n + k - j)) (fun _ => Classical.propDecidable _) (Finset.range (2 * k + 1))).card = 2 * k + 1 := by
    conv_rhs => rw [← Finset.card_range (2 * k + 1)]
    convert Finset.card_filter_add_card_filter_not (s := Finset.range (2 * k + 1)) (fun j : ℕ => b (n + k - j))
  beta_reduce
  constructor <;> intro h <;> omega

/-- `k + 1` places in succession within the window decide. -/
private theorem maj_block (k : ℕ) (b : ℤ → Prop) (n a : ℤ) (h1 : n - k ≤ a) (h2 : a ≤ n) (h : ∀ m, a ≤ m → m ≤ a + k → b m) : Maj k b n := by
  classical
  unfold Maj
  obtain ⟨i, hi⟩ : ∃ i : ℕ, n - a = i := ⟨(n - a).toNat, by omega⟩
  calc k + 1 = (Finset.Ico i (i + k + 1)).card := by simp; omega
    _ ≤ _ := Finset.card_le_card fun j hj => by
      have := Finset.mem_Ico.mp hj
      rw [Finset.mem_filter, Finset.mem_range]
      exact ⟨by omega, h _ (by omega) (by omega)⟩

/-- `k` places in succession and a further one decide also. -/
private theorem maj_block_one (k : ℕ) (b : ℤ → Prop) (n m : ℤ) (h : ∀ i, n - k ≤ i → i < n → b i) (h1 : n ≤ m) (h2 : m ≤ n + k) (hm : b m) : Maj k b n := by
  classical
  unfold Maj
  obtain ⟨i, hi⟩ : ∃ i : ℕ, n + k - m = i := ⟨(n + k - m).toNat, by omega⟩
  calc k + 1 = (insert i (Finset.Ico (k + 1) (2 * k + 1))).card := by
        rw [Finset.card_insert_of_notMem (by rw [Finset.mem_Ico]; omega)]; simp; omega
    _ ≤ _ := Finset.card_le_card fun j hj => by
      rw [Finset.mem_filter, Finset.mem_range]
      rcases Finset.mem_insert.mp hj with rfl | hj
      · exact ⟨by omega, by rw [← hi]; ring_nf; exact hm⟩
      · have := Finset.mem_Ico.mp hj
        exact ⟨by omega, h _ (by omega) (by omega)⟩

private theorem maj_congr (k : ℕ) (b b' : ℤ → Prop) (n : ℤ) (h : ∀ m, n - k ≤ m → m ≤ n + k → (b m ↔ b' m)) : Maj k b n ↔ Maj k b' n := by
  classical
  unfold Maj
  have e : ((Finset.range (2 * k + 1)).filter fun j : ℕ => b (n + k - j)) = (Finset.range (2 * k + 1)).filter fun j : ℕ => b' (n + k - j) := by
    apply Finset.filter_congr
    intro j hj
    have := Finset.mem_range.mp hj
    exact h _ (by omega) (by omega)
  rw [e]

private theorem maj_neg (k : ℕ) (b : ℤ → Prop) (n : ℤ) : Maj k (fun m => b (-m)) n ↔ Maj k b (-n) := by
  classical
  unfold Maj
  have : ((Finset.range (2 * k + 1)).filter fun j : ℕ => b (-(n + k - j))).card = ((Finset.range (2 * k + 1)).filter fun j : ℕ => b (-n + k - j)).card := by
    refine Finset.card_nbij' (fun j => 2 * k - j) (fun j => 2 * k - j) ?_ ?_ ?_ ?_
    · intro j hj
      simp only [Finset.coe_filter, Finset.mem_range, Set.mem_ofPred_eq] at hj ⊢
      refine ⟨by omega, ?_⟩
      have e : -n + (k : ℤ) - ((2 * k - j : ℕ) : ℤ) = -(n + k - j) := by omega
      rw [e]; exact hj.2
    · intro j hj
      simp only [Finset.coe_filter, Finset.mem_range, Set.mem_ofPred_eq] at hj ⊢
      refine ⟨by omega, ?_⟩
      have e : -(n + (k : ℤ) - ((2 * k - j : ℕ) : ℤ)) = -n + k - j := by omega
      rw [e]; exact hj.2
    · intro j hj
      simp only [Finset.coe_filter, Finset.mem_range, Set.mem_ofPred_eq] at hj
      simp only; omega
    · intro j hj
      simp only [Finset.coe_filter, Finset.mem_range, Set.mem_ofPred_eq] at hj
      simp only; omega
  rw [this]

/-- Up to `β` the majority changes nothing, and the last `k + 1` places up to `β` are equal. -/
private def Stable (k : ℕ) (b : ℤ → Prop) (β : ℤ) : Prop :=
  (∀ n ≤ β, Maj k b n ↔ b n) ∧ ((∀ m, β - k ≤ m → m ≤ β → b m) ∨ ∀ m, β - k ≤ m → m ≤ β → ¬ b m)

private theorem stable_not {k : ℕ} {b : ℤ → Prop} {β : ℤ} (h : Stable k b β) : Stable k (fun m => ¬ b m) β := by
  refine ⟨fun n hn => by rw [maj_not, h.1 n hn], ?_⟩
  rcases h.2 with h | h
  · exact .inr fun m h1 h2 h3 => h3 (h m h1 h2)
  · exact .inl h

private theorem stable_keep {k : ℕ} {b : ℤ → Prop} {β : ℤ} (h : Stable k b β) : Stable k (Maj k b) β := by
  refine ⟨fun n hn => ?_, ?_⟩
  · by_cases hn' : n ≤ β - k
    · exact maj_congr k _ _ n fun m _ h2 => h.1 m (by omega)
    · rcases h.2 with h2 | h2
      · refine ⟨fun _ => (h.1 n hn).mpr (h2 n (by omega) hn), fun _ => ?_⟩
        exact maj_block k _ n (β - k) (by omega) (by omega) fun m h3 h4 => (h.1 m (by omega)).mpr (h2 m h3 (by omega))
      · have e1 : ¬ Maj k b n := fun e => h2 n (by omega) hn ((h.1 n hn).mp e)
        refine ⟨fun e => absurd e ?_, fun e => absurd e e1⟩
        rw [← maj_not]
        exact maj_block k _ n (β - k) (by omega) (by omega) fun m h3 h4 e => h2 m h3 (by omega) ((h.1 m (by omega)).mp e)
  · rcases h.2 with h2 | h2
    · exact .inl fun m h3 h4 => (h.1 m h4).mpr (h2 m h3 h4)
    · exact .inr fun m h3 h4 e => h2 m h3 h4 ((h.1 m h4).mp e)

private theorem stable_step_true {k : ℕ} {b : ℤ → Prop} {β : ℤ} (h : Stable k b β) (hc : ∀ m, β - k ≤ m → m ≤ β → b m) :
    ∃ β', β + 1 ≤ β' ∧ Stable k (Maj k b) β' := by
  have hk := stable_keep h
  by_cases hf : ∀ m, β + 1 ≤ m → m ≤ β + 1 + k → ¬ b m
  · -- a block of the other value begins
    have h1 : ∀ m, β + 1 ≤ m → m ≤ β + 1 + k → ¬ Maj k b m := fun m h1 h2 => by
      rw [← maj_not]
      exact maj_block k _ m (β + 1) (by omega) (by omega) hf
    refine ⟨β + 1 + k, by omega, ⟨fun n hn => ?_, .inr fun m h2 h3 => h1 m (by omega) h3⟩⟩
    by_cases hn' : n ≤ β
    · exact hk.1 n hn'
    · refine ⟨fun e => absurd e ?_, fun e => absurd e (h1 n (by omega) hn)⟩
      rw [← maj_not]
      exact maj_block k _ n (β + 1) (by omega) (by omega) h1
  · push Not at hf
    obtain ⟨m, h1, h2, hm⟩ := hf
    have h3 : Maj k b (β + 1) := maj_block_one k b (β + 1) m (fun i h3 h4 => hc i (by omega) (by omega)) h1 h2 hm
    have h4 : ∀ i, β + 1 - k ≤ i → i ≤ β + 1 → Maj k b i := fun i h5 h6 => by
      by_cases e : i = β + 1
      · rw [e]; exact h3
      · exact (h.1 i (by omega)).mpr (hc i (by omega) (by omega))
    refine ⟨β + 1, le_rfl, ⟨fun n hn => ?_, .inl h4⟩⟩
    by_cases hn' : n ≤ β
    · exact hk.1 n hn'
    · have : n = β + 1 := by omega
      subst this
      exact ⟨fun _ => h3, fun _ => maj_block k _ (β + 1) (β + 1 - k) (by omega) (by omega) fun i h5 h6 => h4 i h5 (by omega)⟩

private theorem stable_step {k : ℕ} {b : ℤ → Prop} {β : ℤ} (h : Stable k b β) : ∃ β', β + 1 ≤ β' ∧ Stable k (Maj k b) β' := by
  rcases h.2 with hc | hc
  · exact stable_step_true h hc
  · obtain ⟨β', h1, h2⟩ := stable_step_true (stable_not h) hc
    refine ⟨β', h1, ?_⟩
    have e : Maj k b = fun n => ¬ Maj k (fun m => ¬ b m) n := by
      funext n
      rw [maj_not, not_not]
    rw [e]
    exact stable_not h2

private theorem stable_iterate {k : ℕ} {b : ℤ → Prop} {β : ℤ} (h : Stable k b β) (p : ℕ) : ∃ β', β + p ≤ β' ∧ Stable k ((Maj k)^[p] b) β' := by
  induction p with
  | zero => exact ⟨β, by simp, h⟩
  | succ p ih =>
    obtain ⟨β', h1, h2⟩ := ih
    obtain ⟨β'', h3, h4⟩ := stable_step h2
    rw [Function.iterate_succ_apply']
    exact ⟨β'', by push_cast; omega, h4⟩

private theorem stable_const (k : ℕ) (b : ℤ → Prop) (β : ℤ) (c : Prop) (h : ∀ n ≤ β, b n ↔ c) : Stable k b β := by
  by_cases hc : c
  · refine ⟨fun n hn => ⟨fun _ => (h n hn).mpr hc, fun _ => maj_block k b n (n - k) (by omega) (by omega) fun m _ h2 => (h m (by omega)).mpr hc⟩,
      .inl fun m _ h2 => (h m h2).mpr hc⟩
  · have hb : ∀ n ≤ β, ¬ b n := fun n hn e => hc ((h n hn).mp e)
    refine ⟨fun n hn => ⟨fun e => absurd e ?_, fun e => absurd e (hb n hn)⟩, .inr fun m _ h2 => hb m h2⟩
    rw [← maj_not]
    exact maj_block k _ n (n - k) (by omega) (by omega) fun m _ h2 => hb m (by omega)

private theorem iterate_neg (k : ℕ) (b : ℤ → Prop) (p : ℕ) (n : ℤ) : (Maj k)^[p] (fun m => b (-m)) n ↔ (Maj k)^[p] b (-n) := by
  induction p generalizing n with
  | zero => rfl
  | succ p ih =>
    rw [Function.iterate_succ_apply', Function.iterate_succ_apply']
    have e : (Maj k)^[p] (fun m => b (-m)) = fun m => (Maj k)^[p] b (-m) := funext fun m => propext (ih m)
    rw [e, maj_neg]

/-- Places which are constant before zero stay so. -/
private theorem iterate_before (k : ℕ) (b : ℤ → Prop) (c : Prop) (h : ∀ n : ℤ, n ≤ -1 → (b n ↔ c)) (p : ℕ) : ∀ n : ℤ, n ≤ -1 → ((Maj k)^[p] b n ↔ c) := by
  induction p with
  | zero => exact h
  | succ p ih =>
    intro n hn
    rw [Function.iterate_succ_apply']
    exact ((stable_const k _ (-1) c ih).1 n hn).trans (ih n hn)

/-- Between constant ends which leave `len` places, half as many passes lead to a fixed point. -/
private theorem majority_root (k : ℕ) (b : ℤ → Prop) (len : ℕ) (c c' : Prop) (h : ∀ n : ℤ, n ≤ -1 → (b n ↔ c)) (h' : ∀ n : ℤ, len ≤ n → (b n ↔ c'))
    (p : ℕ) (hp : len ≤ 2 * p) (n : ℤ) : Maj k ((Maj k)^[p] b) n ↔ (Maj k)^[p] b n := by
  obtain ⟨β, h1, h2⟩ := stable_iterate (stable_const k b (-1) c h) p
  obtain ⟨γ, h3, h4⟩ := stable_iterate (stable_const k (fun m => b (-m)) (-len) c' fun n hn => h' (-n) (by omega)) p
  by_cases hn : n ≤ β
  · exact h2.1 n hn
  · have := h4.1 (-n) (by omega)
    have e : (Maj k)^[p] (fun m => b (-m)) = fun m => (Maj k)^[p] b (-m) := funext fun m => propext (iterate_neg k b p m)
    rw [e, maj_neg] at this
    simpa only [neg_neg] using this

end Majority

section Run

variable {R : Type*} [AddCommGroup R] [LinearOrder R] [IsOrderedAddMonoid R]

/-- A median of fresh instances, by thresholds. -/
private theorem median_threshold (argsort : List R → List ℕ) (ha : IsArgsort argsort) (k : ℕ) (x : List R) (hx : x ≠ []) (hpos : ∀ v ∈ x, 0 ≤ v) :
    ∃ y, rankRun argsort k (2 * k) x = .ok y ∧ y.length = x.length ∧ (∀ v ∈ y, 0 ≤ v) ∧
      ∀ (n : ℕ), n < x.length → ∀ t, t ≤ at0 y n ↔ k + 1 ≤ ((Finset.range (2 * k + 1)).filter fun i : ℕ => t ≤ twoSided x ((n : ℤ) - i)).card := by
  obtain ⟨y, g, h1, h2, h3⟩ := C161_threshold argsort ha (fun v : R => |v|) k (2 * k) (by omega) (List.replicate (2 * k + 1) 0) (by simp) x hx
  have hrun : rankRun argsort k (2 * k) x = .ok y := by
    unfold rankRun
    rw [(C18_rank_constructor _ _).1 ⟨by simp, by push_cast; omega⟩]
    have e : (((2 * k : ℕ) : ℤ) + 1).toNat = 2 * k + 1 := by omega
    simp only [e, h1]
  obtain ⟨y', g', q1, -, q3⟩ := rank_outputs argsort ha (fun v : R => |v|) k (2 * k) (by omega) (List.replicate (2 * k + 1) 0) (by simp) x hx
  have hyy : y' = y := by
    rw [h1] at q1
    exact (Except.ok.inj (congrArg Prod.fst q1)).symm
  subst hyy
  have hy0 : ∀ n < x.length, 0 ≤ at0 y' n := by
    intro n hn
    obtain ⟨i, -, hi⟩ := (lookback_zero_mem (2 * k) x n _).mp (q3 n hn).1
    rw [hi]
    exact twoSided_nonneg x hpos _
  refine ⟨y', hrun, h2, ?_, ?_⟩
  · intro v hv
    obtain ⟨n, hn, rfl⟩ := List.getElem_of_mem hv
    have := hy0 n (by omega)
    rwa [at0_of_lt y' n hn] at this
  · intro n hn t
    have := h3 n hn t
    rw [abs_of_nonneg (hy0 n hn), show 2 * k + 1 - k = k + 1 by omega] at this
    rw [this]
    have e : ((Finset.range (2 * k + 1)).filter fun i : ℕ => t ≤ |if i ≤ n then at0 x (n - i) else at0 (List.replicate (2 * k + 1) 0) (i - n)|) =
        (Finset.range (2 * k + 1)).filter fun i : ℕ => t ≤ twoSided x ((n : ℤ) - i) := by
      apply Finset.filter_congr
      intro i _
      rw [← abs_of_nonneg (twoSided_nonneg x hpos ((n : ℤ) - i))]
      by_cases h : i ≤ n
      · rw [if_pos h, show (n : ℤ) - i = ((n - i : ℕ) : ℤ) by omega, twoSided_natCast]
      · rw [if_neg h]
        have : (n : ℤ) - i < 0 := by omega
        simp only [twoSided, this, if_true, at0, List.getD, List.getElem?_replicate]
        split <;> rfl
    rw [e]

/-- The signal continued to all times: zero before it, and after `len` its last values. -/
private def continued (x : List R) (len : ℕ) (c : R) (n : ℤ) : R := if n < len then twoSided x n else c

omit [LinearOrder R] [IsOrderedAddMonoid R] in
private theorem continued_eq (x : List R) (len : ℕ) (c : R) (hc : ∀ n : ℕ, len ≤ n → n < x.length → at0 x n = c) (n : ℤ) (hn : n < x.length) :
    twoSided x n = continued x len c n := by
  unfold continued
  split_ifs with h
  · rfl
  · obtain ⟨m, rfl⟩ : ∃ m : ℕ, n = m := ⟨n.toNat, by omega⟩
    rw [twoSided_natCast]
    exact hc m (by omega) (by omega)

/-- The thresholds of repeated medians are repeated majorities. -/
private theorem repeat_threshold (argsort : List R → List ℕ) (ha : IsArgsort argsort) (k : ℕ) (x : List R) (hx : x ≠ []) (hpos : ∀ v ∈ x, 0 ≤ v) (len : ℕ) (c : R)
    (hc : ∀ n : ℕ, len ≤ n → n < x.length → at0 x n = c) (p : ℕ) :
    ∃ y, rankRepeat argsort k (2 * k) p x = .ok y ∧ y.length = x.length ∧ (∀ v ∈ y, 0 ≤ v) ∧
      ∀ n : ℤ, n < x.length → ∀ t, t ≤ twoSided y n ↔ (Maj k)^[p] (fun m => t ≤ continued x len c m) (n - p * k) := by
  have hbefore : ∀ t : R, ∀ n : ℤ, n ≤ -1 → ((t ≤ continued x len c n) ↔ t ≤ 0) := by
    intro t n hn
    rw [continued, if_pos (by omega), twoSided, if_pos (by omega)]
  induction p with
  | zero =>
    refine ⟨x, rfl, rfl, hpos, fun n hn t => ?_⟩
    rw [continued_eq x len c hc n hn]
    simp
  | succ p ih =>
    obtain ⟨y, h1, h2, h3, h4⟩ := ih
    obtain ⟨z, g1, g2, g3, g4⟩ := median_threshold argsort ha k y (ne_nil_of_length_eq x y h2 hx) h3
    refine ⟨z, by rw [rankRepeat, h1]; exact g1, g2.trans h2, g3, fun n hn t => ?_⟩
    by_cases hn0 : n < 0
    · rw [twoSided, if_pos hn0, iterate_before k _ (t ≤ 0) (hbefore t) (p + 1) _ (by push_cast; nlinarith)]
    · obtain ⟨m, rfl⟩ : ∃ m : ℕ, n = m := ⟨n.toNat, by omega⟩
      rw [twoSided_natCast, g4 m (by omega) t, Function.iterate_succ_apply']
      unfold Maj
      have e : ((Finset.range (2 * k + 1)).filter fun i : ℕ => t ≤ twoSided y ((m : ℤ) - i)) =
          @Finset.filter ℕ (fun i : ℕ => (Maj k)^[p] (fun m => t ≤ continued x len c m) ((m : ℤ) - ((p + 1 : ℕ) : ℤ) * k + k - i))
            (fun _ => Classical.propDecidable _) (Finset.range (2 * k + 1)) := by
        ext i
        simp only [Finset.mem_filter]
        rw [h4 _ (by omega) t, show (m : ℤ) - i - p * k = (m : ℤ) - ((p + 1 : ℕ) : ℤ) * k + k - i by push_cast; ring]
      rw [e]
      rfl

/-- C167.  A signal of nonnegative samples whose samples from `len` on are equal.  After `p` medians of `2 k + 1` samples one after another, `2 p ≥ len`, one more
is a delay by `k` samples: the signal is a root of the median. -/
theorem C167_root (argsort : List R → List ℕ) (ha : IsArgsort argsort) (k : ℕ) (x : List R) (hx : x ≠ []) (hpos : ∀ v ∈ x, 0 ≤ v) (len : ℕ) (c : R)
    (hc : ∀ n : ℕ, len ≤ n → n < x.length → at0 x n = c) (p : ℕ) (hp : len ≤ 2 * p) :
    ∃ y z, rankRepeat argsort k (2 * k) p x = .ok y ∧ rankRun argsort k (2 * k) y = .ok z ∧ y.length = x.length ∧ z.length = x.length ∧
      ∀ n : ℤ, n < x.length → twoSided z n = twoSided y (n - k) := by
  obtain ⟨y, h1, h2, h3, h4⟩ := repeat_threshold argsort ha k x hx hpos len c hc p
  obtain ⟨z, g1, g2, g3, g4⟩ := repeat_threshold argsort ha k x hx hpos len c hc (p + 1)
  refine ⟨y, z, h1, by rw [rankRepeat, h1] at g1; exact g1, h2, g2, fun n hn => ?_⟩
  apply eq_of_forall_le_iff
  intro t
  rw [g4 n hn t, h4 (n - k) (by omega) t, Function.iterate_succ_apply', majority_root k _ len (t ≤ 0) (t ≤ c) ?_ ?_ p hp]
  · rw [show n - ((p + 1 : ℕ) : ℤ) * k = n - k - p * k by push_cast; ring]
  · intro m hm
    rw [continued, if_pos (by omega), twoSided, if_pos (by omega)]
  · intro m hm
    rw [continued, if_neg (by omega)]

/-- C167.  From then on all further medians are delays: after `p + q` of them the signal is that of `p`, late by `q k` samples. -/
theorem C167_after (argsort : List R → List ℕ) (ha : IsArgsort argsort) (k : ℕ) (x : List R) (hx : x ≠ []) (hpos : ∀ v ∈ x, 0 ≤ v) (len : ℕ) (c : R)
    (hc : ∀ n : ℕ, len ≤ n → n < x.length → at0 x n = c) (p : ℕ) (hp : len ≤ 2 * p) (q : ℕ) :
    ∃ y z, rankRepeat argsort k (2 * k) p x = .ok y ∧ rankRepeat argsort k (2 * k) (p + q) x = .ok z ∧
      ∀ n : ℤ, n < x.length → twoSided z n = twoSided y (n - q * k) := by
  induction q with
  | zero =>
    obtain ⟨y, z, h1, -⟩ := C167_root argsort ha k x hx hpos len c hc p hp
    exact ⟨y, y, h1, h1, fun n _ => by simp⟩
  | succ q ih =>
    obtain ⟨y, z, h1, h2, h3⟩ := ih
    obtain ⟨z', w, g1, g2, -, -, g5⟩ := C167_root argsort ha k x hx hpos len c hc (p + q) (by omega)
    have e : z' = z := by
      rw [h2] at g1
      exact (Except.ok.inj g1).symm
    subst e
    refine ⟨y, w, h1, by rw [← Nat.add_assoc, rankRepeat, h2]; exact g2, fun n hn => ?_⟩
    rw [g5 n hn, h3 _ (by omega), show n - (k : ℤ) - q * k = n - ((q + 1 : ℕ) : ℤ) * k by push_cast; ring]

/-- The hypotheses: five samples and then sevens, a median of three, three passes. -/
example := C167_root argsortRef argsortRef_isArgsort 1 [(5 : ℤ), 0, 5, 0, 5, 7, 7, 7, 7, 7, 7] (by simp) (by decide) 5 7 (by decide) 3 (by decide)

/-- The bound is sharp: of five samples two medians of three leave one which the third removes. -/
example : rankRepeat (R := ℤ) argsortRef 1 2 2 [5, 0, 5, 0, 5, 0, 0, 0, 0, 0] = .ok [0, 0, 0, 0, 5, 0, 0, 0, 0, 0] ∧
    rankRepeat (R := ℤ) argsortRef 1 2 3 [5, 0, 5, 0, 5, 0, 0, 0, 0, 0] = .ok (List.replicate 10 0) := by decide +kernel

/-- C167.  Without equal samples at the end there may be no root: of the signal 1, 0, 1, 0 and so on every median of three is the same signal after its beginning, and
never the one before it delayed by one sample. -/
theorem C167_alternating (argsort : List ℤ → List ℕ) (ha : IsArgsort argsort) (N p : ℕ) (hN : 2 * p + 3 < N) :
    ∃ y z, rankRepeat argsort 1 2 p ((List.range N).map fun n => if n % 2 = 0 then (1 : ℤ) else 0) = .ok y ∧ rankRun argsort 1 2 y = .ok z ∧
      ∀ n : ℕ, 2 * p + 2 ≤ n → n < N → at0 z n ≠ at0 y (n - 1) := by
  set x : List ℤ := (List.range N).map fun n => if n % 2 = 0 then (1 : ℤ) else 0 with hxd
  have hlen : x.length = N := by simp [hxd]
  have hx : x ≠ [] := by
    intro h
    rw [h] at hlen
    simp at hlen
    omega
  have hpos : ∀ v ∈ x, 0 ≤ v := by
    intro v hv
    obtain ⟨n, _, rfl⟩ := List.mem_map.mp hv
    split_ifs <;> decide
  have key : ∀ q : ℕ, ∃ y, rankRepeat argsort 1 2 q x = .ok y ∧ y.length = N ∧ (∀ v ∈ y, 0 ≤ v) ∧
      ∀ n : ℕ, 2 * q ≤ n → n < N → at0 y n = if n % 2 = 0 then 1 else 0 := by
    intro q
    induction q with
    | zero =>
      refine ⟨x, rfl, hlen, hpos, fun n _ hn => ?_⟩
      rw [at0_of_lt x n (by omega)]
      simp [hxd]
    | succ q ih =>
      obtain ⟨y, h1, h2, h3, h4⟩ := ih
      obtain ⟨z, g1, g2, g3, g4⟩ := median_threshold argsort ha 1 y (ne_nil_of_length_eq x y (h2.trans hlen.symm) hx) h3
      refine ⟨z, by rw [rankRepeat, h1]; exact g1, g2.trans h2, g3, fun n hn hnN => ?_⟩
      apply eq_of_forall_le_iff
      intro t
      rw [g4 n (by omega) t]
      have e0 : twoSided y ((n : ℤ) - ((0 : ℕ) : ℤ)) = if n % 2 = 0 then 1 else 0 := by
        rw [show (n : ℤ) - ((0 : ℕ) : ℤ) = (n : ℕ) by simp, twoSided_natCast, h4 n (by omega) hnN]
      have e1 : twoSided y ((n : ℤ) - ((1 : ℕ) : ℤ)) = if n % 2 = 0 then 0 else 1 := by
        rw [show (n : ℤ) - ((1 : ℕ) : ℤ) = ((n - 1 : ℕ) : ℤ) by omega, twoSided_natCast, h4 (n - 1) (by omega) (by omega)]
        rcases Nat.mod_two_eq_zero_or_one n with h | h
        · rw [if_neg (by omega), if_pos h]
        · rw [if_pos (by omega), if_neg (by omega)]
      have e2 : twoSided y ((n : ℤ) - ((2 : ℕ) : ℤ)) = if n % 2 = 0 then 1 else 0 := by
        rw [show (n : ℤ) - ((2 : ℕ) : ℤ) = ((n - 2 : ℕ) : ℤ) by omega, twoSided_natCast, h4 (n - 2) (by omega) (by omega)]
        rw [show (n - 2) % 2 = n % 2 by omega]
      rw [show Finset.range (2 * 1 + 1) = {0, 1, 2} from rfl]
      simp only [Finset.filter_insert, Finset.filter_singleton, e0, e1, e2]
      rcases Nat.mod_two_eq_zero_or_one n with h | h
      · simp only [h, if_true]
        by_cases ht : t ≤ 1
        · by_cases ht' : t ≤ 0 <;> simp [ht, ht']
        · have ht' : ¬ t ≤ 0 := by omega
          simp [ht, ht']
      · simp only [h, one_ne_zero, if_false]
        by_cases ht : t ≤ 0
        · have ht' : t ≤ 1 := by omega
          simp [ht, ht']
        · by_cases ht' : t ≤ 1 <;> simp [ht, ht']
  obtain ⟨y, h1, h2, h3, h4⟩ := key p
  obtain ⟨z, g1, g2, g3, g4⟩ := key (p + 1)
  refine ⟨y, z, h1, by rw [rankRepeat, h1] at g1; exact g1, fun n hn hnN => ?_⟩
  rw [g4 n (by omega) hnN, h4 (n - 1) (by omega) (by omega)]
  rcases Nat.mod_two_eq_zero_or_one n with h | h
  · rw [if_pos h, if_neg (by omega)]; decide
  · rw [if_neg (by omega), if_pos (by omega)]; decide

/-- Ten samples, three medians. -/
example := C167_alternating argsortRef argsortRef_isArgsort 10 3 (by decide)

/-- Two passes more. -/
example := C167_after argsortRef argsortRef_isArgsort 1 [(5 : ℤ), 0, 5, 0, 5, 7, 7, 7, 7, 7, 7] (by simp) (by decide) 5 7 (by decide) 3 (by decide) 2

end Run

end Verif.Props
