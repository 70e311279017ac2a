import Verif.Lemmas.RoundingIir

/-
What remains in the state of an IirFilter after the signal has ended, in machine arithmetic.
-/

namespace Verif

open Finset Spec

/-- A recursion solved by its impulse response. -/
theorem recursion_solution (a : List ℝ) (h0 : at0 a 0 = 0) (N : ℕ) (w d : ℕ → ℝ) (hw : ∀ n < N, w n = d n + ∑ i ∈ range (n + 1), at0 a i * w (n - i)) :
    ∀ n < N, w n = ∑ i ∈ range (n + 1), PowerSeries.coeff i (recip a) * d (n - i) := by
  have hrec : ∀ n, (∑ i ∈ range (n + 1), PowerSeries.coeff i (recip a) * d (n - i)) =
      d n + ∑ i ∈ range (n + 1), at0 a i * (∑ j ∈ range (n - i + 1), PowerSeries.coeff j (recip a) * d (n - i - j)) := by
    intro n
    have hc : ∀ m, PowerSeries.coeff m (recip a * PowerSeries.mk d) = ∑ i ∈ range (m + 1), PowerSeries.coeff i (recip a) * d (m - i) := by
      intro m
      rw [PowerSeries.coeff_mul, Finset.Nat.sum_antidiagonal_eq_sum_range_succ_mk]
      simp
    have hW : recip a * PowerSeries.mk d = PowerSeries.mk d + ser a * (recip a * PowerSeries.mk d) := by
      have := mul_recip a h0
      linear_combination (PowerSeries.mk d) * this
    rw [← hc]
    conv_lhs => rw [hW]
    rw [map_add, PowerSeries.coeff_mk, PowerSeries.coeff_mul, Finset.Nat.sum_antidiagonal_eq_sum_range_succ_mk]
    simp only [coeff_ser, hc]
  intro n
  induction n using Nat.strong_induction_on with
  | _ n ih =>
    intro hn
    rw [hw n hn, hrec n]
    congr 1
    apply sum_congr rfl
    intro i hi
    rcases i with _ | i
    · rw [h0, zero_mul, zero_mul]
    · rw [ih (n - (i + 1)) (by have := mem_range.mp hi; omega) (by omega)]

/-- Without a signal the exact state has fallen to a quarter after a number of samples which depends on the coefficients alone. -/
theorem exact_fade (a : List ℝ) (h0 : at0 a 0 = 0) (hs : Summable fun k => |PowerSeries.coeff k (recip a)|) :
    ∃ n₀ : ℕ, 0 < n₀ ∧ ∀ (N : ℕ) (p : ℕ → ℕ → ℝ) (M : ℝ), 0 ≤ M → (∀ i < a.length, |p 0 i| ≤ M) → (∀ k < N, p (k + 1) 0 = 0) →
      (∀ k < N, 1 < a.length → p (k + 1) 1 = updateR a (p k)) → (∀ k < N, ∀ i, i + 2 < a.length → p (k + 1) (i + 2) = p k (i + 1)) →
      ∀ k, n₀ ≤ k → k ≤ N → ∀ i < a.length, |p k i| ≤ M / 4 := by
  set A := ∑ i ∈ range a.length, |at0 a i| with hA
  have hA0 : 0 ≤ A := sum_nonneg fun i _ => abs_nonneg _
  set L := a.length with hL
  have ht := hs.tendsto_atTop_zero
  set ε : ℝ := 1 / (4 * ((L + 1) * (1 + A))) with hε
  have hε0 : 0 < ε := by positivity
  obtain ⟨m, hm⟩ := (Metric.tendsto_atTop.mp ht) ε hε0
  have hm' : ∀ k, m ≤ k → |PowerSeries.coeff k (recip a)| ≤ ε := by
    intro k hk
    have := hm k hk
    rw [Real.dist_0_eq_abs, abs_abs] at this
    exact this.le
  refine ⟨m + 2 * L + 1, by omega, fun N p M hM hp h00 h1 h2 => ?_⟩
  set w : ℕ → ℝ := fun k => updateR a (p k) with hw
  have dp := delay_line a.length N p w h1 h2
  intro k hk hkN i hi
  rcases i with _ | i
  · obtain ⟨k', rfl⟩ : ∃ k', k = k' + 1 := ⟨k - 1, by omega⟩
    rw [h00 k' (by omega), abs_zero]; positivity
  rw [dp k hkN (i + 1) (by omega) hi, if_pos (by omega)]
  -- the driving term
  set d : ℕ → ℝ := fun n => p n 0 + ∑ i ∈ range a.length, at0 a i * (if i ≤ n then 0 else p n i) with hd
  have hrec : ∀ n < N, w n = d n + ∑ i ∈ range (n + 1), at0 a i * w (n - i) := by
    intro n hn
    have e1 : ∑ i ∈ range (n + 1), at0 a i * w (n - i) = ∑ i ∈ range a.length, at0 a i * (if i ≤ n then w (n - i) else 0) := by
      rw [sum_range_extend a (fun i => if i ≤ n then w (n - i) else 0) n a.length le_rfl (fun i hi _ => by simp; omega)]
      apply sum_congr rfl
      intro i hi
      rw [if_pos (by have := mem_range.mp hi; omega)]
    rw [e1, hd]
    simp only [hw, updateR]
    rw [add_assoc, ← sum_add_distrib]
    congr 1
    apply sum_congr rfl
    intro i hi
    rcases i with _ | i
    · simp [h0]
    · have := dp n hn.le (i + 1) (by omega) (mem_range.mp hi)
      by_cases h : i + 1 ≤ n
      · rw [if_pos h] at this; rw [if_pos h, if_pos h, this]; simp only [hw, updateR]; ring
      · rw [if_neg h, if_neg h]; ring
  have hsol := recursion_solution a h0 N w d hrec (k - (i + 1)) (by omega)
  have hd0 : ∀ n, n < N → L ≤ n → d n = 0 := by
    intro n hn hl
    have hn0 : 0 < n := by omega
    obtain ⟨n', rfl⟩ : ∃ n', n = n' + 1 := ⟨n - 1, by omega⟩
    simp only [hd]
    rw [h00 n' (by omega), zero_add]
    refine sum_eq_zero fun j hj => ?_
    rw [if_pos (by have := mem_range.mp hj; omega), mul_zero]
  have hdb : ∀ n, n < N → |d n| ≤ (1 + A) * M := by
    intro n hn
    simp only [hd]
    refine (abs_add_le _ _).trans ?_
    have b1 : |p n 0| ≤ M := by
      rcases n with _ | n
      · exact hp 0 (by omega)
      · rw [h00 n (by omega), abs_zero]; exact hM
    have b2 : |∑ i ∈ range a.length, at0 a i * (if i ≤ n then 0 else p n i)| ≤ A * M := by
      rw [hA, sum_mul]
      refine (abs_sum_le_sum_abs _ _).trans (sum_le_sum fun i hi => ?_)
      rw [abs_mul]
      apply mul_le_mul_of_nonneg_left _ (abs_nonneg _)
      split_ifs with h
      · simpa using hM
      · have := dp n hn.le i (by omega) (mem_range.mp hi)
        rw [if_neg h] at this
        rw [this]
        exact hp _ (by have := mem_range.mp hi; omega)
    linarith
  set n := k - (i + 1) with hn
  have hnm : m + L ≤ n := by omega
  rw [hsol]
  -- only the terms with `n - j < L` remain
  have hsub : ∑ j ∈ range (n + 1), PowerSeries.coeff j (recip a) * d (n - j) =
      ∑ j ∈ range L, PowerSeries.coeff (n - j) (recip a) * d j := by
    rw [← sum_range_reflect]
    have e1 : ∑ j ∈ range (n + 1), PowerSeries.coeff (n + 1 - 1 - j) (recip a) * d (n - (n + 1 - 1 - j)) =
        ∑ j ∈ range (n + 1), PowerSeries.coeff (n - j) (recip a) * d j := by
      apply sum_congr rfl
      intro j hj
      have := mem_range.mp hj
      rw [show n + 1 - 1 - j = n - j by omega, show n - (n - j) = j by omega]
    rw [e1]
    symm
    apply sum_subset
    · intro j; simp only [mem_range]; omega
    · intro j hj hj'
      rw [hd0 j (by have := mem_range.mp hj; omega) (by simpa using hj'), mul_zero]
  rw [hsub]
  calc |∑ j ∈ range L, PowerSeries.coeff (n - j) (recip a) * d j| ≤ ∑ j ∈ range L, ε * ((1 + A) * M) := by
        refine (abs_sum_le_sum_abs _ _).trans (sum_le_sum fun j hj => ?_)
        have := mem_range.mp hj
        rw [abs_mul]
        exact mul_le_mul (hm' _ (by omega)) (hdb j (by omega)) (abs_nonneg _) hε0.le
    _ = L * ε * ((1 + A) * M) := by rw [sum_const, card_range, nsmul_eq_mul]; ring
    _ ≤ (L + 1) * ε * ((1 + A) * M) := by
        have : 0 ≤ ε * ((1 + A) * M) := by positivity
        nlinarith
    _ = M / 4 := by rw [hε]; field_simp

section
variable {F : Type*} [Add F] [Mul F] [Dot F] [Zero F]

/-- The state in machine arithmetic next to the exact one. -/
theorem iir_state_rounding (a b : List ℝ) (hab : a.length = b.length) (ha : a ≠ []) (h0 : at0 a 0 = 0) (G : ℝ) (hG1 : 1 ≤ G) (A : ℝ) (hA : A = ∑ i ∈ range a.length, |at0 a i|)
    (val : F → ℝ) (u η : ℝ) (hF : Rounded val a.length u η) (hu : 0 ≤ u) (hu1 : u ≤ 1) (hη : 0 ≤ η) (hsmall : 6 * u * A * G ≤ 1)
    (hG : ∀ n, ∑ k ∈ range n, |PowerSeries.coeff k (recip a)| ≤ G)
    (f : Iir F) (hc : f.cast = id) (hfa : f.a.map val = a) (hfb : f.b.map val = b) (hfs : f.s.length = a.length) (x : List F) (M : ℝ) (hM : 0 ≤ M)
    (hxM : ∀ v ∈ x, |val v| ≤ M) (hsM : ∀ v ∈ f.s, |val v| ≤ M) :
    ∃ p : ℕ → ℕ → ℝ, (∀ i < a.length, |p 0 i| ≤ M) ∧ (∀ k < x.length, p (k + 1) 0 = val (at0 x k)) ∧ (∀ k < x.length, 1 < a.length → p (k + 1) 1 = updateR a (p k)) ∧
      (∀ k < x.length, ∀ i, i + 2 < a.length → p (k + 1) (i + 2) = p k (i + 1)) ∧
      ∀ k ≤ x.length, ∀ i < a.length, |p k i| ≤ G * (1 + A) * M ∧
        |val (at0 (f.iter x k).s i) - p k i| ≤ 2 * G * (u * (1 + 3 * A) * (G * (1 + A) * M) + 3 * η) := by
  have hal : f.a.length = a.length := by rw [← hfa]; simp
  have hbl : f.b.length = a.length := by rw [hab, ← hfb]; simp
  have hpos : 0 < a.length := List.length_pos_of_ne_nil ha
  have hwf : f.WF := ⟨by rw [hal, hbl], by rw [hbl, hfs], by omega⟩
  set g : Iir ℝ := Iir.mk id a b (f.s.map val) with hg
  have hgwf : g.WF := ⟨hab, by simp [hg, hfs, hab], by simp [hg]; omega⟩
  have hz := hF.zero
  set p : ℕ → ℕ → ℝ := fun k i => at0 (g.iter (x.map val) k).s i with hp
  set q : ℕ → ℕ → ℝ := fun k i => val (at0 (f.iter x k).s i) with hq
  have hav : ∀ i, val (at0 f.a i) = at0 a i := fun i => by rw [← hfa, at0_map_val val hz]
  have hmem : ∀ (l : List F), (∀ v ∈ l, |val v| ≤ M) → ∀ i, |val (at0 l i)| ≤ M := by
    intro l hl i
    by_cases hi : i < l.length
    · rw [at0_of_lt _ _ hi]; exact hl _ (List.getElem_mem hi)
    · rw [at0_of_le _ _ (by omega), hz, abs_zero]; exact hM
  have ent := fun k hk => Iir.iter_entries f hwf hc x k hk
  have ent' := fun k (hk : k < x.length) => Iir.iter_entries g hgwf rfl (x.map val) k (by simpa using hk)
  have hlen : ∀ k, (f.iter x k).s.length = a.length := by
    intro k
    obtain ⟨w1, w2, w3, w4⟩ := Iir.iter_wf f hwf x k
    rw [← w1.2.1, w3, hbl]
  have c0 : ∀ i < a.length, |p 0 i| ≤ M := fun i _ => by
      show |at0 (f.s.map val) i| ≤ M
      rw [at0_map_val val hz]; exact hmem _ hsM i
  have c1 : ∀ k < x.length, p (k + 1) 0 = val (at0 x k) := fun k hk => by
      show at0 (g.iter (x.map val) (k + 1)).s 0 = _
      rw [(ent' k hk).1, at0_map_val val hz]
  have c2 : ∀ k < x.length, 1 < a.length → p (k + 1) 1 = updateR a (p k) := fun k hk hl => by
      show at0 (g.iter (x.map val) (k + 1)).s 1 = _
      rw [(ent' k hk).2.1 hl, dot_eq_sum]; rfl
  have c3 : ∀ k < x.length, ∀ i, i + 2 < a.length → p (k + 1) (i + 2) = p k (i + 1) := fun k hk i hi => (ent' k hk).2.2 i hi
  refine ⟨p, c0, c1, c2, c3, ?_⟩
  exact perturbed_recursion a h0 G hG1 A hA x.length (fun n _ => hG n) (fun k => val (at0 x k)) p q
    (fun k => val (at0 (f.iter x k).s 0 + dot f.a (f.iter x k).s)) M u η hM hu hη hsmall (fun k _ => hmem x hxM k) c0
    (fun i => by
      show val (at0 f.s i) = at0 (f.s.map val) i
      rw [at0_map_val val hz])
    c1 c2 c3
    (fun k hk => by
      show val (at0 (f.iter x (k + 1)).s 0) = _
      rw [(ent k hk).1])
    (fun k hk hl => by
      show val (at0 (f.iter x (k + 1)).s 1) = _
      rw [(ent k hk).2.1 (by rw [hal]; exact hl)])
    (fun k hk i hi => by
      show val (at0 (f.iter x (k + 1)).s (i + 2)) = _
      rw [(ent k hk).2.2 i (by rw [hal]; exact hi)])
    (fun k hk => by
      have hd := hF.dot f.a (f.iter x k).s hal (hlen k)
      have hadd := hF.add (at0 (f.iter x k).s 0) (dot f.a (f.iter x k).s)
      simp only [hav] at hd
      set d := val (dot f.a (f.iter x k).s)
      set S := ∑ i ∈ range a.length, at0 a i * val (at0 (f.iter x k).s i) with hS
      set T := ∑ i ∈ range a.length, |at0 a i * val (at0 (f.iter x k).s i)| with hT
      exact two_roundings _ _ _ S T u η hu hu1 hη (abs_sum_le_sum_abs _ _) hadd hd)

omit [Zero F] in
theorem Iir.iter_add (f : Iir F) (x : List F) (j k : ℕ) : f.iter x (j + k) = (f.iter x j).iter (x.drop j) k := by
  unfold Iir.iter
  rw [← List.foldl_append, ← List.take_add]

/-- Without a signal the state falls exponentially to a multiple of the smallest absolute error. -/
theorem iir_state_fade (a b : List ℝ) (hab : a.length = b.length) (ha : a ≠ []) (h0 : at0 a 0 = 0) (G : ℝ) (hG1 : 1 ≤ G) (A : ℝ) (hA : A = ∑ i ∈ range a.length, |at0 a i|)
    (hG : ∀ n, ∑ k ∈ range n, |PowerSeries.coeff k (recip a)| ≤ G) (n₀ : ℕ)
    (hn₀ : ∀ (N : ℕ) (p : ℕ → ℕ → ℝ) (M : ℝ), 0 ≤ M → (∀ i < a.length, |p 0 i| ≤ M) → (∀ k < N, p (k + 1) 0 = 0) →
      (∀ k < N, 1 < a.length → p (k + 1) 1 = updateR a (p k)) → (∀ k < N, ∀ i, i + 2 < a.length → p (k + 1) (i + 2) = p k (i + 1)) →
      ∀ k, n₀ ≤ k → k ≤ N → ∀ i < a.length, |p k i| ≤ M / 4)
    (val : F → ℝ) (u η : ℝ) (hF : Rounded val a.length u η) (hu : 0 ≤ u) (hu1 : u ≤ 1) (hη : 0 ≤ η) (hsmall : 6 * u * A * G ≤ 1)
    (hsmall' : 8 * G * (u * (1 + 3 * A) * (G * (1 + A))) ≤ 1) (x : List F) (hx : ∀ v ∈ x, val v = 0) (M : ℝ) (hM : 0 ≤ M) (j : ℕ) :
    ∀ (f : Iir F), f.cast = id → f.a.map val = a → f.b.map val = b → f.s.length = a.length → (∀ v ∈ f.s, |val v| ≤ M) →
      ∀ k, j * n₀ ≤ k → k ≤ x.length → ∀ i, |val (at0 (f.iter x k).s i)| ≤ (1 / 2) ^ j * (G * (1 + A) * M + M) + (12 * G + 12 * G * (G * (1 + A))) * η := by
  have hz := hF.zero
  have hpos : 0 < a.length := List.length_pos_of_ne_nil ha
  have hA0 : 0 ≤ A := hA ▸ sum_nonneg fun i _ => abs_nonneg _
  have hlenk : ∀ (f : Iir F), f.a.map val = a → f.b.map val = b → f.s.length = a.length → f.WF := by
    intro f hfa hfb hfs
    have hal : f.a.length = a.length := by rw [← hfa]; simp
    have hbl : f.b.length = a.length := by rw [hab, ← hfb]; simp
    exact ⟨by rw [hal, hbl], by rw [hbl, hfs], by omega⟩
  have hslen : ∀ (f : Iir F) (x : List F) (k : ℕ), f.a.map val = a → f.b.map val = b → f.s.length = a.length → (f.iter x k).s.length = a.length := by
    intro f x k hfa hfb hfs
    obtain ⟨w1, w2, w3, w4⟩ := Iir.iter_wf f (hlenk f hfa hfb hfs) x k
    rw [← w1.2.1, w3, hab, ← hfb, List.length_map]
  -- one block
  have block : ∀ (x : List F), (∀ v ∈ x, val v = 0) → ∀ (M : ℝ), 0 ≤ M → ∀ (f : Iir F), f.cast = id → f.a.map val = a → f.b.map val = b → f.s.length = a.length →
      (∀ v ∈ f.s, |val v| ≤ M) → ∀ k ≤ x.length, ∀ i, |val (at0 (f.iter x k).s i)| ≤ G * (1 + A) * M + M / 4 + 6 * G * η ∧
        (n₀ ≤ k → |val (at0 (f.iter x k).s i)| ≤ M / 2 + 6 * G * η) := by
    intro x hx M hM f hc hfa hfb hfs hsM k hk i
    by_cases hi : i < a.length
    · obtain ⟨p, p0, p1, p2, p3, p4⟩ := iir_state_rounding a b hab ha h0 G hG1 A hA val u η hF hu hu1 hη hsmall hG f hc hfa hfb hfs x M hM
        (fun v hv => by rw [hx v hv, abs_zero]; exact hM) hsM
      have h := p4 k hk i hi
      have hE : 2 * G * (u * (1 + 3 * A) * (G * (1 + A) * M) + 3 * η) ≤ M / 4 + 6 * G * η := by
        have := mul_le_mul_of_nonneg_right hsmall' hM
        nlinarith
      have h3 := abs_sub_abs_le_abs_sub (val (at0 (f.iter x k).s i)) (p k i)
      refine ⟨by linarith, fun hkn => ?_⟩
      have hf := hn₀ x.length p M hM p0 (fun k hk => by
        rw [p1 k hk, at0_of_lt _ _ hk]; exact hx _ (List.getElem_mem _)) p2 p3 k hkn hk i hi
      linarith
    · rw [at0_of_le _ _ (by rw [hslen f x k hfa hfb hfs]; omega), hz, abs_zero]
      have : 0 ≤ G := by linarith
      exact ⟨by positivity, fun _ => by positivity⟩
  -- the states at the ends of the blocks
  have blocks : ∀ (j : ℕ) (f : Iir F), f.cast = id → f.a.map val = a → f.b.map val = b → f.s.length = a.length → (∀ v ∈ f.s, |val v| ≤ M) →
      ∀ k, j * n₀ ≤ k → k ≤ x.length → j ≠ 0 → ∀ i, |val (at0 (f.iter x k).s i)| ≤ (1 / 2) ^ j * M + 12 * G * η := by
    intro j
    induction j with
    | zero => intro f _ _ _ _ _ k _ _ h; exact absurd rfl h
    | succ j ih =>
      intro f hc hfa hfb hfs hsM k hk hkx _ i
      have hG0 : 0 ≤ G := by linarith
      rcases Nat.eq_zero_or_pos j with rfl | hj
      · have := (block x hx M hM f hc hfa hfb hfs hsM k hkx i).2 (by simpa using hk)
        have h2 : 0 ≤ 6 * G * η := by positivity
        rw [zero_add, pow_one]
        linarith
      · have hjk : j * n₀ ≤ k := by nlinarith
        have hM' : ∀ v ∈ (f.iter x (j * n₀)).s, |val v| ≤ (1 / 2) ^ j * M + 12 * G * η := by
          intro v hv
          obtain ⟨m, hm, rfl⟩ := List.mem_iff_getElem.mp hv
          rw [← at0_of_lt _ _ hm]
          exact ih f hc hfa hfb hfs hsM (j * n₀) le_rfl (hjk.trans hkx) hj.ne' m
        obtain ⟨w1, w2, w3, w4⟩ := Iir.iter_wf f (hlenk f hfa hfb hfs) x (j * n₀)
        have hb := (block (x.drop (j * n₀)) (fun v hv => hx v (List.mem_of_mem_drop hv)) ((1 / 2) ^ j * M + 12 * G * η) (by positivity) (f.iter x (j * n₀)) (w4.trans hc)
          (by rw [w2]; exact hfa) (by rw [w3]; exact hfb) (hslen f x _ hfa hfb hfs) hM' (k - j * n₀) (by simp; omega) i).2 (by
            have : (j + 1) * n₀ = j * n₀ + n₀ := by ring
            omega)
        rw [← Iir.iter_add, show j * n₀ + (k - j * n₀) = k by omega] at hb
        refine hb.trans (le_of_eq ?_)
        rw [pow_succ]; ring
  intro f hc hfa hfb hfs hsM k hk hkx i
  have hG0 : 0 ≤ G := by linarith
  rcases Nat.eq_zero_or_pos j with rfl | hj
  · have := (block x hx M hM f hc hfa hfb hfs hsM k hkx i).1
    have h1 : 0 ≤ 6 * G * η := by positivity
    have h2 : 0 ≤ 12 * G * (G * (1 + A)) * η := by positivity
    rw [pow_zero, one_mul]
    nlinarith
  · have := blocks j f hc hfa hfb hfs hsM k hk hkx hj.ne' i
    have h1 : 0 ≤ (1 / 2 : ℝ) ^ j * (G * (1 + A) * M) := by positivity
    have h2 : 0 ≤ 12 * G * (G * (1 + A)) * η := by positivity
    nlinarith

end

end Verif
