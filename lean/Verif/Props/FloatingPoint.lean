import Verif.Lemmas.FloatingPoint
import Verif.Props.Rounding

/-
Property C159: FirFilter (diamondback/filters/fir_filter.py) and IirFilter (diamondback/filters/iir_filter.py) in binary floating point with round to nearest and gradual
underflow, dot products computed in any order, with or without fused multiplication and addition.
-/

namespace Verif.Props

open Finset Spec

variable {p : ℕ} {e : ℤ} {ρ : Nearest p e} {t : ℕ → DotOrder}

theorem map_indices_sum (ht : Complete t) (n : ℕ) (hn : 0 < n) (q : ℕ → ℝ) : ((t n).indices.map q).sum = ∑ i ∈ range n, q i := by
  rw [((ht n hn).map q).sum_eq]; rfl

/-- C159.  Rounding to the nearest number exists for every precision: round to nearest, ties to even. -/
theorem C159_nearest (p : ℕ) (hp : 0 < p) (e : ℤ) : ∃ ρ : Nearest p e, ∀ x : ℝ, ∃ m k : ℤ, ρ.fl x = m * 2 ^ k ∧ e ≤ k ∧ |m| ≤ 2 ^ p ∧ |x - m * 2 ^ k| ≤ 2 ^ k / 2 ∧
    (|x - m * 2 ^ k| = 2 ^ k / 2 → Even m) := by
  refine ⟨ieee p hp e, fun x => ?_⟩
  have hP : (0 : ℝ) < 2 ^ lastDigit p e x := by positivity
  obtain ⟨h1, h2⟩ := np.round_spec (x / 2 ^ lastDigit p e x)
  have e1 : |x - np.round (x / 2 ^ lastDigit p e x) * 2 ^ lastDigit p e x| = |x / 2 ^ lastDigit p e x - np.round (x / 2 ^ lastDigit p e x)| * 2 ^ lastDigit p e x := by
    rw [← abs_of_pos hP, ← abs_mul, abs_of_pos hP, sub_mul, div_mul_cancel₀ _ hP.ne']
  refine ⟨np.round (x / 2 ^ lastDigit p e x), lastDigit p e x, rfl, le_max_right _ _, ?_, ?_, ?_⟩
  · exact np_round_le p e x
  · rw [e1]; nlinarith
  · intro h
    refine h2 ?_
    rw [e1] at h
    have : |x / 2 ^ lastDigit p e x - np.round (x / 2 ^ lastDigit p e x)| * 2 ^ lastDigit p e x = 1 / 2 * 2 ^ lastDigit p e x := by rw [h]; ring
    exact mul_right_cancel₀ hP.ne' this

/-- The precision of doubles. -/
example := C159_nearest 53 (by norm_num) (-1074)

/-- C159.  The error of one rounding is half a unit of the last place: relative to the number at most `2^-p`, or `2^(e-1)` for tiny numbers. -/
theorem C159_error (ρ : Nearest p e) (x : ℝ) : |ρ.fl x - x| ≤ max ((1 / 2) ^ p * |x|) (2 ^ (e - 1)) := ρ.error_max x

/-- C159.  The arithmetic satisfies what C78, C79 and C111 assume, whatever the order of summation: a dot product of `n` terms has a relative error of at most
`(1 + 2^-p)^n - 1` and an absolute one of at most `n (1 + 2^-p)^n 2^(e-1)`. -/
theorem C159_rounded (ρ : Nearest p e) (t : ℕ → DotOrder) (ht : Complete t) (n : ℕ) (hn : 0 < n) :
    Rounded (Machine.val (ρ := ρ) (t := t)) n ((1 + (1 / 2) ^ p) ^ n - 1) (n * (1 + (1 / 2) ^ p) ^ n * 2 ^ (e - 1)) := by
  have hδ : (0 : ℝ) < 2 ^ (e - 1) := by positivity
  have hε : (0 : ℝ) < (1 / 2) ^ p := by positivity
  have h1 : (1 / 2 : ℝ) ^ p ≤ (1 + (1 / 2) ^ p) ^ n - 1 := by
    have : (1 + (1 / 2 : ℝ) ^ p) ^ 1 ≤ (1 + (1 / 2) ^ p) ^ n := pow_le_pow_right₀ (by linarith) hn
    linarith
  have h2 : (2 : ℝ) ^ (e - 1) ≤ n * (1 + (1 / 2) ^ p) ^ n * 2 ^ (e - 1) := by
    refine le_mul_of_one_le_left hδ.le ?_
    have a1 : (1 : ℝ) ≤ n := by exact_mod_cast hn
    have a2 : (1 : ℝ) ≤ (1 + (1 / 2) ^ p) ^ n := one_le_pow₀ (by linarith)
    nlinarith
  refine ⟨rfl, fun x y => ?_, fun x y => ?_, fun a b ha hb => ?_⟩
  · show |ρ.fl (x.val + y.val) - (x.val + y.val)| ≤ _
    refine (ρ.error_grid _ (x.float.onGrid.add y.float.onGrid)).trans ?_
    have a1 := abs_add_le x.val y.val
    have a2 := mul_le_mul_of_nonneg_left a1 hε.le
    have a3 := mul_le_mul_of_nonneg_right h1 (by positivity : (0 : ℝ) ≤ |x.val| + |y.val|)
    linarith
  · show |ρ.fl (x.val * y.val) - (x.val * y.val)| ≤ _
    refine (ρ.error _).trans (add_le_add ?_ h2)
    exact mul_le_mul_of_nonneg_right h1 (abs_nonneg _)
  · have h := DotOrder.error ρ (fun i => (at0 a i).val * (at0 b i).val) (t n)
    rw [map_indices_sum ht n hn, map_indices_sum ht n hn, show (t n).indices.length = n by simpa using (ht n hn).length_eq] at h
    show |(t a.length).eval ρ.fl (fun i => (at0 a i).val * (at0 b i).val) - _| ≤ _
    rw [ha]
    exact h

theorem pow_one_add_le (n : ℕ) (ε : ℝ) (hε : 0 ≤ ε) (h : n * ε ≤ 1) : (1 + ε) ^ n - 1 ≤ n * ε + (n * ε) ^ 2 := by
  induction n with
  | zero => simp
  | succ n ih =>
    push_cast at h ⊢
    have hn : (0 : ℝ) ≤ n := Nat.cast_nonneg n
    have := ih (by nlinarith)
    rw [pow_succ]
    have h3 : (1 + ε) ^ n ≤ 1 + n * ε + (n * ε) ^ 2 := by linarith
    have h4 := mul_le_mul_of_nonneg_right h3 (by linarith : (0 : ℝ) ≤ 1 + ε)
    have h5 : n * ε * (n * ε) * ε ≤ n * ε * ε := by
      have : 0 ≤ n * ε * ε := by positivity
      have : n * ε ≤ 1 := by nlinarith
      nlinarith
    nlinarith [mul_nonneg hε hε]

theorem half_step (k : ℕ) : (2 : ℝ) ^ (-(k : ℤ) - 1) = (1 / 2) ^ k * (1 / 2) := by
  rw [← pow_succ, one_div, inv_pow, ← zpow_natCast, ← zpow_neg]
  congr 1
  push_cast
  ring

/-- C159.  FirFilter in binary64 with up to 2^26 coefficients: the error is at most `(n + 1) 2^-53` times the same sum of absolute values, plus `n 2^-1074`. -/
theorem C159_fir_double (ρ : Nearest 53 (-1074)) (t : ℕ → DotOrder) (ht : Complete t) (b : List (Machine ρ t)) (s : Option (List (Machine ρ t))) (x : List (Machine ρ t))
    (hb : b ≠ []) (hx : x ≠ []) (N : ℕ) (hN : max b.length (s.getD []).length = N) (hN' : N ≤ 2 ^ 26) :
    ∃ f y f', Fir.new id b s = .ok f ∧ f.filter x = (.ok y, f') ∧ y.length = x.length ∧ ∀ n < x.length,
      |(at0 y n).val - (conv (b.map (·.val)) (x.map (·.val)) n + tail (b.map (·.val)) ((s.getD []).map (·.val)) n)| ≤
        (N + 1) * (1 / 2) ^ 53 * (conv (b.map (|·.val|)) (x.map (|·.val|)) n + tail (b.map (|·.val|)) ((s.getD []).map (|·.val|)) n) + N * (1 / 2) ^ 1074 := by
  have hpos : 0 < N := by
    have : 0 < b.length := List.length_pos_iff.mpr hb
    omega
  have hF := C159_rounded ρ t ht N hpos
  rw [← hN] at hF
  obtain ⟨f, y, f', h1, h2, h3, h4⟩ := C78_fir_rounding Machine.val _ _ b s x hF hb hx
  refine ⟨f, y, f', h1, h2, h3, fun n hn => (h4 n hn).trans ?_⟩
  rw [hN]
  have hNr : (N : ℝ) ≤ 2 ^ 26 := by exact_mod_cast hN'
  have hN0 : (0 : ℝ) ≤ N := Nat.cast_nonneg N
  have hs := pow_one_add_le N ((1 / 2) ^ 53) (by positivity) (by
    calc (N : ℝ) * (1 / 2) ^ 53 ≤ 2 ^ 26 * (1 / 2) ^ 53 := by gcongr
      _ ≤ 1 := by norm_num)
  have hq : ((N : ℝ) * (1 / 2) ^ 53) ^ 2 ≤ (1 / 2) ^ 53 := by
    calc ((N : ℝ) * (1 / 2) ^ 53) ^ 2 ≤ (2 ^ 26 * (1 / 2) ^ 53) ^ 2 := by gcongr
      _ ≤ (1 / 2) ^ 53 := by norm_num
  have hu : (1 + (1 / 2 : ℝ) ^ 53) ^ N - 1 ≤ (N + 1) * (1 / 2) ^ 53 := by linarith
  have hu2 : (1 + (1 / 2 : ℝ) ^ 53) ^ N ≤ 2 := by
    have : ((N : ℝ) + 1) * (1 / 2) ^ 53 ≤ (2 ^ 26 + 1) * (1 / 2) ^ 53 := by gcongr
    have h3 : ((2 : ℝ) ^ 26 + 1) * (1 / 2) ^ 53 ≤ 1 := by norm_num
    linarith
  have hc : 0 ≤ conv (b.map (|·.val|)) (x.map (|·.val|)) n + tail (b.map (|·.val|)) ((s.getD []).map (|·.val|)) n := by
    have h0 : ∀ (l : List (Machine ρ t)) i, 0 ≤ at0 (l.map (|·.val|)) i := by
      intro l i
      rw [at0_map_val (fun v : Machine ρ t => |v.val|) (by show |(0 : ℝ)| = 0; simp)]
      exact abs_nonneg _
    refine add_nonneg (sum_nonneg fun i _ => mul_nonneg (h0 _ _) (h0 _ _)) (sum_nonneg fun i _ => ?_)
    split
    · exact mul_nonneg (h0 _ _) (h0 _ _)
    · exact le_rfl
  refine add_le_add (mul_le_mul_of_nonneg_right hu hc) ?_
  have e1 : (2 : ℝ) ^ ((-1074 : ℤ) - 1) = (1 / 2) ^ 1074 * (1 / 2) := half_step 1074
  rw [e1]
  have h0 : (0 : ℝ) < (1 / 2) ^ 1074 := by positivity
  have h5 := mul_le_mul_of_nonneg_left hu2 hN0
  calc (N : ℝ) * (1 + (1 / 2) ^ 53) ^ N * ((1 / 2) ^ 1074 * (1 / 2)) ≤ N * 2 * ((1 / 2) ^ 1074 * (1 / 2)) := mul_le_mul_of_nonneg_right h5 (by positivity)
    _ = N * (1 / 2) ^ 1074 := by generalize ((1 / 2) ^ 1074 : ℝ) = d; ring

/-- C159.  As the precision grows the floating point filter approaches the exact one, uniformly over all signals and states bounded by `M`, for stable coefficients. -/
theorem C159_iir_limit (a b : List ℝ) (hab : a.length = b.length) (ha : a ≠ []) (h0 : at0 a 0 = 0) (hst : Stable a) :
    ∃ (K : ℝ) (p₀ : ℕ) (e₀ : ℤ), ∀ (p : ℕ) (e : ℤ), p₀ ≤ p → e ≤ e₀ → ∀ (ρ : Nearest p e) (t : ℕ → DotOrder), Complete t →
      ∀ f : Iir (Machine ρ t), f.cast = id → f.a.map (·.val) = a → f.b.map (·.val) = b → f.s.length = a.length →
      ∀ (x : List (Machine ρ t)) (M : ℝ), x ≠ [] → (∀ v ∈ x, |v.val| ≤ M) → (∀ v ∈ f.s, |v.val| ≤ M) →
        ∃ y f' z g', f.filter x = (.ok y, f') ∧ (Iir.mk id a b (f.s.map (·.val))).filter (x.map (·.val)) = (.ok z, g') ∧
          y.length = x.length ∧ z.length = x.length ∧ ∀ n < x.length, |(at0 y n).val - at0 z n| ≤ K * ((1 / 2) ^ p * M + 2 ^ e * (1 + M)) := by
  obtain ⟨K, u₀, hu₀, hK⟩ := C79_iir_rounding a b hab ha h0 hst
  set N := a.length with hN
  have hpos : 0 < N := List.length_pos_iff.mpr ha
  obtain ⟨p₀, hp₀⟩ := exists_pow_lt_of_lt_one (show (0 : ℝ) < u₀ / 2 ^ N by positivity) (by norm_num : (1 / 2 : ℝ) < 1)
  refine ⟨|K| * (2 ^ N + N * 2 ^ N), p₀, -(2 * N : ℕ), fun p e hp he ρ t ht f hc hfa hfb hfs x M hx hxM hsM => ?_⟩
  have hε : (0 : ℝ) < (1 / 2) ^ p := by positivity
  have hε1 : (1 / 2 : ℝ) ^ p ≤ 1 := pow_le_one₀ (by norm_num) (by norm_num)
  have hM : 0 ≤ M := by
    obtain ⟨v, hv⟩ := List.exists_mem_of_ne_nil x hx
    exact (abs_nonneg _).trans (hxM v hv)
  have hconv : ∀ n : ℕ, (1 + (1 / 2 : ℝ) ^ p) ^ n - 1 ≤ 2 ^ n * (1 / 2) ^ p := by
    intro n
    induction n with
    | zero => simp
    | succ n ih =>
      rw [pow_succ, pow_succ]
      have h1 : (1 + (1 / 2 : ℝ) ^ p) ^ n ≤ 2 ^ n := pow_le_pow_left₀ (by linarith) (by linarith) n
      have h2 := mul_le_mul_of_nonneg_right h1 hε.le
      linarith
  have hu : (1 + (1 / 2 : ℝ) ^ p) ^ N - 1 ≤ u₀ := by
    refine (hconv N).trans ?_
    have h1 : (1 / 2 : ℝ) ^ p ≤ (1 / 2) ^ p₀ := pow_le_pow_of_le_one (by norm_num) (by norm_num) hp
    have h2 : (1 / 2 : ℝ) ^ p ≤ u₀ / 2 ^ N := h1.trans hp₀.le
    rw [le_div_iff₀ (by positivity)] at h2
    linarith
  have hpow : (1 + (1 / 2 : ℝ) ^ p) ^ N ≤ 2 ^ N := pow_le_pow_left₀ (by linarith) (by linarith) N
  have hδ : (2 : ℝ) ^ (e - 1) ≤ 2 ^ e := zpow_le_zpow_right₀ (by norm_num) (by omega)
  have hη : (N : ℝ) * (1 + (1 / 2) ^ p) ^ N * 2 ^ (e - 1) ≤ N * 2 ^ N * 2 ^ e := by gcongr
  have hη1 : (N : ℝ) * (1 + (1 / 2) ^ p) ^ N * 2 ^ (e - 1) ≤ 1 := by
    refine hη.trans ?_
    have h1 : (2 : ℝ) ^ e ≤ 2 ^ (-((2 * N : ℕ) : ℤ)) := zpow_le_zpow_right₀ (by norm_num) he
    have h2 : (N : ℝ) ≤ 2 ^ N := by exact_mod_cast Nat.lt_two_pow_self.le
    rw [zpow_neg, zpow_natCast, two_mul, pow_add] at h1
    calc (N : ℝ) * 2 ^ N * 2 ^ e ≤ 2 ^ N * 2 ^ N * (2 ^ N * 2 ^ N)⁻¹ := by gcongr
      _ = 1 := mul_inv_cancel₀ (by positivity)
  obtain ⟨y, f', z, g', k1, k2, k3, k4, k5⟩ := hK (Machine ρ t) Machine.val _ _ (C159_rounded ρ t ht N hpos)
    (by linarith [one_le_pow₀ (by linarith : (1 : ℝ) ≤ 1 + (1 / 2) ^ p) (n := N)]) hu (by positivity) hη1 f hc hfa hfb hfs x M hx hxM hsM
  refine ⟨y, f', z, g', k1, k2, k3, k4, fun n hn => (k5 n hn).trans ?_⟩
  have hA : ((1 + (1 / 2 : ℝ) ^ p) ^ N - 1) * M + N * (1 + (1 / 2) ^ p) ^ N * 2 ^ (e - 1) * (1 + M) ≤
      (2 ^ N + N * 2 ^ N) * ((1 / 2) ^ p * M + 2 ^ e * (1 + M)) := by
    have h1 := mul_le_mul_of_nonneg_right (hconv N) hM
    have h2 := mul_le_mul_of_nonneg_right hη (by linarith : 0 ≤ 1 + M)
    have h3 : (0 : ℝ) ≤ N * 2 ^ N * ((1 / 2) ^ p * M) := by positivity
    have h4 : (0 : ℝ) ≤ 2 ^ N * (2 ^ e * (1 + M)) := by positivity
    linarith
  have hA0 : 0 ≤ ((1 + (1 / 2 : ℝ) ^ p) ^ N - 1) * M + N * (1 + (1 / 2) ^ p) ^ N * 2 ^ (e - 1) * (1 + M) := by
    have := one_le_pow₀ (by linarith : (1 : ℝ) ≤ 1 + (1 / 2) ^ p) (n := N)
    have h1 : 0 ≤ ((1 + (1 / 2 : ℝ) ^ p) ^ N - 1) * M := mul_nonneg (by linarith) hM
    positivity
  calc K * _ ≤ |K| * (((1 + (1 / 2 : ℝ) ^ p) ^ N - 1) * M + N * (1 + (1 / 2) ^ p) ^ N * 2 ^ (e - 1) * (1 + M)) :=
        mul_le_mul_of_nonneg_right (le_abs_self K) hA0
    _ ≤ |K| * ((2 ^ N + N * 2 ^ N) * ((1 / 2) ^ p * M + 2 ^ e * (1 + M))) := mul_le_mul_of_nonneg_left hA (abs_nonneg K)
    _ = _ := by ring

/-- The window of samples behind an output of FirFilter. -/
theorem fir_window {F : Type*} [Dot F] [Zero F] (b : List F) (s : Option (List F)) (x : List F) (hb : b ≠ []) (hx : x ≠ []) :
    ∃ f y f', Fir.new id b s = .ok f ∧ f.filter x = (.ok y, f') ∧ y.length = x.length ∧ ∀ n < x.length, ∃ c w : List F,
      at0 y n = dot c w ∧ c.length = max b.length (s.getD []).length ∧ w.length = max b.length (s.getD []).length ∧ (∀ i, at0 c i = at0 b i) ∧
      ∀ i < max b.length (s.getD []).length, at0 w i = if n < i then at0 (s.getD []) (i - n - 1) else at0 x (n - i) := by
  obtain ⟨f, h1, hwf, hc, hfb, hfs⟩ := Fir.new_spec id b s hb
  obtain ⟨y, h2, h3, h4⟩ := Fir.filter_wf f hwf x hx
  refine ⟨f, y, _, h1, h2, h3, fun n hn => ⟨f.b, ((x.take (n + 1)).reverse ++ f.s).take f.b.length, ?_, ?_, ?_, ?_, ?_⟩⟩
  · have := h4 n hn
    rw [hc] at this
    simp only [List.map_id, id] at this
    unfold at0
    rw [List.getD_eq_getElem?_getD, this]; rfl
  · rw [hfb]; simp [padTo]
  · have hbl : f.b.length = max b.length (s.getD []).length := by rw [hfb]; simp [padTo]
    have hsl : f.s.length = max b.length (s.getD []).length := by rw [← hwf.1, hbl]
    simp [hbl, hsl]
  · intro i; rw [hfb, at0_padTo]
  · intro i hi
    have hbl : f.b.length = max b.length (s.getD []).length := by rw [hfb]; simp [padTo]
    rw [hbl, at0_window x f.s n i _ hn hi, hfs, List.map_id, at0_padTo]

/-- The sum over the window is the convolution. -/
theorem fir_window_sum (b s x : List ℝ) (L n : ℕ) (hL : b.length ≤ L) (hn : n < x.length) :
    ∑ i ∈ range L, at0 b i * (if n < i then at0 s (i - n - 1) else at0 x (n - i)) = conv b x n + tail b s n := by
  rw [← dot_window b x s n L hL hn, dot_eq_sum]
  symm
  rw [← sum_subset (s₁ := range b.length) (s₂ := range L)]
  · apply sum_congr rfl
    intro i hi
    rw [at0_window x s n i L hn (by simp at hi; omega)]
  · intro i; simp; omega
  · intro i _ hi
    rw [at0_of_le b i (by simpa using hi), zero_mul]

theorem val_zero : (0 : Machine ρ t).val = 0 := rfl

theorem at0_val (l : List (Machine ρ t)) (i : ℕ) : at0 (l.map (·.val)) i = (at0 l i).val := at0_map_val _ val_zero l i

theorem at0_mem {F : Type*} [Zero F] (P : F → Prop) (h0 : P 0) (l : List F) (h : ∀ v ∈ l, P v) (i : ℕ) : P (at0 l i) := by
  by_cases hi : i < l.length
  · rw [at0_of_lt _ _ hi]; exact h _ (List.getElem_mem _)
  · rw [at0_of_le _ _ (by omega)]; exact h0

theorem sum_abs_list (b : List (Machine ρ t)) (L : ℕ) (hL : b.length ≤ L) : ∑ i ∈ range L, |(at0 b i).val| = (b.map (|·.val|)).sum := by
  rw [← sum_subset (s₁ := range b.length) (s₂ := range L)]
  · rw [← Fin.sum_univ_eq_sum_range (fun i => |(at0 b i).val|), ← List.sum_ofFn]
    congr 1
    apply List.ext_getElem
    · simp
    · intro i h1 h2
      simp at h1 h2
      simp [at0_of_lt _ _ h1]
  · intro i; simp; omega
  · intro i _ hi
    rw [at0_of_le b i (by simpa using hi), val_zero, abs_zero]

theorem sum_abs_mul_le (b w : List (Machine ρ t)) (A : ℝ) (hA : 0 ≤ A) (hw : ∀ v ∈ w, |v.val| ≤ A) (L : ℕ) (hL : b.length ≤ L) :
    ∑ i ∈ range L, |(at0 b i).val * (at0 w i).val| ≤ (b.map (|·.val|)).sum * A := by
  rw [← sum_abs_list b L hL, sum_mul]
  refine sum_le_sum fun i _ => ?_
  rw [abs_mul]
  exact mul_le_mul_of_nonneg_left (at0_mem (fun v : Machine ρ t => |v.val| ≤ A) (by simpa [val_zero] using hA) w hw i) (abs_nonneg _)

/-- An exact dot product. -/
theorem dot_exact (ht : Complete t) (b w : List (Machine ρ t)) (j k : ℤ) (hjk : e ≤ j + k) (L : ℕ) (hb : b.length = L) (hL : 0 < L)
    (hbg : ∀ v ∈ b, OnGrid j v.val) (hwg : ∀ v ∈ w, OnGrid k v.val) (h : ∑ i ∈ range L, |(at0 b i).val * (at0 w i).val| ≤ 2 ^ ((p : ℤ) + (j + k))) :
    (dot b w).val = ∑ i ∈ range L, (at0 b i).val * (at0 w i).val ∧ OnGrid (j + k) (dot b w).val := by
  have hx := DotOrder.exact ρ hjk (fun i => (at0 b i).val * (at0 w i).val) (t L)
    (fun i _ => (at0_mem (fun v : Machine ρ t => OnGrid j v.val) (OnGrid.zero j) b hbg i).mul (at0_mem (fun v : Machine ρ t => OnGrid k v.val) (OnGrid.zero k) w hwg i))
    (by rw [map_indices_sum ht L hL]; exact h)
  rw [map_indices_sum ht L hL] at hx
  have e1 : (dot b w).val = (t L).eval ρ.fl (fun i => (at0 b i).val * (at0 w i).val) := by
    show (t b.length).eval ρ.fl _ = _
    rw [hb]
  rw [e1, hx.1]
  exact ⟨rfl, hx.2⟩

/-- C159.  No rounding error at all: coefficients which are multiples of `2^j`, samples and state multiples of `2^k`, bounded by `A`.  As long as
`A` times the absolute sum of the coefficients is at most `2^(p+j+k)` the output of FirFilter is the exact convolution, in whatever order the terms are summed. -/
theorem C159_fir_exact (ρ : Nearest p e) (t : ℕ → DotOrder) (ht : Complete t) (b : List (Machine ρ t)) (s : Option (List (Machine ρ t))) (x : List (Machine ρ t))
    (hb : b ≠ []) (hx : x ≠ []) (j k : ℤ) (hjk : e ≤ j + k) (A : ℝ) (hbg : ∀ v ∈ b, OnGrid j v.val) (hxg : ∀ v ∈ x, OnGrid k v.val ∧ |v.val| ≤ A)
    (hsg : ∀ v ∈ s.getD [], OnGrid k v.val ∧ |v.val| ≤ A) (h : (b.map (|·.val|)).sum * A ≤ 2 ^ ((p : ℤ) + (j + k))) :
    ∃ f y f', Fir.new id b s = .ok f ∧ f.filter x = (.ok y, f') ∧ y.length = x.length ∧ ∀ n < x.length,
      (at0 y n).val = conv (b.map (·.val)) (x.map (·.val)) n + tail (b.map (·.val)) ((s.getD []).map (·.val)) n := by
  obtain ⟨f, y, f', h1, h2, h3, h4⟩ := fir_window b s x hb hx
  refine ⟨f, y, f', h1, h2, h3, fun n hn => ?_⟩
  obtain ⟨c, w, hy, hcl, hwl, hci, hwi⟩ := h4 n hn
  set L := max b.length (s.getD []).length with hLd
  have hLb : b.length ≤ L := le_max_left _ _
  have hL0 : 0 < L := lt_of_lt_of_le (List.length_pos_iff.mpr hb) hLb
  have hA : 0 ≤ A := by
    obtain ⟨v, hv⟩ := List.exists_mem_of_ne_nil x hx
    exact (abs_nonneg _).trans (hxg v hv).2
  have hP0 : OnGrid k (0 : Machine ρ t).val ∧ |(0 : Machine ρ t).val| ≤ A := ⟨OnGrid.zero k, by simpa [val_zero] using hA⟩
  have hw : ∀ v ∈ w, OnGrid k v.val ∧ |v.val| ≤ A := by
    intro v hv
    obtain ⟨i, hi, rfl⟩ := List.mem_iff_getElem.mp hv
    rw [← at0_of_lt w i hi, hwi i (by omega)]
    split
    · exact at0_mem (fun v : Machine ρ t => OnGrid k v.val ∧ |v.val| ≤ A) hP0 _ hsg _
    · exact at0_mem (fun v : Machine ρ t => OnGrid k v.val ∧ |v.val| ≤ A) hP0 _ hxg _
  have hcg : ∀ v ∈ c, OnGrid j v.val := by
    intro v hv
    obtain ⟨i, hi, rfl⟩ := List.mem_iff_getElem.mp hv
    rw [← at0_of_lt c i hi, hci i]
    exact at0_mem (fun v : Machine ρ t => OnGrid j v.val) (OnGrid.zero j) b hbg i
  have hsum : ∑ i ∈ range L, |(at0 c i).val * (at0 w i).val| ≤ 2 ^ ((p : ℤ) + (j + k)) := by
    simp only [hci]
    exact (sum_abs_mul_le b w A hA (fun v hv => (hw v hv).2) L hLb).trans h
  rw [hy, (dot_exact ht c w j k hjk L hcl hL0 hcg (fun v hv => (hw v hv).1) hsum).1, ← fir_window_sum _ _ _ L n (by simpa using hLb) (by simpa using hn)]
  apply sum_congr rfl
  intro i hi
  rw [hci, hwi i (mem_range.mp hi), at0_val, at0_val, at0_val]
  split <;> rfl

/-- C159.  Rounding keeps order: with non-negative coefficients, raising samples or states never lowers an output of FirFilter, rounding errors included. -/
theorem C159_fir_monotone (ρ : Nearest p e) (t : ℕ → DotOrder) (ht : Complete t) (b : List (Machine ρ t)) (s s' x x' : List (Machine ρ t)) (hb : b ≠ []) (hx : x ≠ [])
    (hl : s.length = s'.length) (hl' : x.length = x'.length) (hb0 : ∀ v ∈ b, 0 ≤ v.val) (hs : ∀ i, (at0 s i).val ≤ (at0 s' i).val)
    (hxx : ∀ i, (at0 x i).val ≤ (at0 x' i).val) :
    ∃ f y f' g z g', Fir.new id b (some s) = .ok f ∧ f.filter x = (.ok y, f') ∧ Fir.new id b (some s') = .ok g ∧ g.filter x' = (.ok z, g') ∧
      y.length = x.length ∧ z.length = x.length ∧ ∀ n < x.length, (at0 y n).val ≤ (at0 z n).val := by
  have hx' : x' ≠ [] := by rintro rfl; simp at hl'; exact hx hl'
  obtain ⟨f, y, f', h1, h2, h3, h4⟩ := fir_window b (some s) x hb hx
  obtain ⟨g, z, g', k1, k2, k3, k4⟩ := fir_window b (some s') x' hb hx'
  refine ⟨f, y, f', g, z, g', h1, h2, k1, k2, h3, by omega, fun n hn => ?_⟩
  obtain ⟨c, w, hy, hcl, hwl, hci, hwi⟩ := h4 n hn
  obtain ⟨c', w', hy', hcl', hwl', hci', hwi'⟩ := k4 n (by omega)
  simp only [Option.getD_some] at *
  rw [hy, hy']
  show (t c.length).eval ρ.fl _ ≤ (t c'.length).eval ρ.fl _
  have hL0 : 0 < c.length := by have := List.length_pos_iff.mpr hb; omega
  rw [show c'.length = c.length by omega]
  refine DotOrder.mono ρ _ _ _ fun i hi => ?_
  have hi' : i < c.length := by simpa using (ht c.length hL0).mem_iff.mp hi
  rw [hci, hci', hwi i (by omega), hwi' i (by omega)]
  refine mul_le_mul_of_nonneg_left ?_ (at0_mem (fun v : Machine ρ t => 0 ≤ v.val) le_rfl b hb0 i)
  split
  · exact hs _
  · exact hxx _

/-- The same filter in exact arithmetic. -/
def exactIir (f : Iir (Machine ρ t)) : Iir ℝ := Iir.mk id (f.a.map (·.val)) (f.b.map (·.val)) (f.s.map (·.val))

theorem comb_exact (j : ℤ) (hj : e ≤ j) (b0 : Machine ρ t) (a b : List (Machine ρ t)) (hg0 : OnGrid j b0.val)
    (ha : ∀ v ∈ a, OnGrid 0 v.val) (hb : ∀ v ∈ b, OnGrid j v.val)
    (h : (a.map (|·.val|)).sum * |b0.val| + (b.map (|·.val|)).sum ≤ 2 ^ ((p : ℤ) + j)) (hl : a.length = b.length) :
    (List.zipWith (· + ·) (a.map (· * b0)) b).map (·.val) = List.zipWith (· + ·) ((a.map (·.val)).map (· * b0.val)) (b.map (·.val)) ∧
    (∀ v ∈ List.zipWith (· + ·) (a.map (· * b0)) b, OnGrid j v.val) ∧
    ((List.zipWith (· + ·) (a.map (· * b0)) b).map (|·.val|)).sum ≤ (a.map (|·.val|)).sum * |b0.val| + (b.map (|·.val|)).sum := by
  induction a generalizing b with
  | nil => cases b <;> simp_all
  | cons a0 a ih =>
    cases b with
    | nil => simp at hl
    | cons c0 b =>
      simp only [List.map_cons, List.sum_cons, List.mem_cons, forall_eq_or_imp, List.zipWith_cons_cons, List.length_cons, Nat.add_right_cancel_iff] at *
      have na : 0 ≤ (a.map (|·.val|)).sum := List.sum_nonneg (by intro v hv; simp only [List.mem_map] at hv; obtain ⟨w, -, rfl⟩ := hv; exact abs_nonneg _)
      have nb : 0 ≤ (b.map (|·.val|)).sum := List.sum_nonneg (by intro v hv; simp only [List.mem_map] at hv; obtain ⟨w, -, rfl⟩ := hv; exact abs_nonneg _)
      have n0 := abs_nonneg a0.val
      have n1 := abs_nonneg c0.val
      have n2 := abs_nonneg b0.val
      have n3 := mul_nonneg n0 n2
      have n4 := mul_nonneg na n2
      obtain ⟨i1, i2, i3⟩ := ih b ha.2 hb.2 (by nlinarith) hl
      have g1 : OnGrid j (a0.val * b0.val) := by simpa using ha.1.mul hg0
      have m1 : (a0 * b0).val = a0.val * b0.val := ρ.exact g1 hj (by rw [abs_mul]; nlinarith)
      have g2 : OnGrid j (a0.val * b0.val + c0.val) := g1.add hb.1
      have habs : |a0.val * b0.val + c0.val| ≤ |a0.val| * |b0.val| + |c0.val| := by rw [← abs_mul]; exact abs_add_le _ _
      have m2 : (a0 * b0 + c0).val = a0.val * b0.val + c0.val := by
        show ρ.fl ((a0 * b0).val + c0.val) = _
        rw [m1]
        exact ρ.exact g2 hj (by nlinarith)
      refine ⟨by rw [m2, i1], ⟨by rw [m2]; exact g2, i2⟩, ?_⟩
      rw [m2]
      nlinarith

/-- One step without rounding error. -/
theorem iir_step_exact (ht : Complete t) (f : Iir (Machine ρ t)) (hf : f.WF) (hc : f.cast = id) (j k : ℤ) (hj : e ≤ j) (hk : e ≤ k) (hjk : e ≤ j + k) (A : ℝ)
    (ha : ∀ v ∈ f.a, OnGrid 0 v.val) (hb : ∀ v ∈ f.b, OnGrid j v.val) (hs : ∀ v ∈ f.s, OnGrid k v.val) (hsA : ∀ v ∈ f.s, |v.val| ≤ A)
    (h1 : ((f.a.map (|·.val|)).sum + 1) * A ≤ 2 ^ ((p : ℤ) + k)) (h2 : (f.a.map (|·.val|)).sum * |(at0 f.b 0).val| + (f.b.map (|·.val|)).sum ≤ 2 ^ ((p : ℤ) + j))
    (h3 : ((f.a.map (|·.val|)).sum * |(at0 f.b 0).val| + (f.b.map (|·.val|)).sum) * A ≤ 2 ^ ((p : ℤ) + (j + k))) (x : Machine ρ t) (hx : OnGrid k x.val)
    (hA : ∀ v ∈ ((exactIir f).step x.val).2.s, |v| ≤ A) :
    ∃ y f' z, f.step x = (.ok y, f') ∧ (exactIir f).step x.val = (.ok z, exactIir f') ∧ y.val = z ∧ f'.a = f.a ∧ f'.b = f.b ∧ f'.cast = id ∧ f'.WF ∧
      (∀ v ∈ f'.s, OnGrid k v.val) ∧ (∀ v ∈ f'.s, |v.val| ≤ A) := by
  obtain ⟨l1, l2, l3⟩ := hf
  have hf : f.WF := ⟨l1, l2, l3⟩
  have hg : (exactIir f).WF := ⟨by simpa [exactIir] using l1, by simpa [exactIir] using l2, by simpa [exactIir] using l3⟩
  have na : 0 ≤ (f.a.map (|·.val|)).sum := List.sum_nonneg (by intro v hv; simp only [List.mem_map] at hv; obtain ⟨w, -, rfl⟩ := hv; exact abs_nonneg _)
  have hA0 : 0 ≤ A := by
    have : 0 < f.s.length := by omega
    obtain ⟨v, hv⟩ := List.exists_mem_of_ne_nil f.s (List.length_pos_iff.mp this)
    exact (abs_nonneg _).trans (hsA v hv)
  -- the recursion
  have hsum := sum_abs_mul_le f.a f.s A hA0 hsA f.a.length le_rfl
  obtain ⟨d1, d2⟩ := dot_exact ht f.a f.s 0 k (by omega) f.a.length rfl (by omega) ha hs (hsum.trans (by rw [zero_add]; nlinarith))
  rw [zero_add] at d2
  have hgdot : dot (exactIir f).a (exactIir f).s = (dot f.a f.s).val := by
    rw [d1, dot_eq_sum]
    simp only [exactIir, List.length_map, at0_val]
  have hdabs : |(dot f.a f.s).val| ≤ (f.a.map (|·.val|)).sum * A := by
    rw [d1]; exact (abs_sum_le_sum_abs _ _).trans hsum
  have hmem : f.mem.map (·.val) = (exactIir f).mem ∧ ∀ v ∈ f.mem, OnGrid k v.val := by
    unfold Iir.mem
    rw [hgdot, hc]
    rcases hs' : f.s with _ | ⟨s0, u⟩
    · simp [exactIir, hs']
    · rw [hs'] at hs hsA
      have hs0 : OnGrid k s0.val := hs s0 (by simp)
      have hs0A : |s0.val| ≤ A := hsA s0 (by simp)
      rw [hs'] at d2 hdabs
      have : (s0 + dot f.a (s0 :: u)).val = s0.val + (dot f.a (s0 :: u)).val := by
        refine ρ.exact (hs0.add d2) hk ((abs_add_le _ _).trans ?_)
        linarith
      refine ⟨?_, ?_⟩
      · simp [exactIir, hs', this]
      · intro v hv
        simp only [List.modifyHead_cons, List.mem_cons, id] at hv
        rcases hv with rfl | hv
        · rw [this]; exact hs0.add d2
        · exact hs v (by simp [hv])
  -- the state
  set S : List (Machine ρ t) := x :: f.mem.dropLast with hS
  have hSl : S.length = f.s.length := by simp [hS, Iir.mem_length]; omega
  have hSval : S.map (·.val) = x.val :: (exactIir f).mem.dropLast := by rw [hS, List.map_cons, List.map_dropLast, hmem.1]
  have hSg : ∀ v ∈ S, OnGrid k v.val := by
    intro v hv
    rw [hS, List.mem_cons] at hv
    rcases hv with rfl | hv
    · exact hx
    · exact hmem.2 v (List.dropLast_subset _ hv)
  have st := Iir.step_wf f hf x
  rw [hc] at st
  simp only [id] at st
  have sg := Iir.step_wf (exactIir f) hg x.val
  have hgc : (exactIir f).cast = id := rfl
  rw [hgc] at sg
  simp only [id] at sg
  have hSA : ∀ v ∈ S, |v.val| ≤ A := by
    intro v hv
    refine hA v.val ?_
    rw [sg]
    show v.val ∈ x.val :: (exactIir f).mem.dropLast
    rw [← hSval]
    exact List.mem_map_of_mem hv
  -- the combined coefficients
  obtain ⟨b0, bt, hbb⟩ : ∃ b0 bt, f.b = b0 :: bt := by
    rcases hb' : f.b with _ | ⟨b0, bt⟩
    · simp [hb'] at l3
    · exact ⟨b0, bt, rfl⟩
  have hb0 : at0 f.b 0 = b0 := by rw [hbb]; rfl
  rw [hb0] at h2 h3
  obtain ⟨c1, c2, c3⟩ := comb_exact j hj b0 f.a f.b (hb b0 (by simp [hbb])) ha hb h2 l1
  have hcomb : f.comb = List.zipWith (· + ·) (f.a.map (· * b0)) f.b := by unfold Iir.comb; rw [hbb]
  have hcombg : (exactIir f).comb = List.zipWith (· + ·) ((f.a.map (·.val)).map (· * b0.val)) (f.b.map (·.val)) := by
    simp [Iir.comb, exactIir, hbb]
  rw [← hcomb] at c1 c2 c3
  rw [← hcombg] at c1
  have hcl : f.comb.length = f.b.length := Iir.comb_length f hf
  have hsum2 := sum_abs_mul_le f.comb S A hA0 hSA f.b.length (by omega)
  obtain ⟨e1, -⟩ := dot_exact ht f.comb S j k hjk f.b.length hcl l3 c2 hSg (hsum2.trans ((mul_le_mul_of_nonneg_right c3 hA0).trans h3))
  refine ⟨_, _, dot (exactIir f).comb (x.val :: (exactIir f).mem.dropLast), st, sg.trans ?_, ?_, rfl, rfl, rfl, ⟨l1, ?_, l3⟩, hSg, hSA⟩
  · congr 1
    show (Iir.mk id _ _ _ : Iir ℝ) = Iir.mk id _ _ (S.map (·.val))
    rw [hSval]; rfl
  · rw [← hSval, ← c1, e1, dot_eq_sum]
    simp only [List.length_map, hcl, at0_val]
  · show f.b.length = S.length
    omega

/-- C159.  IirFilter without rounding error: integer coefficients `a`, coefficients `b` multiples of `2^j`, samples and state multiples of `2^k`.  If the state of the
exact filter stays within `A`, and `A` times the absolute sums of the coefficients fits, the floating point filter computes exactly the output and the state of the exact
one.  For IntegralFilter of order 0 (a = (0, 1), b = (1, 0)) this holds as long as integer samples and their integral stay
within `2^(p-1)`. -/
theorem C159_iir_exact (ρ : Nearest p e) (t : ℕ → DotOrder) (ht : Complete t) (f : Iir (Machine ρ t)) (hc : f.cast = id) (hab : f.a.length = f.b.length)
    (hbs : f.b.length = f.s.length) (hb0 : f.b ≠ []) (j k : ℤ) (hj : e ≤ j) (hk : e ≤ k) (hjk : e ≤ j + k) (A : ℝ)
    (ha : ∀ v ∈ f.a, OnGrid 0 v.val) (hb : ∀ v ∈ f.b, OnGrid j v.val) (hs : ∀ v ∈ f.s, OnGrid k v.val) (x : List (Machine ρ t)) (hx0 : x ≠ []) (hx : ∀ v ∈ x, OnGrid k v.val)
    (h1 : ((f.a.map (|·.val|)).sum + 1) * A ≤ 2 ^ ((p : ℤ) + k)) (h2 : (f.a.map (|·.val|)).sum * |(at0 f.b 0).val| + (f.b.map (|·.val|)).sum ≤ 2 ^ ((p : ℤ) + j))
    (h3 : ((f.a.map (|·.val|)).sum * |(at0 f.b 0).val| + (f.b.map (|·.val|)).sum) * A ≤ 2 ^ ((p : ℤ) + (j + k)))
    (hA : ∀ n ≤ x.length, ∀ v ∈ ((Iir.mk id (f.a.map (·.val)) (f.b.map (·.val)) (f.s.map (·.val))).filter ((x.map (·.val)).take n)).2.s, |v| ≤ A) :
    ∃ y f' z g', f.filter x = (.ok y, f') ∧ (Iir.mk id (f.a.map (·.val)) (f.b.map (·.val)) (f.s.map (·.val))).filter (x.map (·.val)) = (.ok z, g') ∧
      y.map (·.val) = z ∧ f'.s.map (·.val) = g'.s := by
  have hpre : ∀ g : Iir ℝ, ∀ l, (g.filter l).2 = (runLoop Iir.step g l).2 := by
    intro g l
    unfold Iir.filter
    split
    · rename_i hl
      rw [List.length_eq_zero_iff.mp hl]; rfl
    · rfl
  have key : ∀ (x : List (Machine ρ t)) (f : Iir (Machine ρ t)), f.WF → f.cast = id → (∀ v ∈ f.a, OnGrid 0 v.val) → (∀ v ∈ f.b, OnGrid j v.val) →
      (∀ v ∈ f.s, OnGrid k v.val) → (∀ v ∈ x, OnGrid k v.val) → ((f.a.map (|·.val|)).sum + 1) * A ≤ 2 ^ ((p : ℤ) + k) →
      (f.a.map (|·.val|)).sum * |(at0 f.b 0).val| + (f.b.map (|·.val|)).sum ≤ 2 ^ ((p : ℤ) + j) →
      ((f.a.map (|·.val|)).sum * |(at0 f.b 0).val| + (f.b.map (|·.val|)).sum) * A ≤ 2 ^ ((p : ℤ) + (j + k)) →
      (∀ n ≤ x.length, ∀ v ∈ (runLoop Iir.step (exactIir f) ((x.map (·.val)).take n)).2.s, |v| ≤ A) →
      ∃ y f', runLoop Iir.step f x = (.ok y, f') ∧ runLoop Iir.step (exactIir f) (x.map (·.val)) = (.ok (y.map (·.val)), exactIir f') := by
    intro x
    induction x with
    | nil => intro f _ _ _ _ _ _ _ _ _ _; exact ⟨[], f, rfl, rfl⟩
    | cons x xs ih =>
      intro f hf hc ha hb hs hx h1 h2 h3 hA
      have hs0 : ∀ v ∈ f.s, |v.val| ≤ A := by
        intro v hv
        refine hA 0 (by omega) v.val ?_
        simp only [List.take_zero, runLoop, exactIir]
        exact List.mem_map_of_mem hv
      have hg : (exactIir f).WF := ⟨by simpa [exactIir] using hf.1, by simpa [exactIir] using hf.2.1, by simpa [exactIir] using hf.2.2⟩
      obtain ⟨y, f', z, s1, s2, s3, s4, s5, s6, s7, s8, s9⟩ := iir_step_exact ht f hf hc j k hj hk hjk A ha hb hs hs0 h1 h2 h3 x (hx x (by simp)) (by
        intro v hv
        refine hA 1 (by simp) v ?_
        simp only [List.map_cons, List.take_succ_cons, List.take_zero, runLoop]
        rw [Iir.step_wf _ hg] at hv ⊢
        exact hv)
      obtain ⟨ys, f'', r1, r2⟩ := ih f' s7 s6 (by rw [s4]; exact ha) (by rw [s5]; exact hb) s8 (fun v hv => hx v (by simp [hv])) (by rw [s4]; exact h1)
        (by rw [s4, s5]; exact h2) (by rw [s4, s5]; exact h3) (by
          intro n hn v hv
          refine hA (n + 1) (by simpa using hn) v ?_
          simp only [List.map_cons, List.take_succ_cons, runLoop]
          rw [s2]
          rcases hr : runLoop Iir.step (exactIir f') ((xs.map (·.val)).take n) with ⟨r | r, g⟩ <;> rw [hr] at hv <;> simpa only [hr] using hv)
      refine ⟨y :: ys, f'', ?_, ?_⟩
      · simp only [runLoop, s1, r1]
      · simp only [List.map_cons, runLoop, s2, r2, s3]
  have hx' : x.length ≠ 0 := by simpa using hx0
  obtain ⟨y, f', r1, r2⟩ := key x f ⟨hab, hbs, List.length_pos_iff.mpr hb0⟩ hc ha hb hs hx h1 h2 h3 (by
    intro n hn v hv
    refine hA n hn v ?_
    rw [hpre]
    exact hv)
  refine ⟨y, f', _, exactIir f', by simpa [Iir.filter, hx'] using r1, ?_, rfl, rfl⟩
  unfold exactIir at r2
  simpa [Iir.filter, hx', exactIir] using r2

/-- From left to right, every product fused with the addition of the sum so far. -/
def leftToRight : ℕ → DotOrder
  | 0 => .product 0
  | 1 => .product 0
  | n + 2 => .fused (leftToRight (n + 1)) (n + 1)

theorem leftToRight_complete : Complete leftToRight := by
  intro n hn
  induction n with
  | zero => omega
  | succ n ih =>
    rcases n with _ | n
    · decide
    · rw [leftToRight, DotOrder.indices, List.range_succ]
      exact (ih (by omega)).append_right _

/-- The two halves separately, every product rounded. -/
example : Complete fun n => if n = 4 then .sum (.sum (.product 0) (.product 2)) (.sum (.product 1) (.product 3)) else leftToRight n := by
  intro n hn
  by_cases h : n = 4
  · subst h; decide
  · simpa [h] using leftToRight_complete n hn

/-- The numbers of binary64 with ties to even. -/
noncomputable abbrev Double : Type := Machine (ieee 53 (by norm_num) (-1074)) leftToRight

/-- An integer. -/
noncomputable def Double.ofInt (m : ℤ) : Double := Machine.of _ _ m

theorem Double.ofInt_val (m : ℤ) (h : |m| ≤ 2 ^ 53) : (Double.ofInt m).val = m :=
  Nearest.ext_float (ieee 53 (by norm_num) (-1074)) (m : ℝ) ⟨m, 0, h, by norm_num, by simp⟩

theorem Double.ofInt_grid (m : ℤ) (h : |m| ≤ 2 ^ 53) : OnGrid 0 (Double.ofInt m).val := ⟨m, by rw [Double.ofInt_val m h]; simp⟩

/-- C159: the error bound for a filter with one coefficient more than the signal has samples. -/
example (b x : List Double) (hb : b.length = 3) (hx : x.length = 2) : ∃ f y f', Fir.new id b none = .ok f ∧ f.filter x = (.ok y, f') ∧
    |(at0 y 1).val - conv (b.map (·.val)) (x.map (·.val)) 1| ≤ 4 * (1 / 2) ^ 53 * conv (b.map (|·.val|)) (x.map (|·.val|)) 1 + 3 * (1 / 2) ^ 1074 := by
  obtain ⟨f, y, f', h1, h2, -, h4⟩ := C159_fir_double _ _ leftToRight_complete b none x (by rintro rfl; simp at hb) (by rintro rfl; simp at hx) 3 (by simp [hb]) (by norm_num)
  refine ⟨f, y, f', h1, h2, ?_⟩
  have h := h4 1 (by omega)
  have ht : ∀ c : List ℝ, tail c [] 1 = 0 := by
    intro c
    unfold tail
    exact sum_eq_zero fun i _ => by simp [at0]
  simp only [Option.getD_none, List.map_nil, ht, add_zero] at h
  have e3 : (((3 : ℕ) : ℝ) + 1) = 4 := by norm_num
  have e4 : ((3 : ℕ) : ℝ) = 3 := by norm_num
  rw [e3, e4] at h
  exact h

/-- C159: samples of 16 bits and coefficients of 16 bits, up to 2^22 of them: exact. -/
example (b x : List ℤ) (hb : b ≠ []) (hx : x ≠ []) (hb' : ∀ v ∈ b, |v| ≤ 2 ^ 15) (hx' : ∀ v ∈ x, |v| ≤ 2 ^ 15) (hbl : b.length ≤ 2 ^ 22) :
    ∃ f y f', Fir.new id (b.map Double.ofInt) none = .ok f ∧ f.filter (x.map Double.ofInt) = (.ok y, f') ∧ ∀ n < x.length,
      (at0 y n).val = conv ((b.map Double.ofInt).map (·.val)) ((x.map Double.ofInt).map (·.val)) n := by
  have hle : ∀ v : ℤ, |v| ≤ 2 ^ 15 → |v| ≤ 2 ^ 53 := fun v h => h.trans (by norm_num)
  have habs : ∀ v : ℤ, |v| ≤ 2 ^ 15 → |(Double.ofInt v).val| ≤ 2 ^ 15 := by
    intro v h
    rw [Double.ofInt_val v (hle v h)]
    exact_mod_cast h
  obtain ⟨f, y, f', h1, h2, -, h4⟩ := C159_fir_exact _ _ leftToRight_complete (b.map Double.ofInt) none (x.map Double.ofInt) (by simpa using hb) (by simpa using hx) 0 0
    (by norm_num) (2 ^ 15) (by
      intro v hv; simp only [List.mem_map] at hv; obtain ⟨m, hm, rfl⟩ := hv
      exact Double.ofInt_grid m (hle m (hb' m hm))) (by
      intro v hv; simp only [List.mem_map] at hv; obtain ⟨m, hm, rfl⟩ := hv
      exact ⟨Double.ofInt_grid m (hle m (hx' m hm)), habs m (hx' m hm)⟩) (by simp) (by
      have hs : ((b.map Double.ofInt).map (|·.val|)).sum ≤ b.length * 2 ^ 15 := by
        have := List.sum_le_card_nsmul ((b.map Double.ofInt).map (|·.val|)) (2 ^ 15) (by
          intro v hv; simp only [List.mem_map] at hv; obtain ⟨w, ⟨m, hm, rfl⟩, rfl⟩ := hv
          exact habs m (hb' m hm))
        simpa using this
      have hl : (b.length : ℝ) ≤ 2 ^ 22 := by exact_mod_cast hbl
      have e1 : (2 : ℝ) ^ (((53 : ℕ) : ℤ) + (0 + 0)) = 2 ^ 53 := by norm_num
      rw [e1]
      nlinarith)
  refine ⟨f, y, f', h1, h2, fun n hn => ?_⟩
  rw [h4 n (by simpa using hn)]
  have : ∀ c : List ℝ, tail c [] n = 0 := by
    intro c
    unfold tail
    exact sum_eq_zero fun i _ => by simp [at0]
  simp [this]

/-- C159: the integral of two samples. -/
example (ρ : Nearest 53 (-1074)) (t : ℕ → DotOrder) (ht : Complete t) (zero one x₀ x₁ : Machine ρ t) (hz : zero.val = 0) (ho : one.val = 1) (h₀ : x₀.val = 2 ^ 51 - 1) (h₁ : x₁.val = 3) :
    ∃ y f', (Iir.mk id [zero, one] [one, zero] [zero, zero]).filter [x₀, x₁] = (.ok y, f') ∧ y.map (·.val) = [2 ^ 51 - 1, 2 ^ 51 + 2] := by
  have g0 : OnGrid 0 (0 : ℝ) := OnGrid.zero 0
  have g1 : OnGrid 0 (1 : ℝ) := ⟨1, by simp⟩
  obtain ⟨y, f', z, g', h1, h2, h3, -⟩ := C159_iir_exact ρ t ht (Iir.mk id [zero, one] [one, zero] [zero, zero]) rfl rfl rfl (by simp) 0 0 (by norm_num) (by norm_num) (by norm_num)
    (2 ^ 52) (by simp [hz, ho, g0, g1]) (by simp [hz, ho, g0, g1]) (by simp [hz, g0]) [x₀, x₁] (by simp)
    (by simp only [List.mem_cons, List.not_mem_nil, or_false, forall_eq_or_imp, forall_eq, h₀, h₁]; exact ⟨⟨2 ^ 51 - 1, by norm_num⟩, ⟨3, by norm_num⟩⟩)
    (by simp [hz, ho]; norm_num) (by simp [hz, ho, at0]; norm_num) (by simp [hz, ho, at0]; norm_num) (by
      intro n hn v hv
      simp only [List.length_cons, List.length_nil] at hn
      interval_cases n <;> simp [Iir.filter, runLoop, Iir.step, shiftRight, bcAdd, dot_def, hz, ho, h₀, h₁] at hv <;> rcases hv with rfl | rfl <;> norm_num [abs_le])
  refine ⟨y, f', h1, ?_⟩
  rw [h3]
  simp [Iir.filter, runLoop, Iir.step, shiftRight, bcAdd, dot_def, hz, ho, h₀, h₁] at h2
  rw [← h2.1]
  norm_num

/-- C159: raising every sample by the same amount does not lower the output of a moving average. -/
example (q : Double) (hq : q.val = 1 / 4) (x x' : List Double) (hx : x ≠ []) (hl : x.length = x'.length) (h : ∀ i, (at0 x i).val ≤ (at0 x' i).val) :
    ∃ f y f' g z g', Fir.new id [q, q, q, q] (some []) = .ok f ∧ f.filter x = (.ok y, f') ∧ Fir.new id [q, q, q, q] (some []) = .ok g ∧ g.filter x' = (.ok z, g') ∧
      y.length = x.length ∧ z.length = x.length ∧ ∀ n < x.length, (at0 y n).val ≤ (at0 z n).val :=
  C159_fir_monotone _ _ leftToRight_complete [q, q, q, q] [] [] x x' (by simp) hx rfl hl (by simp [hq]) (fun _ => le_rfl) h

/-- C159: stable coefficients. -/
example : ∃ (K : ℝ) (p₀ : ℕ) (e₀ : ℤ), ∀ (p : ℕ) (e : ℤ), p₀ ≤ p → e ≤ e₀ → ∀ (ρ : Nearest p e) (t : ℕ → DotOrder), Complete t →
    ∀ f : Iir (Machine ρ t), f.cast = id → f.a.map (·.val) = [0, 1 / 2] → f.b.map (·.val) = [1, 0] → f.s.length = 2 →
    ∀ (x : List (Machine ρ t)) (M : ℝ), x ≠ [] → (∀ v ∈ x, |v.val| ≤ M) → (∀ v ∈ f.s, |v.val| ≤ M) →
      ∃ y f' z g', f.filter x = (.ok y, f') ∧ (Iir.mk id [0, 1 / 2] [1, 0] (f.s.map (·.val))).filter (x.map (·.val)) = (.ok z, g') ∧
        y.length = x.length ∧ z.length = x.length ∧ ∀ n < x.length, |(at0 y n).val - at0 z n| ≤ K * ((1 / 2) ^ p * M + 2 ^ e * (1 + M)) :=
  C159_iir_limit [0, 1 / 2] [1, 0] rfl (by simp) rfl (by
    intro z hz
    simp [Pole, at0] at hz
    rw [hz]; norm_num)

/-- The hypotheses of `C159_rounded` hold of sums from left to right of five products. -/
example (ρ : Nearest 53 (-1074)) := C159_rounded ρ leftToRight leftToRight_complete 5 (by norm_num)

end Verif.Props
