import Verif.Props.RankVariation
import Verif.Lemmas.FloatingPoint

/-
Property C161 of RankFilter (diamondback/filters/rank_filter.py): it commutes with increasing maps of the magnitudes, such as the rounding of samples to the
floating point numbers of its state, and with thresholds.
-/

namespace Verif.Props

open Spec

variable {R K : Type*}

/-- The rank by `key` is a rank by an increasing function of `key`. -/
theorem rank_of_mono [LinearOrder K] {L : Type*} [LinearOrder L] (key : R → K) (φ : K → L) (hφ : Monotone φ) (w : List R) (i : ℕ) (v : R)
    (h : IsRank key w i v) : IsRank (fun r => φ (key r)) w i v := by
  refine ⟨h.1, le_trans (List.countP_mono_left fun r _ hr => ?_) h.2.1, lt_of_lt_of_le h.2.2 (List.countP_mono_left fun r _ hr => ?_)⟩
  · have hr : φ (key r) < φ (key v) := by simpa using hr
    simpa using hφ.reflect_lt hr
  · have hr : key r ≤ key v := by simpa using hr
    simpa using hφ hr

/-- Samples of one rank have one key. -/
theorem rank_key [LinearOrder K] (key : R → K) (w : List R) (i : ℕ) (v v' : R) (h : IsRank key w i v) (h' : IsRank key w i v') : key v = key v' := by
  have e : w = (List.range w.length).map fun j => w.getD j v := by
    apply List.ext_getElem (by simp)
    intro j h1 h2
    simp [List.getD, h1]
  rw [e] at h h'
  exact le_antisymm (rank_mono key _ _ _ (fun _ _ => le_rfl) i i le_rfl v v' h h') (rank_mono key _ _ _ (fun _ _ => le_rfl) i i le_rfl v' v h' h)

theorem lookback_map [Zero R] {S : Type*} [Zero S] (ψ : R → S) (order : ℕ) (s x : List R) (hs : s.length = order + 1) (n : ℕ) (hn : n < x.length) :
    lookback order (s.map ψ) (x.map ψ) n = (lookback order s x n).map ψ := by
  have hat : ∀ (l : List R) (i : ℕ), i < l.length → at0 (l.map ψ) i = ψ (at0 l i) := by
    intro l i hi
    simp [at0, List.getD, List.getElem?_eq_getElem hi]
  unfold lookback
  rw [List.map_map]
  apply List.map_congr_left
  intro i hi
  have hi := List.mem_range.mp hi
  simp only [Function.comp]
  by_cases h : i ≤ n
  · rw [if_pos h, if_pos h, hat _ _ (by omega)]
  · rw [if_neg h, if_neg h, hat _ _ (by omega)]

/-- C161.  The filter commutes with every map of the samples which acts on magnitudes by an increasing function, even if the function is constant in places:
clipping, quantisation, conversion to another type. -/
theorem C161_map [LinearOrder K] {L S : Type*} [LinearOrder L] [Zero R] [Zero S] (argsort : List K → List ℕ) (argsort' : List L → List ℕ) (ha : IsArgsort argsort)
    (ha' : IsArgsort argsort') (key : R → K) (key' : S → L) (ψ : R → S) (φ : K → L) (hφ : Monotone φ) (hψ : ∀ v, key' (ψ v) = φ (key v)) (index order : ℕ)
    (hio : index ≤ order) (s : List R) (hs : s.length = order + 1) (x : List R) (hx : x ≠ []) :
    ∃ y y' g g', Rank.filter argsort key ⟨s, index⟩ x = (.ok y, g) ∧ Rank.filter argsort' key' ⟨s.map ψ, index⟩ (x.map ψ) = (.ok y', g') ∧
      y.length = x.length ∧ y'.length = x.length ∧ ∀ n < x.length, key' (at0 y' n) = φ (key (at0 y n)) := by
  obtain ⟨y, g, a1, a2, a3⟩ := rank_outputs argsort ha key index order hio s hs x hx
  obtain ⟨y', g', b1, b2, b3⟩ := rank_outputs argsort' ha' key' index order hio (s.map ψ) (by simpa using hs) (x.map ψ) (by simpa using hx)
  refine ⟨y, y', g, g', a1, b1, a2, by simpa using b2, fun n hn => ?_⟩
  have h1 := rank_of_mono key φ hφ _ _ _ (a3 n hn)
  have h2 := b3 n (by simpa using hn)
  rw [lookback_map ψ order s x hs n hn] at h2
  obtain ⟨w, hw, e⟩ := List.mem_map.mp h2.1
  rw [← e] at h2 ⊢
  rw [hψ]
  refine rank_key (fun r => φ (key r)) _ index w _ ⟨hw, ?_, ?_⟩ h1
  · have := h2.2.1
    rw [List.countP_map] at this
    simpa [Function.comp_def, hψ] using this
  · have := h2.2.2
    rw [List.countP_map] at this
    simpa [Function.comp_def, hψ] using this

/-- The median of three, limited to 4. -/
example := C161_map (R := ℕ) (S := ℕ) argsortRef argsortRef argsortRef_isArgsort argsortRef_isArgsort id id (min 4) (min 4) (fun _ _ h => min_le_min_left 4 h) (fun _ => rfl) 1 2 (by decide) [0, 0, 0] rfl [5, 3, 9, 1] (by simp)

theorem countP_range_card (m : ℕ) (q : ℕ → Bool) : (List.range m).countP q = ((Finset.range m).filter fun i => q i = true).card := by
  induction m with
  | zero => simp
  | succ m ih =>
    rw [List.range_succ, List.countP_append, ih, Finset.range_add_one, Finset.filter_insert]
    by_cases h : q m = true <;> simp [h]

/-- C161.  Thresholds: the output reaches a magnitude `t` if and only if at least `order + 1 - index` of the current and previous samples do. -/
theorem C161_threshold [LinearOrder K] [Zero R] (argsort : List K → List ℕ) (ha : IsArgsort argsort) (key : R → K) (index order : ℕ) (hio : index ≤ order)
    (s : List R) (hs : s.length = order + 1) (x : List R) (hx : x ≠ []) :
    ∃ y g, Rank.filter argsort key ⟨s, index⟩ x = (.ok y, g) ∧ y.length = x.length ∧ ∀ n < x.length, ∀ t,
      t ≤ key (at0 y n) ↔ order + 1 - index ≤ ((Finset.range (order + 1)).filter fun i => t ≤ key (if i ≤ n then at0 x (n - i) else at0 s (i - n))).card := by
  obtain ⟨y, g, a1, a2, a3⟩ := rank_outputs argsort ha key index order hio s hs x hx
  refine ⟨y, g, a1, a2, fun n hn t => ?_⟩
  obtain ⟨-, h1, h2⟩ := a3 n hn
  have hl : (lookback order s x n).length = order + 1 := by simp [lookback]
  have hc : ∀ p : R → Bool, (lookback order s x n).countP p = ((Finset.range (order + 1)).filter fun i => p (if i ≤ n then at0 x (n - i) else at0 s (i - n)) = true).card := by
    intro p
    unfold lookback
    rw [List.countP_map, countP_range_card]
    rfl
  have key1 : ((Finset.range (order + 1)).filter fun i => t ≤ key (if i ≤ n then at0 x (n - i) else at0 s (i - n))).card
      = (lookback order s x n).countP (fun w => decide (t ≤ key w)) := by
    rw [hc]; simp
  rw [key1]
  have hsum : ∀ p : R → Bool, (lookback order s x n).countP p + (lookback order s x n).countP (fun w => !p w) = order + 1 := by
    intro p
    rw [← hl]
    have := List.length_eq_countP_add_countP p (l := lookback order s x n)
    rw [this]
    congr 1
    apply List.countP_congr
    simp
  constructor
  · intro ht
    have h3 := hsum fun w => decide (key w < key (at0 y n))
    have h4 : (lookback order s x n).countP (fun w => !decide (key w < key (at0 y n))) ≤ (lookback order s x n).countP (fun w => decide (t ≤ key w)) := by
      apply List.countP_mono_left
      intro w _ hw
      have hw : key (at0 y n) ≤ key w := by simpa using hw
      simpa using ht.trans hw
    omega
  · intro ht
    by_contra hlt
    rw [not_le] at hlt
    have h3 := hsum fun w => decide (key w ≤ key (at0 y n))
    have h4 : (lookback order s x n).countP (fun w => decide (t ≤ key w)) ≤ (lookback order s x n).countP (fun w => !decide (key w ≤ key (at0 y n))) := by
      apply List.countP_mono_left
      intro w _ hw
      have hw : t ≤ key w := by simpa using hw
      simpa using lt_of_lt_of_le hlt hw
    omega

/-- The median of three. -/
example := C161_threshold argsortRef argsortRef_isArgsort (fun v : ℤ => |v|) 1 2 (by decide) [0, 3, -5] rfl [5, -1, 3, 4] (by simp)

/-- Rounding to even has no preferred sign. -/
theorem np_round_neg (y : ℝ) : np.round (-y) = -np.round y := by
  obtain ⟨h1, h2⟩ := np.round_spec y
  have e : |-y - ((-np.round y : ℤ) : ℝ)| = |y - np.round y| := by
    rw [← abs_neg]; congr 1; push_cast; ring
  exact IsRound.unique (np.round_spec (-y)) ⟨by rw [e]; exact h1, fun h => (h2 (by rw [← e]; exact h)).neg⟩

theorem roundEven_neg (p : ℕ) (e : ℤ) (x : ℝ) : roundEven p e (-x) = -roundEven p e x := by
  have : lastDigit p e (-x) = lastDigit p e x := by simp [lastDigit]
  simp [roundEven, this, neg_div, np_round_neg]

theorem nearest_abs {p : ℕ} {e : ℤ} (ρ : Nearest p e) (hρ : ∀ v, ρ.fl (-v) = -ρ.fl v) (v : ℝ) : |ρ.fl v| = ρ.fl |v| := by
  have h0 : ρ.fl 0 = 0 := ρ.ext_float 0 ⟨0, e, by simp, le_rfl, by simp⟩
  rcases le_total 0 v with h | h
  · rw [abs_of_nonneg h, abs_of_nonneg]
    have := ρ.mono h
    rwa [h0] at this
  · rw [abs_of_nonpos h, hρ, abs_of_nonpos]
    have := ρ.mono h
    rwa [h0] at this

theorem map_fl {p : ℕ} {e : ℤ} (ρ : Nearest p e) (l : List ℝ) (h : ∀ v ∈ l, IsFloat p e v) : l.map ρ.fl = l := by
  conv_rhs => rw [← List.map_id l]
  exact List.map_congr_left fun v hv => ρ.ext_float v (h v hv)

/-- C161.  A signal whose samples the floating point state cannot hold exactly: every output has the magnitude of the exact output, rounded once.  So an
output is off by half a unit in the last place at most, whatever the order and however many samples went before. -/
theorem C161_rounded {p : ℕ} {e : ℤ} (ρ : Nearest p e) (hρ : ∀ v, ρ.fl (-v) = -ρ.fl v) (argsort argsort' : List ℝ → List ℕ) (ha : IsArgsort argsort)
    (ha' : IsArgsort argsort') (index order : ℕ) (hio : index ≤ order) (s : List ℝ) (hs : s.length = order + 1) (hf : ∀ v ∈ s, IsFloat p e v)
    (x : List ℝ) (hx : x ≠ []) :
    ∃ y y' g g', Rank.filter argsort (fun v : ℝ => |v|) ⟨s, index⟩ x = (.ok y, g) ∧
      Rank.filterAs ρ.fl id argsort' (fun v : ℝ => |v|) ⟨s, index⟩ x = (.ok y', g') ∧ y.length = x.length ∧ y'.length = x.length ∧
      ∀ n < x.length, |at0 y' n| = ρ.fl |at0 y n| ∧ |(|at0 y' n| - |at0 y n|)| ≤ (1 / 2) ^ p * |at0 y n| + 2 ^ (e - 1) := by
  obtain ⟨y, y', g, g', h1, h2, h3, h4, h5⟩ := C161_map argsort argsort' ha ha' (fun v : ℝ => |v|) (fun v : ℝ => |v|) ρ.fl ρ.fl (fun _ _ h => ρ.mono h)
    (nearest_abs ρ hρ) index order hio s hs x hx
  rw [map_fl ρ s hf] at h2
  refine ⟨y, y', g, g', h1, by simp [Rank.filterAs, h2], h3, h4, fun n hn => ⟨h5 n hn, ?_⟩⟩
  have := ρ.error |at0 y n|
  rw [abs_abs] at this
  rw [show |at0 y' n| = ρ.fl |at0 y n| from h5 n hn]
  exact this

/-- Samples of which one is no double. -/
example := C161_rounded (ieee 53 (by norm_num) (-1074)) (roundEven_neg 53 (-1074)) argsortRef argsortRef argsortRef_isArgsort argsortRef_isArgsort 1 2 (by decide) [0, 0, 0] rfl
  (fun v hv => by simp at hv; rw [hv]; exact ⟨0, 0, by simp⟩) [2 ^ 53 + 1, 1 / 3, 2] (by simp)

/-- C161.  Nothing is lost of a signal of floating point numbers of the state's precision. -/
theorem C161_exact {p : ℕ} {e : ℤ} (ρ : Nearest p e) (argsort : List ℝ → List ℕ) (f : Rank ℝ) (x : List ℝ) (hf : ∀ v ∈ x, IsFloat p e v) :
    Rank.filterAs ρ.fl id argsort (fun v : ℝ => |v|) f x = f.filter argsort (fun v : ℝ => |v|) x := by
  unfold Rank.filterAs
  rw [map_fl ρ x hf]
  rcases f.filter argsort (fun v : ℝ => |v|) x with ⟨r | r, g⟩ <;> simp

/-- C161.  Integers up to `2^53` in magnitude (in general `2^p`) are floating point numbers, so that they are returned as they are. -/
theorem C161_integers {p : ℕ} {e : ℤ} (ρ : Nearest p e) (he : e ≤ 0) (argsort : List ℝ → List ℕ) (f : Rank ℝ) (x : List ℤ) (hx : ∀ v ∈ x, |v| ≤ 2 ^ p) :
    Rank.filterAs ρ.fl id argsort (fun v : ℝ => |v|) f (x.map fun v : ℤ => (v : ℝ)) = f.filter argsort (fun v : ℝ => |v|) (x.map fun v : ℤ => (v : ℝ)) := by
  apply C161_exact
  intro v hv
  obtain ⟨m, hm, rfl⟩ := List.mem_map.mp hv
  exact ⟨m, 0, hx m hm, he, by simp⟩

/-- Integers up to 2^53. -/
example := C161_integers (ieee 53 (by norm_num) (-1074)) (by norm_num) argsortRef ⟨[0, 0, 0], 1⟩ [2 ^ 53, -3, 7] (by decide)

theorem not_float (p : ℕ) (hp : 0 < p) (e : ℤ) : ¬ IsFloat p e (2 ^ p + 1) := by
  rintro ⟨m, k, hm, -, h⟩
  have hm' : |(m : ℝ)| ≤ 2 ^ p := by exact_mod_cast hm
  rcases le_or_gt k 0 with hk | hk
  · have h1 : (2 : ℝ) ^ k ≤ 1 := zpow_le_one_of_nonpos₀ (by norm_num) hk
    have h2 : (m : ℝ) * 2 ^ k ≤ 2 ^ p * 1 := mul_le_mul ((le_abs_self _).trans hm') h1 (by positivity) (by positivity)
    linarith
  · obtain ⟨j, rfl⟩ : ∃ j : ℕ, k = j + 1 := ⟨(k - 1).toNat, by omega⟩
    obtain ⟨q, rfl⟩ : ∃ q, p = q + 1 := ⟨p - 1, by omega⟩
    have h1 : (2 : ℤ) ^ (q + 1) + 1 = m * 2 ^ (j + 1) := by
      have : ((2 : ℝ) ^ ((j : ℤ) + 1)) = 2 ^ (j + 1) := by norm_cast
      rw [this] at h
      exact_mod_cast h
    have h2 : (2 : ℤ) * (m * 2 ^ j - 2 ^ q) = 1 := by
      rw [pow_succ, pow_succ] at h1; linarith
    omega

theorem roundEven_tie (p : ℕ) (hp : 2 ≤ p) (e : ℤ) (he : e ≤ 0) : roundEven p e (2 ^ p + 1) = 2 ^ p := by
  have hpos : (0 : ℝ) < 2 ^ p + 1 := by positivity
  have h4 : (4 : ℝ) ≤ 2 ^ p := by
    calc (4 : ℝ) = 2 ^ 2 := by norm_num
      _ ≤ 2 ^ p := pow_le_pow_right₀ (by norm_num) hp
  have hlog : Int.log 2 |(2 : ℝ) ^ p + 1| = p := by
    rw [abs_of_pos hpos]
    apply le_antisymm
    · have : Int.log 2 ((2 : ℝ) ^ p + 1) < p + 1 := by
        rw [← Int.lt_zpow_iff_log_lt (by norm_num) hpos]
        have : ((2 : ℕ) : ℝ) ^ ((p : ℤ) + 1) = 2 ^ p * 2 := by push_cast; norm_cast
        rw [this]; linarith
      omega
    · rw [← Int.zpow_le_iff_le_log (by norm_num) hpos]
      push_cast
      rw [zpow_natCast]; linarith
  have hd : lastDigit p e (2 ^ p + 1) = 1 := by
    rw [lastDigit, hlog, show (p : ℤ) - (p - 1) = 1 by ring]
    exact max_eq_left (by omega)
  obtain ⟨q, rfl⟩ : ∃ q, p = q + 2 := ⟨p - 2, by omega⟩
  have hr : np.round ((2 ^ (q + 2) + 1) / 2 ^ (1 : ℤ)) = 2 * 2 ^ q := by
    refine IsRound.unique (np.round_spec _) ⟨?_, fun _ => even_two_mul _⟩
    have : (2 ^ (q + 2) + 1) / 2 ^ (1 : ℤ) - ((2 * 2 ^ q : ℤ) : ℝ) = 1 / 2 := by
      push_cast; rw [zpow_one, pow_succ, pow_succ]; ring
    rw [this]; norm_num
  rw [roundEven, hd, hr]
  push_cast; rw [zpow_one, pow_succ, pow_succ]; ring

/-- C161.  Above, the output need not be one of the samples: the filter of order zero, whose window is the current sample alone, does not return the sample
`2^53 + 1` (in general `2^p + 1`), but `2^53` if ties are rounded to even. -/
theorem C161_not_a_sample (p : ℕ) (hp : 2 ≤ p) (e : ℤ) (ρ : Nearest p e) (argsort : List ℝ → List ℕ) (ha : IsArgsort argsort) :
    (∃ (f g : Rank ℝ) (v : ℝ), Rank.new 0 0 = .ok f ∧ Rank.filterAs ρ.fl id argsort (fun v : ℝ => |v|) f [2 ^ p + 1] = (.ok [v], g) ∧ v ≠ 2 ^ p + 1) ∧
    (e ≤ 0 → ∃ f g : Rank ℝ, Rank.new 0 0 = .ok f ∧
      Rank.filterAs (ieee p (by omega) e).fl id argsort (fun v : ℝ => |v|) f [2 ^ p + 1] = (.ok [2 ^ p], g)) := by
  have key : ∀ v : ℝ, ∃ g : Rank ℝ, Rank.filter argsort (fun v : ℝ => |v|) ⟨[0], 0⟩ [v] = (.ok [v], g) := by
    intro v
    obtain ⟨y, g, h1, h2, h3⟩ := rank_outputs argsort ha (fun v : ℝ => |v|) 0 0 le_rfl [0] rfl [v] (by simp)
    have h4 := (h3 0 (by simp)).1
    obtain ⟨w, rfl⟩ := List.length_eq_one_iff.mp h2
    have : w = v := by simpa [lookback, at0] using h4
    exact ⟨g, by rw [← this]; simpa [this] using h1⟩
  constructor
  · obtain ⟨g, hg⟩ := key (ρ.fl (2 ^ p + 1))
    refine ⟨⟨[0], 0⟩, g, ρ.fl (2 ^ p + 1), by simp [Rank.new], by simp [Rank.filterAs, hg], fun h => not_float p (by omega) e ?_⟩
    have := ρ.float (2 ^ p + 1)
    rwa [h] at this
  · intro he
    obtain ⟨g, hg⟩ := key (2 ^ p)
    refine ⟨⟨[0], 0⟩, g, by simp [Rank.new], ?_⟩
    have : (ieee p (by omega) e).fl (2 ^ p + 1) = 2 ^ p := roundEven_tie p hp e he
    simp [Rank.filterAs, this, hg]

/-- binary64 meets the hypotheses of C161, those of `C161_exact` with samples which are doubles: rounding to even has no preferred sign, and `2^53 + 1` is an integer which is not held. -/
example : (∀ v, (ieee 53 (by norm_num) (-1074)).fl (-v) = -(ieee 53 (by norm_num) (-1074)).fl v) ∧ 2 ≤ 53 ∧ (-1074 : ℤ) ≤ 0 ∧
    IsArgsort (argsortRef (K := ℝ)) ∧ ¬ IsFloat 53 (-1074) (2 ^ 53 + 1) :=
  ⟨roundEven_neg 53 (-1074), by norm_num, by norm_num, argsortRef_isArgsort, not_float 53 (by norm_num) _⟩

/-- Clipping at 4 commutes with a median of three, and the median reaches 3 where two of three samples do. -/
example : (Rank.filter argsortRef (fun v : ℕ => v) ⟨[0, 0, 0], 1⟩ [5, 3, 9, 1]).1 = .ok [0, 3, 5, 3] ∧
    (Rank.filter argsortRef (fun v : ℕ => v) ⟨[0, 0, 0], 1⟩ ([5, 3, 9, 1].map (min 4))).1 = .ok ([0, 3, 5, 3].map (min 4)) ∧
    Monotone (min 4 : ℕ → ℕ) := by
  refine ⟨by decide +kernel, by decide +kernel, fun a b h => min_le_min le_rfl h⟩

end Verif.Props
