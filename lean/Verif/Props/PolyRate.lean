import Verif.Lemmas.PolyRate
import Verif.Lemmas.Polyfit
import Mathlib.Tactic.NormNum
import Mathlib.Tactic.LinearCombination

/- Properties of PolynomialRateFilter (C33-C35). -/

namespace Verif.Props

open Finset Spec

theorem polyval_polyAt (c : List ℝ) (t : ℝ) : np.polyval c t = polyAt c t := by
  rw [np.polyval_eq, np.eval_toPoly]; rfl

/-- The count of samples: between the bounds used below. -/
theorem round_bounds (cc : ℕ) (r : ℝ) (hr : 0 < r) (k : ℕ) (hk : k < (np.round (cc * r)).toNat) : (k : ℝ) / r < cc := by
  have h := abs_le.mp (np.round_spec (cc * r)).1
  have hk' : ((k : ℤ) : ℝ) + 1 ≤ (np.round (cc * r) : ℝ) := by exact_mod_cast (by omega : (k : ℤ) + 1 ≤ np.round (cc * r))
  push_cast at hk'
  rw [div_lt_iff₀ hr]
  linarith

/-- The linear branch. -/
theorem linear_values (polyfit : ℕ → List ℝ → List ℝ) (p : PolyRate) (ho : p.order = 1) (hr : 0 < p.rate) (x : List ℝ) (hx : 2 ≤ x.length) :
    ∃ y, p.filter polyfit (some x) = .ok y ∧ (y.length : ℤ) = np.round (x.length * p.rate) ∧
      ∀ k < y.length, y[k]? = some (extend1 x ⌊(k : ℝ) / p.rate⌋₊ +
        (extend1 x (⌊(k : ℝ) / p.rate⌋₊ + 1) - extend1 x ⌊(k : ℝ) / p.rate⌋₊) * ((k : ℝ) / p.rate - ⌊(k : ℝ) / p.rate⌋₊)) := by
  have hround := np.round_nonneg (x.length * p.rate) (by positivity)
  have hbound := abs_le.mp (np.round_spec (x.length * p.rate)).1
  set x' := x ++ [2 * x.getD (x.length - 1) 0 - x.getD (x.length - 2) 0] with hx'
  have hlen' : x'.length = x.length + 1 := by simp [hx']
  have hext : ∀ n ≤ x.length, at0 x' n = extend1 x n := by
    intro n hn
    unfold extend1
    split
    · rename_i h
      rw [at0_of_lt _ _ (by omega), at0_of_lt _ _ h]
      simp only [hx']
      rw [List.getElem_append_left h]
    · have : n = x.length := by omega
      subst this
      rw [at0_of_lt _ _ (by omega)]
      simp only [hx']
      rw [List.getElem_append_right (le_refl _)]
      simp [at0]
  set n := ⌊((x'.length : ℕ) : ℝ) * p.rate + 0.5⌋.toNat with hn
  set y := ((np.linspace 0 ((n : ℝ) - 1) n).map (· / p.rate)).map (np.interp ((np.linspace 0 ((x'.length : ℝ) - 1) x'.length).zip x')) with hy
  have hylen : y.length = n := by simp [hy, np.linspace]
  have hjj : (np.round (x.length * p.rate)).toNat ≤ n := by
    rw [hn]
    apply Int.toNat_le_toNat
    rw [Int.le_floor, hlen']
    push_cast
    norm_num
    linarith
  have hf : p.filter polyfit (some x) = .ok (y.take (np.round (x.length * p.rate)).toNat) := by
    unfold PolyRate.filter
    simp only [show ¬ x.length < 2 by omega, if_false, ho, if_true]
    rw [← hx', ← hn, ← hy, hylen, min_eq_left hjj]
  refine ⟨_, hf, ?_, ?_⟩
  · rw [List.length_take, hylen, min_eq_left hjj]; omega
  · intro k hk
    have hk1 : k < (np.round (x.length * p.rate)).toNat := by rw [List.length_take] at hk; omega
    have hkt := round_bounds x.length p.rate hr k hk1
    rw [List.getElem?_take_of_lt hk1, hy, np.linspace_range, np.linspace_range, List.getElem?_map, List.getElem?_map, List.getElem?_map,
      List.getElem?_range (by omega)]
    simp only [Option.map_some, Option.some.injEq]
    have hpos : 0 ≤ (k : ℝ) / p.rate := by positivity
    have hfl := Nat.floor_le hpos
    have hfl2 := Nat.lt_floor_add_one ((k : ℝ) / p.rate)
    have hj : ⌊(k : ℝ) / p.rate⌋₊ < x.length := (Nat.floor_lt hpos).mpr hkt
    have := np.interp_range x' 0 ⌊(k : ℝ) / p.rate⌋₊ (by omega) ((k : ℝ) / p.rate) (by push_cast; linarith) (by push_cast; linarith)
    rw [← List.range_eq_range'] at this
    rw [this, hext _ (by omega), hext _ (by omega)]
    push_cast
    ring

/-- The loop branch: each sample is the value of the fit of its own interval. -/
theorem fit_values (polyfit : ℕ → List ℝ → List ℝ) (p : PolyRate) (ho : p.order ≠ 1) (hr : 0 < p.rate) (x : List ℝ) (hx : 2 ≤ x.length) :
    ∃ y, p.filter polyfit (some x) = .ok y ∧ (y.length : ℤ) = np.round (x.length * p.rate) ∧
      ∀ k < y.length, (k : ℝ) / p.rate < x.length ∧ y[k]? = some (let i := ⌊(k : ℝ) / p.rate⌋₊
        polyAt (polyfit p.order.toNat [extend x (i - 1), extend x i, extend x (i + 1), extend x (i + 2)]) ((k : ℝ) / p.rate - i)) := by
  have hround := np.round_nonneg (x.length * p.rate) (by positivity)
  have hbound := abs_le.mp (np.round_spec (x.length * p.rate)).1
  set x' := [2 * x.getD 0 0 - x.getD 1 0] ++ x ++
          [2 * x.getD (x.length - 1) 0 - x.getD (x.length - 2) 0, 3 * x.getD (x.length - 1) 0 - 2 * x.getD (x.length - 2) 0] with hx'
  have hlen' : x'.length = x.length + 3 := by simp [hx']
  have hext : ∀ n < x.length + 3, at0 x' n = extend x ((n : ℤ) - 1) := by
    intro n hn
    unfold extend
    rcases Nat.lt_or_ge n 1 with h | h
    · have : n = 0 := by omega
      subst this
      rw [if_pos (by omega)]
      simp [hx', at0]
    · rw [if_neg (by omega)]
      have e : at0 x' n = at0 (x ++ [2 * x.getD (x.length - 1) 0 - x.getD (x.length - 2) 0, 3 * x.getD (x.length - 1) 0 - 2 * x.getD (x.length - 2) 0]) (n - 1) := by
        obtain ⟨m, rfl⟩ : ∃ m, n = m + 1 := ⟨n - 1, by omega⟩
        simp only [hx', at0, List.cons_append, List.nil_append, List.getD_cons_succ, Nat.add_sub_cancel]
      rw [e]
      rcases Nat.lt_or_ge (n - 1) x.length with h2 | h2
      · rw [if_pos (by omega), at0_of_lt _ _ (by simp; omega), at0_of_lt _ _ (by omega), List.getElem_append_left h2]
        congr 1
        omega
      · rw [if_neg (by omega)]
        rw [at0_of_lt _ _ (by simp; omega), List.getElem_append_right h2]
        rcases (by omega : n = x.length + 1 ∨ n = x.length + 2) with h3 | h3
        · rw [if_pos (by omega)]
          subst h3
          simp [at0]
        · rw [if_neg (by omega)]
          subst h3
          simp [at0]
  set N := (np.round (x.length * p.rate)).toNat with hN
  obtain ⟨c, h1, h2, h3, h4⟩ := prate.outer_spec (polyfit p.order.toNat) (1 / p.rate) (by positivity) x' x.length 0 0 N 0
    (by intro _; simp) (by intro _; simp)
  rw [List.drop_zero] at h2
  have hc : c = N := by
    by_contra hne
    have hlt := h4 (by omega)
    have hcN : ((c : ℤ) : ℝ) + 1 ≤ (np.round (x.length * p.rate) : ℝ) := by exact_mod_cast (by omega : (c : ℤ) + 1 ≤ np.round (x.length * p.rate))
    push_cast at hcN hlt
    have : (x.length : ℝ) * p.rate ≤ c := by
      have h5 : (x.length : ℝ) ≤ c / p.rate := by simpa [div_eq_mul_inv] using hlt
      rwa [le_div_iff₀ hr] at h5
    linarith
  have hf : p.filter polyfit (some x) = .ok (prate.outer (polyfit p.order.toNat) (1 / p.rate) x.length x' 0 N) := by
    unfold PolyRate.filter
    simp only [show ¬ x.length < 2 by omega, if_false, ho, hr.ne']
    rw [← hx', ← hN]
  refine ⟨_, hf, by rw [h2, List.length_map, List.length_range, hc]; omega, ?_⟩
  intro k hk
  rw [h2, List.length_map, List.length_range] at hk
  have hkt := round_bounds x.length p.rate hr k (by omega)
  refine ⟨hkt, ?_⟩
  have hpos : 0 ≤ (k : ℝ) / p.rate := by positivity
  have hj : ⌊(k : ℝ) / p.rate⌋₊ < x.length := (Nat.floor_lt hpos).mpr hkt
  rw [h2, List.getElem?_map, List.getElem?_range hk]
  simp only [Option.map_some, Option.some.injEq, Nat.zero_add]
  rw [mul_one_div]
  set i := ⌊(k : ℝ) / p.rate⌋₊ with hi
  have htake : (x'.drop i).take 4 = [extend x (i - 1), extend x i, extend x (i + 1), extend x (i + 2)] := by
    apply List.ext_getElem
    · simp; omega
    · intro n g1 g2
      have hn : n < 4 := by simpa using g2
      rw [List.getElem_take, List.getElem_drop, ← at0_of_lt x' (i + n) (by omega), hext _ (by omega)]
      rcases (by omega : n = 0 ∨ n = 1 ∨ n = 2 ∨ n = 3) with rfl | rfl | rfl | rfl
      · simp
      · simp only [List.getElem_cons_succ, List.getElem_cons_zero]; congr 1; omega
      · simp only [List.getElem_cons_succ, List.getElem_cons_zero]; congr 1; omega
      · simp only [List.getElem_cons_succ, List.getElem_cons_zero]; congr 1; omega
  rw [htake, polyval_polyAt]

/-- C33.  The count of output samples is `len(x) * rate` rounded to nearest, ties to even, for every order, whatever the fit returns. -/
theorem C33_length (polyfit : ℕ → List ℝ → List ℝ) (p : PolyRate) (hr : 0 ≤ p.rate) (h : p.order = 1 ∨ 0 < p.rate) (x : List ℝ) (hx : 2 ≤ x.length) :
    ∃ y, p.filter polyfit (some x) = .ok y ∧ IsRound (x.length * p.rate) y.length := by
  rcases eq_or_lt_of_le hr with h0 | h0
  · have ho := h.resolve_right (by rw [← h0]; exact lt_irrefl _)
    refine ⟨[], ?_, ?_⟩
    · unfold PolyRate.filter
      simp only [show ¬ x.length < 2 by omega, if_false, ho, if_true, ← h0, mul_zero]
      have : np.round 0 = 0 := by simp [np.round]
      rw [this]
      simp
    · rw [← h0, mul_zero]; simp [IsRound]
  · by_cases ho : p.order = 1
    · obtain ⟨y, h1, h2, -⟩ := linear_values polyfit p ho h0 x hx
      exact ⟨y, h1, by rw [h2]; exact np.round_spec _⟩
    · obtain ⟨y, h1, h2, -⟩ := fit_values polyfit p ho h0 x hx
      exact ⟨y, h1, by rw [h2]; exact np.round_spec _⟩

/-- The rounding is a function, so C33 determines the count. -/
example (x : ℝ) (m n : ℤ) (h : IsRound x m) (h' : IsRound x n) : m = n := IsRound.unique h h'

/-- Three samples at rate 1/2 give two samples: 1.5 is rounded to 2, the even neighbour. -/
example (polyfit : ℕ → List ℝ → List ℝ) (n : ℤ) (y : List ℝ)
    (h : ({ order := n, rate := 1 / 2 } : PolyRate).filter polyfit (some [3, 1, 2]) = .ok y) : y.length = 2 := by
  obtain ⟨y', h1, h2⟩ := C33_length polyfit { order := n, rate := 1 / 2 } (by norm_num) (Or.inr (by norm_num)) [3, 1, 2] (by simp)
  rw [h1] at h
  cases h
  have : IsRound ((([3, 1, 2] : List ℝ).length : ℝ) * (1 / 2)) 2 := by
    refine ⟨?_, fun _ => by decide⟩
    simp only [List.length_cons, List.length_nil]; norm_num
  exact_mod_cast IsRound.unique h2 this

/-- C33.  Rate zero and an order above one raise ZeroDivisionError. -/
theorem C33_zero_rate (polyfit : ℕ → List ℝ → List ℝ) (p : PolyRate) (h0 : p.rate = 0) (ho : p.order ≠ 1) (x : List ℝ) (hx : 2 ≤ x.length) :
    p.filter polyfit (some x) = .error .zeroDivisionError := by
  unfold PolyRate.filter
  simp only [show ¬ x.length < 2 by omega, if_false, ho, h0, if_true]

/-- The rate 0 with the order 3. -/
example (polyfit : ℕ → List ℝ → List ℝ) := C33_zero_rate polyfit ⟨3, 0⟩ rfl (by norm_num) [1, 2] (by simp)

/-- C33.  Signals of another dimension or shorter than two are rejected; so are a negative rate and a nonpositive order. -/
theorem C33_rejects (polyfit : ℕ → List ℝ → List ℝ) (p : PolyRate) (x : Option (List ℝ)) (hx : ∀ v, x = some v → v.length < 2) :
    p.filter polyfit x = .error .valueError := by
  cases x with
  | none => rfl
  | some v => simp [PolyRate.filter, hx v rfl]

/-- One sample. -/
example (polyfit : ℕ → List ℝ → List ℝ) := C33_rejects polyfit ⟨3, 2⟩ (some [1]) (by simp)

theorem C33_new_rejects (rate : ℝ) (order : ℤ) (h : rate < 0 ∨ order ≤ 0) : PolyRate.new rate order = .error .valueError := by
  unfold PolyRate.new
  by_cases h1 : rate < 0
  · simp [h1]
  · simp [h1, h.resolve_left h1]

/-- The order 0. -/
example := C33_new_rejects 2 0 (.inr le_rfl)

/-- A fit that can be exact is exact. -/
theorem polyfit_exact (order : ℕ) (d c e : List ℝ) (h : IsPolyfit order d c) (he : e.length = order + 1)
    (hz : ∀ i : ℕ, i < 4 → polyAt e ((i : ℝ) - 1) = at0 d i) : ∀ i : ℕ, i < 4 → polyAt c ((i : ℝ) - 1) = at0 d i := by
  have h0 : sqErr d e = 0 := by
    unfold sqErr
    apply sum_eq_zero
    intro i hi
    rw [hz i (mem_range.mp hi), sub_self]; norm_num
  have h1 : sqErr d c = 0 := by
    have := (h.2 e he).1
    rw [h0] at this
    exact le_antisymm this (sum_nonneg fun i _ => sq_nonneg _)
  intro i hi
  unfold sqErr at h1
  have := (sum_eq_zero_iff_of_nonneg (fun i _ => sq_nonneg _)).mp h1 i (mem_range.mpr hi)
  have := pow_eq_zero_iff (two_ne_zero) |>.mp this
  linarith

/-- The affine polynomial, with leading zeros. -/
theorem polyAt_affine (m : ℕ) (p q t : ℝ) : polyAt (List.replicate m 0 ++ [q, p]) t = p + q * t := by
  rw [← polyval_polyAt]
  unfold np.polyval
  rw [List.foldl_append]
  have : ∀ m, List.foldl (fun acc a => acc * t + a) 0 (List.replicate m (0 : ℝ)) = 0 := by
    intro m
    induction m with
    | zero => rfl
    | succ m ih => rw [List.replicate_succ, List.foldl_cons]; simpa using ih
  rw [this]
  simp; ring

theorem affine_extend (x : List ℝ) (hx : 2 ≤ x.length) (p q : ℝ) (h : ∀ n < x.length, at0 x n = p + q * n) (n : ℤ) (h1 : -1 ≤ n) (h2 : n ≤ x.length + 1) :
    extend x n = p + q * n := by
  unfold extend
  have hl1 : ((x.length - 1 : ℕ) : ℝ) = (x.length : ℝ) - 1 := by rw [Nat.cast_sub (by omega)]; norm_num
  have hl2 : ((x.length - 2 : ℕ) : ℝ) = (x.length : ℝ) - 2 := by rw [Nat.cast_sub (by omega)]; norm_num
  split_ifs with a b c
  · have : n = -1 := by omega
    subst this
    rw [h 0 (by omega), h 1 (by omega)]; push_cast; ring
  · rw [h _ (by omega)]
    have : ((n.toNat : ℕ) : ℝ) = n := by
      have : ((n.toNat : ℤ) : ℝ) = n := by rw [Int.toNat_of_nonneg (by omega)]
      exact_mod_cast this
    rw [this]
  · rw [h _ (by omega), h _ (by omega), hl1, hl2, c]; push_cast; ring
  · have : n = x.length + 1 := by omega
    rw [h _ (by omega), h _ (by omega), hl1, hl2, this]; push_cast; ring

/-- C34.  An affine signal is reproduced exactly, for the orders one to three, at every output sample including the edges. -/
theorem C34_affine (polyfit : ℕ → List ℝ → List ℝ) (hfit : ∀ n d, d.length = 4 → IsPolyfit n d (polyfit n d)) (f : PolyRate)
    (ho : 1 ≤ f.order) (ho3 : f.order ≤ 3) (hr : 0 < f.rate) (x : List ℝ) (hx : 2 ≤ x.length) (p q : ℝ) (h : ∀ n < x.length, at0 x n = p + q * n) :
    ∃ y, f.filter polyfit (some x) = .ok y ∧ IsRound (x.length * f.rate) y.length ∧ ∀ k < y.length, y[k]? = some (p + q * (k / f.rate)) := by
  by_cases h1 : f.order = 1
  · obtain ⟨y, g1, g2, g3⟩ := linear_values polyfit f h1 hr x hx
    refine ⟨y, g1, by rw [g2]; exact np.round_spec _, fun k hk => ?_⟩
    rw [g3 k hk]
    have hkt := round_bounds x.length f.rate hr k (by omega)
    have hpos : 0 ≤ (k : ℝ) / f.rate := by positivity
    have hj : ⌊(k : ℝ) / f.rate⌋₊ < x.length := (Nat.floor_lt hpos).mpr hkt
    have e : ∀ n ≤ x.length, extend1 x n = p + q * n := by
      intro n hn
      have := affine_extend x hx p q h n (by omega) (by omega)
      unfold extend1
      unfold extend at this
      rw [if_neg (by omega)] at this
      by_cases hlt : n < x.length
      · rw [if_pos hlt, h n hlt]
      · have hn' : n = x.length := by omega
        rw [if_neg (by omega), if_pos (by omega)] at this
        rw [if_neg hlt, this]; push_cast; ring
    rw [e _ (by omega), e _ (by omega)]
    push_cast
    congr 1
    ring
  · obtain ⟨y, g1, g2, g3⟩ := fit_values polyfit f h1 hr x hx
    refine ⟨y, g1, by rw [g2]; exact np.round_spec _, fun k hk => ?_⟩
    obtain ⟨hkt, hyk⟩ := g3 k hk
    rw [hyk]
    have hpos : 0 ≤ (k : ℝ) / f.rate := by positivity
    have hj : ⌊(k : ℝ) / f.rate⌋₊ < x.length := (Nat.floor_lt hpos).mpr hkt
    simp only
    set i := ⌊(k : ℝ) / f.rate⌋₊ with hi
    rw [affine_extend x hx p q h _ (by omega) (by omega), affine_extend x hx p q h _ (by omega) (by omega),
      affine_extend x hx p q h _ (by omega) (by omega), affine_extend x hx p q h _ (by omega) (by omega)]
    set d := [p + q * (((i : ℤ) - 1 : ℤ) : ℝ), p + q * ((i : ℤ) : ℝ), p + q * (((i : ℤ) + 1 : ℤ) : ℝ), p + q * (((i : ℤ) + 2 : ℤ) : ℝ)] with hd
    have hc := hfit f.order.toNat d rfl
    have hex := polyfit_exact f.order.toNat d _ (List.replicate (f.order.toNat - 1) 0 ++ [q, p + q * i]) hc (by simp; omega) (by
      intro j hj
      rw [polyAt_affine]
      rcases (by omega : j = 0 ∨ j = 1 ∨ j = 2 ∨ j = 3) with rfl | rfl | rfl | rfl <;> simp [hd, at0] <;> ring)
    have hlen := hc.1
    generalize polyfit f.order.toNat d = c at *
    congr 1
    have e0 := hex 0 (by omega)
    have e1 := hex 1 (by omega)
    have e2 := hex 2 (by omega)
    have e3 := hex 3 (by omega)
    generalize (k : ℝ) / f.rate = t at *
    rcases (by omega : f.order.toNat = 2 ∨ f.order.toNat = 3) with h2 | h2
    · rw [h2] at hlen
      match c, hlen with
      | [a, b, g], _ =>
        simp [polyAt, sum_range_succ, at0, hd] at e0 e1 e2 ⊢
        have ha : a = 0 := by linarith
        have hb : b = q := by linarith
        have hg : g = p + q * i := by linarith
        rw [ha, hb, hg]; ring
    · rw [h2] at hlen
      match c, hlen with
      | [a, b, g, l], _ =>
        simp [polyAt, sum_range_succ, at0, hd] at e0 e1 e2 e3 ⊢
        norm_num at e0 e1 e2 e3
        have ha : a = 0 := by linarith
        have hb : b = 0 := by linarith
        have hg : g = q := by linarith
        have hl : l = p + q * i := by linarith
        rw [ha, hb, hg, hl]; ring

/-- The assumption on the fit can be met, for all orders and data. -/
example : ∃ polyfit : ℕ → List ℝ → List ℝ, ∀ n d, d.length = 4 → IsPolyfit n d (polyfit n d) :=
  ⟨fun n d => (polyfit_exists n d).choose, fun n d _ => (polyfit_exists n d).choose_spec⟩

/-- A concrete affine signal: 3, 5, 7 at rate 2 gives 3, 4, 5, 6, 7, 8 for the default order. -/
example (polyfit : ℕ → List ℝ → List ℝ) (hfit : ∀ n d, d.length = 4 → IsPolyfit n d (polyfit n d)) :
    ∃ y, ({ order := 3, rate := 2 } : PolyRate).filter polyfit (some [3, 5, 7]) = .ok y ∧ y.length = 6 ∧ y[5]? = some 8 := by
  obtain ⟨y, h1, h2, h3⟩ := C34_affine polyfit hfit { order := 3, rate := 2 } (by simp) (by simp) (by norm_num) [3, 5, 7] (by simp) 3 2 (by
    intro n hn
    simp only [List.length_cons, List.length_nil] at hn
    rcases (by omega : n = 0 ∨ n = 1 ∨ n = 2) with rfl | rfl | rfl <;> norm_num [at0])
  have h4 : IsRound ((([3, 5, 7] : List ℝ).length : ℝ) * 2) 6 := by
    simp only [List.length_cons, List.length_nil, IsRound]; norm_num
  have h5 : y.length = 6 := by exact_mod_cast IsRound.unique h2 h4
  refine ⟨y, h1, h5, ?_⟩
  rw [h3 5 (by omega)]
  norm_num

/-- C34 fails for order four: the fit is then underdetermined, and the one of least norm bends between the samples. -/
theorem C34_order_four (polyfit : ℕ → List ℝ → List ℝ) (hfit : ∀ n d, d.length = 4 → IsPolyfit n d (polyfit n d)) :
    ∃ y, ({ order := 4, rate := 2 } : PolyRate).filter polyfit (some [0, 1]) = .ok y ∧ y.length = 4 ∧ y[1]? ≠ some (1 / 2) := by
  obtain ⟨y, g1, g2, g3⟩ := fit_values polyfit { order := 4, rate := 2 } (by simp) (by norm_num) [0, 1] (by simp)
  have hround : np.round (([0, 1] : List ℝ).length * 2) = 4 := by
    have : IsRound ((([0, 1] : List ℝ).length : ℝ) * 2) 4 := by
      simp [IsRound]; norm_num
    exact IsRound.unique (np.round_spec _) this
  simp only at g2
  rw [hround] at g2
  have hlen : y.length = 4 := by omega
  refine ⟨y, g1, hlen, ?_⟩
  have h1 := (g3 1 (by omega)).2
  have hfl : ⌊((1 : ℕ) : ℝ) / 2⌋₊ = 0 := by norm_num
  simp only [hfl] at h1
  rw [h1]
  simp only [CharP.cast_eq_zero]
  have hd : [extend [0, 1] (0 - 1), extend [0, 1] 0, extend [0, 1] (0 + 1), extend [0, 1] (0 + 2)] = [-1, 0, 1, 2] := by
    simp [extend, at0]
  rw [hd, show Int.toNat 4 = 4 from rfl]
  have hc := hfit 4 [-1, 0, 1, 2] rfl
  have hex := polyfit_exact 4 [-1, 0, 1, 2] _ [0, 0, 0, 1, 0] hc rfl (by
      intro j hj
      rcases (by omega : j = 0 ∨ j = 1 ∨ j = 2 ∨ j = 3) with rfl | rfl | rfl | rfl <;> simp [polyAt, sum_range_succ, at0] <;> norm_num)
  have hl := hc.1
  generalize polyfit 4 [-1, 0, 1, 2] = c at *
  match c, hl with
  | [a, b, g, l, m], _ =>
    have e0 := hex 0 (by omega)
    have e1 := hex 1 (by omega)
    have e2 := hex 2 (by omega)
    have e3 := hex 3 (by omega)
    simp [polyAt, sum_range_succ, at0] at e0 e1 e2 e3
    norm_num at e0 e1 e2 e3
    intro hh
    simp [polyAt, sum_range_succ, at0] at hh
    norm_num at hh
    have ha : a = 0 := by linarith
    have hb : b = 0 := by linarith
    have hg : g = 0 := by linarith
    have hl' : l = 1 := by linarith
    have hm : m = 0 := by linarith
    subst ha hb hg hl' hm
    have := hc.2 [-1 / 47, 2 / 47, 1 / 47, 45 / 47, 0] rfl
    have hs : sqErr [-1, 0, 1, 2] [0, 0, 0, 1, 0] = sqErr [-1, 0, 1, 2] [-1 / 47, 2 / 47, 1 / 47, 45 / 47, 0] := by
      simp [sqErr, polyAt, sum_range_succ, at0]; norm_num
    have := this.2 hs
    simp [fitNorm, sum_range_succ, at0] at this
    norm_num at this

/-- C35.  With order one, each output sample is on the segment between the two neighbouring samples of the extended signal at its time
`k / rate`: it is between them, and at integer times it is the sample. -/
theorem C35_linear (polyfit : ℕ → List ℝ → List ℝ) (p : PolyRate) (ho : p.order = 1) (hr : 0 < p.rate) (x : List ℝ) (hx : 2 ≤ x.length) :
    ∃ y, p.filter polyfit (some x) = .ok y ∧ IsRound (x.length * p.rate) y.length ∧ ∀ k < y.length, ∃ v, y[k]? = some v ∧
      (∀ i : ℕ, (i : ℝ) ≤ k / p.rate → (k : ℝ) / p.rate ≤ i + 1 →
        i < x.length + 1 ∧ v = extend1 x i + (extend1 x (i + 1) - extend1 x i) * (k / p.rate - i) ∧
        min (extend1 x i) (extend1 x (i + 1)) ≤ v ∧ v ≤ max (extend1 x i) (extend1 x (i + 1))) ∧
      (∀ i : ℕ, (k : ℝ) / p.rate = i → i < x.length ∧ v = at0 x i) := by
  obtain ⟨y, h1, h2, h3⟩ := linear_values polyfit p ho hr x hx
  refine ⟨y, h1, by rw [h2]; exact np.round_spec _, fun k hk => ⟨_, h3 k hk, ?_, ?_⟩⟩
  · intro i hi1 hi2
    have hkt := round_bounds x.length p.rate hr k (by omega)
    have hpos : 0 ≤ (k : ℝ) / p.rate := by positivity
    have hi : i < x.length := by exact_mod_cast lt_of_le_of_lt hi1 hkt
    generalize (k : ℝ) / p.rate = t at *
    have hv : extend1 x ⌊t⌋₊ + (extend1 x (⌊t⌋₊ + 1) - extend1 x ⌊t⌋₊) * (t - ⌊t⌋₊) = extend1 x i + (extend1 x (i + 1) - extend1 x i) * (t - i) := by
      rcases eq_or_lt_of_le hi2 with h | h
      · have : ⌊t⌋₊ = i + 1 := by rw [h]; exact_mod_cast Nat.floor_natCast (R := ℝ) (i + 1)
        rw [this, h]; push_cast; ring
      · have : ⌊t⌋₊ = i := by rw [Nat.floor_eq_iff hpos]; exact ⟨hi1, h⟩
        rw [this]
    refine ⟨by omega, hv, ?_, ?_⟩
    · rw [hv]
      generalize extend1 x i = a
      generalize extend1 x (i + 1) = b
      rcases le_total a b with h | h
      · rw [min_eq_left h]; nlinarith
      · rw [min_eq_right h]; nlinarith
    · rw [hv]
      generalize extend1 x i = a
      generalize extend1 x (i + 1) = b
      rcases le_total a b with h | h
      · rw [max_eq_right h]; nlinarith
      · rw [max_eq_left h]; nlinarith
  · intro i hi
    have hkt := round_bounds x.length p.rate hr k (by omega)
    have hi' : i < x.length := by rw [hi] at hkt; exact_mod_cast hkt
    refine ⟨hi', ?_⟩
    rw [hi, Nat.floor_natCast, sub_self, mul_zero, add_zero]
    simp [extend1, hi']

/-- A concrete case: 0, 4 at rate 2 with order one gives 0, 2, 4, 6. -/
example (polyfit : ℕ → List ℝ → List ℝ) :
    ∃ y, ({ order := 1, rate := 2 } : PolyRate).filter polyfit (some [0, 4]) = .ok y ∧ y.length = 4 ∧ y[1]? = some 2 := by
  obtain ⟨y, h1, h2, h3⟩ := C35_linear polyfit { order := 1, rate := 2 } rfl (by norm_num) [0, 4] (by simp)
  have h4 : IsRound ((([0, 4] : List ℝ).length : ℝ) * 2) 4 := by
    simp only [List.length_cons, List.length_nil, IsRound]; norm_num
  have h5 : y.length = 4 := by exact_mod_cast IsRound.unique h2 h4
  refine ⟨y, h1, h5, ?_⟩
  obtain ⟨v, g1, g2, -⟩ := h3 1 (by omega)
  obtain ⟨-, g3, -⟩ := g2 0 (by norm_num) (by norm_num)
  rw [g1, g3]
  norm_num [extend1, at0]

/-- C35.  With order one and rate one the output is the input. -/
theorem C35_identity (polyfit : ℕ → List ℝ → List ℝ) (x : List ℝ) (hx : 2 ≤ x.length) :
    ({ order := 1, rate := 1 } : PolyRate).filter polyfit (some x) = .ok x := by
  obtain ⟨y, h1, h2, h3⟩ := C35_linear polyfit { order := 1, rate := 1 } rfl one_pos x hx
  rw [h1]
  congr 1
  have hl : y.length = x.length := by
    have h4 : IsRound ((x.length : ℝ) * 1) (x.length : ℤ) := by simp [IsRound]
    have := IsRound.unique h2 h4
    omega
  apply List.ext_getElem hl
  intro k a b
  obtain ⟨v, g1, -, g2⟩ := h3 k a
  obtain ⟨-, g3⟩ := g2 k (by simp)
  rw [List.getElem?_eq_getElem a] at g1
  rw [Option.some.inj g1, g3, at0_of_lt _ _ b]

/-- Three samples. -/
example (polyfit : ℕ → List ℝ → List ℝ) := C35_identity polyfit [1, 2, 4] (by simp)

/-- C35 for orders of at least three: at integer times the output is the sample. -/
theorem C35_interpolates (polyfit : ℕ → List ℝ → List ℝ) (hfit : ∀ n d, d.length = 4 → IsPolyfit n d (polyfit n d)) (f : PolyRate)
    (ho : 3 ≤ f.order) (hr : 0 < f.rate) (x : List ℝ) (hx : 2 ≤ x.length) :
    ∃ y, f.filter polyfit (some x) = .ok y ∧ IsRound (x.length * f.rate) y.length ∧
      ∀ k < y.length, ∀ i : ℕ, (k : ℝ) / f.rate = i → i < x.length ∧ y[k]? = some (at0 x i) := by
  obtain ⟨y, g1, g2, g3⟩ := fit_values polyfit f (by omega) hr x hx
  refine ⟨y, g1, by rw [g2]; exact np.round_spec _, fun k hk i hi => ?_⟩
  obtain ⟨hkt, hyk⟩ := g3 k hk
  have hi' : i < x.length := by rw [hi] at hkt; exact_mod_cast hkt
  refine ⟨hi', ?_⟩
  rw [hyk]
  simp only [hi, Nat.floor_natCast, sub_self]
  set d := [extend x ((i : ℤ) - 1), extend x i, extend x (i + 1), extend x (i + 2)] with hd
  obtain ⟨d0, hd0⟩ : ∃ v, v = extend x ((i : ℤ) - 1) := ⟨_, rfl⟩
  obtain ⟨d1, hd1⟩ : ∃ v, v = extend x (i : ℤ) := ⟨_, rfl⟩
  obtain ⟨d2, hd2⟩ : ∃ v, v = extend x ((i : ℤ) + 1) := ⟨_, rfl⟩
  obtain ⟨d3, hd3⟩ : ∃ v, v = extend x ((i : ℤ) + 2) := ⟨_, rfl⟩
  rw [← hd0, ← hd1, ← hd2, ← hd3] at hd
  have hc := hfit f.order.toNat d rfl
  have hpad : ∀ (m : ℕ) (a b g l t : ℝ), polyAt (List.replicate m 0 ++ [a, b, g, l]) t = a * t ^ 3 + b * t ^ 2 + g * t + l := by
    intro m a b g l t
    rw [← polyval_polyAt]
    unfold np.polyval
    rw [List.foldl_append]
    have : ∀ m, List.foldl (fun acc a => acc * t + a) 0 (List.replicate m (0 : ℝ)) = 0 := by
      intro m
      induction m with
      | zero => rfl
      | succ m ih => rw [List.replicate_succ, List.foldl_cons]; simpa using ih
    rw [this]
    simp; ring
  have hex := polyfit_exact f.order.toNat d _ (List.replicate (f.order.toNat - 3) 0 ++
      [(-d0 + 3 * d1 - 3 * d2 + d3) / 6, (d0 - 2 * d1 + d2) / 2, (-2 * d0 - 3 * d1 + 6 * d2 - d3) / 6, d1]) hc (by simp; omega) (by
    intro j hj
    rw [hpad]
    rcases (by omega : j = 0 ∨ j = 1 ∨ j = 2 ∨ j = 3) with rfl | rfl | rfl | rfl <;> simp [hd, at0] <;> ring) 1 (by omega)
  rw [Nat.cast_one, sub_self] at hex
  rw [hex]
  have : at0 d 1 = d1 := by rw [hd]; rfl
  rw [this, hd1]
  unfold extend
  rw [if_neg (by omega), if_pos (by omega)]
  simp

/-- The hypotheses of `C35_interpolates` hold, with the fit which `C34_order_four` takes too. -/
example (polyfit : ℕ → List ℝ → List ℝ) (hfit : ∀ n d, d.length = 4 → IsPolyfit n d (polyfit n d)) :=
  C35_interpolates polyfit hfit ⟨3, 3 / 2⟩ (by norm_num) (by norm_num) [1, 2, 4] (by simp)

end Verif.Props
