import Verif.Lemmas.RateRounded
import Verif.Props.PolyRate
import Verif.Props.Polyphase

/-!
Property C117: the rate filters with rounded times (diamondback/filters/polynomial_rate_filter.py, diamondback/filters/polyphase_rate_filter.py).
-/

namespace Verif.Props

open Spec

/-- C117, check of the model: without rounding it is the model of the other properties. -/
theorem C117_exact_polynomial (polyfit : ℕ → List ℝ → List ℝ) (p : PolyRate) (ho : p.order ≠ 1) (x : List ℝ) :
    p.filterF id polyfit x = p.filter polyfit (some x) := by
  have hi : ∀ (b : List ℝ) (v : ℝ) (n : ℕ) (index : ℝ), prate.innerF id b v n index = prate.inner b v n index := by
    intro b v n
    induction n with
    | zero => intro index; rfl
    | succ n ih => intro index; simp only [prate.innerF, prate.inner, id, ih]
  have houter : ∀ (fit : List ℝ → List ℝ) (v : ℝ) (m : ℕ) (xs : List ℝ) (index : ℝ) (n : ℕ), prate.outerF id fit v m xs index n = prate.outer fit v m xs index n := by
    intro fit v m
    induction m with
    | zero => intro xs index n; rfl
    | succ m ih => intro xs index n; simp only [prate.outerF, prate.outer, hi, id, ih]
  unfold PolyRate.filterF PolyRate.filter
  simp only [ho, if_false, houter, id]

/-- The order 3. -/
example (polyfit : ℕ → List ℝ → List ℝ) := C117_exact_polynomial polyfit ⟨3, 3 / 2⟩ (by norm_num) [1, 4, 2]

/-- C117, check of the model: without rounding it is the model of the other properties. -/
theorem C117_exact_polyphase (B : List (List ℝ)) (p : Polyphase) (x : List ℝ) : p.filterF id B x = p.filter B x := by
  have hi : ∀ (rr : ℝ) (xs : List ℝ) (index : ℝ) (s : List ℝ), pp.innerF id rr xs index s = pp.inner rr xs index s := by
    intro rr xs
    induction xs with
    | nil => intro index s; rfl
    | cons x xs ih => intro index s; simp only [pp.innerF, pp.inner, id, ih]
  have hb : ∀ t, pp.bodyF id B p.rate t = pp.body B p.rate t := by
    intro t
    unfold pp.bodyF pp.body
    simp only [hi, id]
    rfl
  have hl : ∀ fuel t, pp.loopF id B p.rate fuel t = pp.loop B p.rate fuel t := by
    intro fuel
    induction fuel with
    | zero => intro t; rfl
    | succ fuel ih => intro t; simp only [pp.loopF, pp.loop, hb, ih]; rfl
  unfold Polyphase.filterF Polyphase.filter
  simp only [hl, id]
  rfl

private theorem extended (x : List ℝ) (n : ℕ) (hn : n < x.length + 3) :
    at0 ([2 * x.getD 0 0 - x.getD 1 0] ++ x ++
      [2 * x.getD (x.length - 1) 0 - x.getD (x.length - 2) 0, 3 * x.getD (x.length - 1) 0 - 2 * x.getD (x.length - 2) 0]) n = extend x ((n : ℤ) - 1) := by
  set x' := [2 * x.getD 0 0 - x.getD 1 0] ++ x ++
    [2 * x.getD (x.length - 1) 0 - x.getD (x.length - 2) 0, 3 * x.getD (x.length - 1) 0 - 2 * x.getD (x.length - 2) 0] with hx'
  unfold extend
  rcases Nat.lt_or_ge n 1 with h | h
  · have : n = 0 := by omega
    subst this
    rw [if_pos (by omega)]
    simp [hx', at0]
  · rw [if_neg (by omega)]
    have e : at0 x' n = at0 (x ++ [2 * x.getD (x.length - 1) 0 - x.getD (x.length - 2) 0, 3 * x.getD (x.length - 1) 0 - 2 * x.getD (x.length - 2) 0]) (n - 1) := by
      obtain ⟨m, rfl⟩ : ∃ m, n = m + 1 := ⟨n - 1, by omega⟩
      simp only [hx', at0, List.cons_append, List.nil_append, List.getD_cons_succ, Nat.add_sub_cancel]
    rw [e]
    rcases Nat.lt_or_ge (n - 1) x.length with h2 | h2
    · rw [if_pos (by omega), at0_of_lt _ _ (by simp; omega), at0_of_lt _ _ (by omega), List.getElem_append_left h2]
      congr 1
      omega
    · rw [if_neg (by omega)]
      rw [at0_of_lt _ _ (by simp; omega), List.getElem_append_right h2]
      rcases (by omega : n = x.length + 1 ∨ n = x.length + 2) with h3 | h3
      · rw [if_pos (by omega)]
        subst h3
        simp [at0]
      · rw [if_neg (by omega)]
        subst h3
        simp [at0]

private theorem windowed (x : List ℝ) (hx : 2 ≤ x.length) (i : ℕ) (hi : i < x.length) :
    (([2 * x.getD 0 0 - x.getD 1 0] ++ x ++
      [2 * x.getD (x.length - 1) 0 - x.getD (x.length - 2) 0, 3 * x.getD (x.length - 1) 0 - 2 * x.getD (x.length - 2) 0]).drop i).take 4 =
      [extend x (i - 1), extend x i, extend x (i + 1), extend x (i + 2)] := by
  have hext := extended x
  generalize hx' : [2 * x.getD 0 0 - x.getD 1 0] ++ x ++
    [2 * x.getD (x.length - 1) 0 - x.getD (x.length - 2) 0, 3 * x.getD (x.length - 1) 0 - 2 * x.getD (x.length - 2) 0] = x' at *
  have hlen' : x'.length = x.length + 3 := by rw [← hx']; simp
  apply List.ext_getElem
  · simp; omega
  · intro n g1 g2
    have hn : n < 4 := by simpa using g2
    rw [List.getElem_take, List.getElem_drop, ← at0_of_lt x' (i + n) (by omega), hext _ (by omega)]
    rcases (by omega : n = 0 ∨ n = 1 ∨ n = 2 ∨ n = 3) with rfl | rfl | rfl | rfl
    · simp
    · simp only [List.getElem_cons_succ, List.getElem_cons_zero]; congr 1; omega
    · simp only [List.getElem_cons_succ, List.getElem_cons_zero]; congr 1; omega
    · simp only [List.getElem_cons_succ, List.getElem_cons_zero]; congr 1; omega

/-- The number of outputs: fewer than `m` of them would end before the signal does. -/
private theorem enough (R rate δ δp F : ℝ) (hR : 0 < R) (hr : 0 < rate) (hδ0 : 0 ≤ δ) (n c : ℕ) (m : ℤ) (hm : IsRound F m) (hF : |F - n * rate| ≤ δp)
    (hsmall : δp + rate / R * ((n + 2 * (n * rate) + 1) * δ) < 1 / 2) (τ : ℝ) (hτ : Timed R (R / rate) 0 δ n c τ) (hτ0 : -δ ≤ τ) : m ≤ c := by
  by_contra hlt
  push Not at hlt
  have hc : ((c : ℤ) : ℝ) + 1 ≤ m := by exact_mod_cast hlt
  push_cast at hc
  have hm' := abs_le.mp hm.1
  have hF' := abs_le.mp hF
  have hq : 0 < rate / R := div_pos hr hR
  have hn : (0 : ℝ) ≤ n * rate := by positivity
  have hE : 0 ≤ rate / R * ((n + 2 * (n * rate) + 1) * δ) := by positivity
  have hc2 : (c : ℝ) + 1 / 2 - δp ≤ n * rate := by linarith [hm'.1, hm'.2, hF'.1, hF'.2]
  have h1 := (abs_le.mp hτ).2
  have h2 : R * n - c * (R / rate) ≤ (n + 2 * c + 1) * δ := by linarith
  have h3 : rate / R * (R * n - c * (R / rate)) = n * rate - c := by field_simp
  have h4 := mul_le_mul_of_nonneg_left h2 hq.le
  rw [h3] at h4
  have h5 : ((n : ℝ) + 2 * c + 1) * δ ≤ (n + 2 * (n * rate) + 1) * δ := by
    apply mul_le_mul_of_nonneg_right _ hδ0
    linarith
  have h6 := mul_le_mul_of_nonneg_left h5 hq.le
  linarith

/-- C117.  The loop of PolynomialRateFilter when every operation on times has an error of at most `δ`.  No exception; at most the number of outputs
which was allocated; output `k` is the value at `τ` of the fit of some interval `i` of the signal, and the time `i + τ` at which the signal is evaluated is
within `(i + 2 k) δ` of `k / rate`.  If the accumulated error stays below half an output period every output is computed. -/
theorem C117_polynomial (fl : ℝ → ℝ) (δ : ℝ) (polyfit : ℕ → List ℝ → List ℝ) (p : PolyRate) (hr : 0 < p.rate) (x : List ℝ) (hx : 2 ≤ x.length)
    (hδ : 4 * δ ≤ 1 / p.rate) (hδ1 : δ ≤ 1) (hfl : ∀ z, |z| ≤ 1 / p.rate + 3 → |fl z - z| ≤ δ) :
    ∃ (y : List ℝ) (m : ℤ), p.filterF fl polyfit x = .ok y ∧ IsRound (fl (x.length * p.rate)) m ∧ (y.length : ℤ) ≤ max m 0 ∧
      (∀ k < y.length, ∃ (i : ℕ) (τ : ℝ), i < x.length ∧ |(i + τ) - k / p.rate| ≤ (i + 2 * k) * δ ∧ -δ ≤ τ ∧ τ < 1 ∧
        y[k]? = some (polyAt (polyfit p.order.toNat [extend x (i - 1), extend x i, extend x (i + 1), extend x (i + 2)]) τ)) ∧
      ∀ δp, |fl (x.length * p.rate) - x.length * p.rate| ≤ δp → δp + p.rate * ((x.length + 2 * (x.length * p.rate) + 1) * δ) < 1 / 2 → (y.length : ℤ) = max m 0 := by
  have hw : 0 < 1 / p.rate := by positivity
  have hv := hfl (1 / p.rate) (by rw [abs_of_pos hw]; linarith)
  have hδ0 : 0 ≤ δ := le_trans (abs_nonneg _) hv
  have ht0 : Timed 1 (1 / p.rate) 0 δ 0 0 0 := by simp [Timed]
  obtain ⟨g1, g2, g3⟩ := prate.outerF_spec fl (polyfit p.order.toNat) (1 / p.rate) (fl (1 / p.rate)) δ hv hδ hδ1 hfl
    ([2 * x.getD 0 0 - x.getD 1 0] ++ x ++ [2 * x.getD (x.length - 1) 0 - x.getD (x.length - 2) 0, 3 * x.getD (x.length - 1) 0 - 2 * x.getD (x.length - 2) 0])
    x.length 0 0 (np.round (fl (x.length * p.rate))).toNat 0 ht0 (by linarith) (by linarith)
  rw [List.drop_zero] at g1 g2 g3
  refine ⟨_, np.round (fl (x.length * p.rate)), by unfold PolyRate.filterF; rw [if_neg (by omega), if_neg hr.ne'], np.round_spec _, by omega, ?_, ?_⟩
  · intro k hk
    obtain ⟨i, τ, t1, t2, t3, t4, t5⟩ := g2 k hk
    refine ⟨i, τ, by omega, ?_, t3, t4, ?_⟩
    · have : |1 * (i : ℝ) + τ - (0 + ((0 + k : ℕ) : ℝ) * (1 / p.rate))| ≤ (i + 2 * ((0 + k : ℕ) : ℝ)) * δ := t2
      rw [Nat.zero_add] at this
      rwa [one_mul, zero_add, mul_one_div] at this
    · rw [t5, windowed x hx i (by omega), polyval_polyAt]
  · intro δp hp hs
    by_contra hne
    obtain ⟨τ, t1, t2⟩ := g3 (by omega)
    rw [Nat.zero_add, Nat.zero_add] at t1
    have := enough 1 p.rate δ δp (fl (x.length * p.rate)) one_pos hr hδ0 x.length _ _ (np.round_spec _) hp (by simpa using hs) τ t1 t2
    omega

/-- C117.  The loop of PolyphaseRateFilter when every operation on times has an error of at most `δ`, which is in units of a row of the bank.  From every
state whose time is in the range below, in which a new filter and every state after a call is: no exception, the loop ends, the row is within the bank; output `k` weighs the samples
up to some `i` with the row of the time `τ`, and `len(B) i + τ` is within `(i + 2 k) δ` of `index + k len(B) / rate`. -/
theorem C117_polyphase (fl : ℝ → ℝ) (δ : ℝ) (cc : ℕ) (B : List (List ℝ)) (hB : IsBank cc B) (p : Polyphase) (hs : p.s.length = cc) (hr : 0 < p.rate)
    (hlow : -δ ≤ p.index) (hhigh : p.index ≤ B.length + B.length / p.rate + 1) (x : List ℝ) (hx : x ≠ [])
    (hδ : 4 * δ ≤ B.length / p.rate) (hδ1 : 4 * δ ≤ 1) (hfl : ∀ z, |z| ≤ B.length + B.length / p.rate + 1 → |fl z - z| ≤ δ) :
    ∃ (y : List ℝ) (p' : Polyphase) (m : ℤ), p.filterF fl B x = (.ok y, p') ∧ p'.s.length = cc ∧ p'.rate = p.rate ∧ -δ ≤ p'.index ∧
      p'.index ≤ B.length + B.length / p.rate + 1 ∧ IsRound (fl (x.length * p.rate)) m ∧ (y.length : ℤ) ≤ max m 0 ∧
      (∃ t, pp.loopF fl B p.rate (x.length + m.toNat) (p.startF fl x) = (.ok (), t) ∧ pp.guard t = false) ∧
      (∀ k < y.length, ∃ (i : ℕ) (τ : ℝ) (j : ℤ) (row : List ℝ), i < x.length ∧ |(B.length * i + τ) - (p.index + k * (B.length / p.rate))| ≤ (i + 2 * k) * δ ∧
        -δ ≤ τ ∧ τ < B.length ∧ IsRound τ j ∧ 0 ≤ j ∧ B[(min j (B.length - 1)).toNat]? = some row ∧ y[k]? = some (weigh row x p.s i)) ∧
      (p.index = 0 → ∀ δp, |fl (x.length * p.rate) - x.length * p.rate| ≤ δp →
        δp + p.rate / B.length * ((x.length + 2 * (x.length * p.rate) + 1) * δ) < 1 / 2 → (y.length : ℤ) = max m 0) := by
  obtain ⟨h1, h2, h3⟩ := hB
  have hs0 : p.s ≠ [] := by intro h; rw [h] at hs; simp at hs; omega
  have hpos1 : (1 : ℝ) ≤ B.length := by exact_mod_cast List.length_pos_of_ne_nil h1
  have hpos : (0 : ℝ) < B.length := by linarith
  have hw : 0 < (B.length : ℝ) / p.rate := by positivity
  have hδ0 : 0 ≤ δ := le_trans (abs_nonneg _) (hfl 0 (by rw [abs_zero]; linarith))
  set n0 := (np.round (fl (x.length * p.rate))).toNat with hn0
  have hinv : pp.InvF B (B.length / p.rate) p.index δ (B.length + B.length / p.rate + 1) x p.s n0 0 0 (p.startF fl x) := by
    refine ⟨by simp, by simp, rfl, by simp [Polyphase.startF, Timed], hlow, hhigh, ⟨rfl, ?_⟩, rfl, rfl, by simp⟩
    simp only [Polyphase.startF, List.take_zero, List.reverse_nil, List.nil_append]
    rw [List.take_of_length_le]; simp
  obtain ⟨t, i, c, g1, g2, g3⟩ := pp.loopF_spec fl B p.rate p.index δ x p.s n0 h1 (fun r hr => by rw [h3 r hr, hs]) hs0 hr hδ0 hδ hδ1
    (fun z a b => hfl z (by rw [abs_le]; constructor <;> linarith)) _ 0 0 _ hinv (by omega : _ ≤ x.length + n0)
  refine ⟨t.y, { p with index := t.index, s := t.s }, np.round (fl (x.length * p.rate)), ?_, by rw [g2.hs.1, hs], rfl, g2.hlow, g2.hhigh, np.round_spec _, ?_,
    ⟨t, g1, g3⟩, ?_, ?_⟩
  · unfold Polyphase.filterF
    rw [if_neg hx, ← hn0, g1]
  · have := g2.hj; have := g2.hlen; omega
  · intro k hk
    rw [g2.hlen] at hk
    obtain ⟨i', τ, t1, t2, t3, t4, t5⟩ := g2.hy k hk
    refine ⟨i', τ, np.round τ, pp.rowAt B τ, t1, t2, t3, t4, np.round_spec _, np.round_nonneg' _ (by linarith), ?_, t5⟩
    have hk : (min (np.round τ) ((B.length : ℤ) - 1)).toNat < B.length := by
      have := List.length_pos_of_ne_nil h1
      have := min_le_right (np.round τ) ((B.length : ℤ) - 1)
      omega
    rw [List.getElem?_eq_getElem hk, pp.rowAt, List.getD_eq_getElem?_getD, List.getElem?_eq_getElem hk]
    rfl
  · intro h0 δp hp hsm
    have hj := g2.hj
    have hlen := g2.hlen
    by_contra hne
    have hi : i = x.length := by
      have hn := g2.hn
      simp only [pp.guard, Bool.and_eq_false_iff, Bool.not_eq_false', List.isEmpty_iff, decide_eq_false_iff_not] at g3
      rcases g3 with g3 | g3
      · rw [g2.hxs] at g3
        have := List.drop_eq_nil_iff.mp g3
        have := g2.hi
        omega
      · omega
    have ht := g2.hidx
    rw [h0, hi] at ht
    have := enough B.length p.rate δ δp (fl (x.length * p.rate)) hpos hr hδ0 x.length c _ (np.round_spec _) hp hsm t.index ht g2.hlow
    omega

/-- A rounding of the precision of a double. -/
def IsDouble (fl : ℝ → ℝ) : Prop := ∀ z, |fl z - z| ≤ |z| / 2 ^ 53

/-- C117.  With times in double precision PolynomialRateFilter computes every output it allocated, for signals of up to ten thousand million samples. -/
theorem C117_double_polynomial (fl : ℝ → ℝ) (hfl : IsDouble fl) (polyfit : ℕ → List ℝ → List ℝ) (p : PolyRate) (hr1 : 1 / 2 ^ 40 ≤ p.rate) (hr2 : p.rate ≤ 256)
    (x : List ℝ) (hx : 2 ≤ x.length) (hx2 : x.length ≤ 10 ^ 10) :
    ∃ (y : List ℝ) (m : ℤ), p.filterF fl polyfit x = .ok y ∧ IsRound (fl (x.length * p.rate)) m ∧ (y.length : ℤ) = max m 0 ∧
      ∀ k < y.length, ∃ (i : ℕ) (τ : ℝ), i < x.length ∧ |(i + τ) - k / p.rate| ≤ (i + 2 * k) * ((1 / p.rate + 3) / 2 ^ 53) ∧
        -((1 / p.rate + 3) / 2 ^ 53) ≤ τ ∧ τ < 1 ∧
        y[k]? = some (polyAt (polyfit p.order.toNat [extend x (i - 1), extend x i, extend x (i + 1), extend x (i + 2)]) τ) := by
  have hr : 0 < p.rate := lt_of_lt_of_le (by positivity) hr1
  have hw : 0 < 1 / p.rate := by positivity
  have hw2 : 1 / p.rate ≤ 2 ^ 40 := by rw [div_le_iff₀ hr]; rw [div_le_iff₀ (by positivity)] at hr1; linarith
  have hw1 : 1 / 256 ≤ 1 / p.rate := one_div_le_one_div_of_le hr hr2
  have hx3 : (x.length : ℝ) ≤ 10 ^ 10 := by exact_mod_cast hx2
  obtain ⟨y, m, h1, h2, -, h3, h4⟩ := C117_polynomial fl ((1 / p.rate + 3) / 2 ^ 53) polyfit p hr x hx (by linarith) (by linarith)
    (fun z hz => le_trans (hfl z) (by gcongr))
  refine ⟨y, m, h1, h2, h4 (x.length * p.rate / 2 ^ 53) ?_ ?_, h3⟩
  · have := hfl (x.length * p.rate)
    rwa [abs_of_nonneg (by positivity : (0 : ℝ) ≤ x.length * p.rate)] at this
  · have hn : (0 : ℝ) ≤ x.length := by positivity
    have e : p.rate * ((x.length + 2 * (x.length * p.rate) + 1) * ((1 / p.rate + 3) / 2 ^ 53)) = (1 + 3 * p.rate) * (x.length + 2 * (x.length * p.rate) + 1) / 2 ^ 53 := by
      field_simp
    have hm : (x.length : ℝ) * p.rate ≤ 10 ^ 10 * 256 := by gcongr
    have hp : (1 + 3 * p.rate) * (x.length + 2 * (x.length * p.rate) + 1) ≤ (1 + 3 * 256) * (10 ^ 10 + 2 * (10 ^ 10 * 256) + 1) := by gcongr
    rw [e]
    have : x.length * p.rate / 2 ^ 53 + (1 + 3 * p.rate) * (x.length + 2 * (x.length * p.rate) + 1) / 2 ^ 53 ≤
        10 ^ 10 * 256 / 2 ^ 53 + (1 + 3 * 256) * (10 ^ 10 + 2 * (10 ^ 10 * 256) + 1) / 2 ^ 53 := by gcongr
    refine lt_of_le_of_lt this ?_
    norm_num

/-- Double precision at the rate 3/2. -/
example (fl : ℝ → ℝ) (hfl : IsDouble fl) (polyfit : ℕ → List ℝ → List ℝ) := C117_double_polynomial fl hfl polyfit ⟨3, 3 / 2⟩ (by norm_num) (by norm_num) [1, 4, 2] (by simp) (by norm_num)

/-- C117.  With times in double precision a new PolyphaseRateFilter computes every output it allocated, for signals of up to ten thousand million samples. -/
theorem C117_double_polyphase (fl : ℝ → ℝ) (hfl : IsDouble fl) (cc : ℕ) (B : List (List ℝ)) (hB : IsBank cc B) (h256 : B.length = 256) (p : Polyphase)
    (hs : p.s.length = cc) (h0 : p.index = 0) (hr1 : 1 / 2 ^ 40 ≤ p.rate) (hr2 : p.rate ≤ 256) (x : List ℝ) (hx : x ≠ []) (hx2 : x.length ≤ 10 ^ 10) :
    ∃ (y : List ℝ) (p' : Polyphase) (m : ℤ), p.filterF fl B x = (.ok y, p') ∧ IsRound (fl (x.length * p.rate)) m ∧ (y.length : ℤ) = max m 0 ∧
      ∀ k < y.length, ∃ (i : ℕ) (τ : ℝ) (j : ℤ) (row : List ℝ), i < x.length ∧
        |(256 * i + τ) - k * (256 / p.rate)| ≤ (i + 2 * k) * ((257 + 256 / p.rate) / 2 ^ 53) ∧
        τ < 256 ∧ IsRound τ j ∧ 0 ≤ j ∧ B[(min j 255).toNat]? = some row ∧ y[k]? = some (weigh row x p.s i) := by
  have hr : 0 < p.rate := lt_of_lt_of_le (by positivity) hr1
  have hw : 0 < 1 / p.rate := by positivity
  have hw2 : 1 / p.rate ≤ 2 ^ 40 := by rw [div_le_iff₀ hr]; rw [div_le_iff₀ (by positivity)] at hr1; linarith
  have hw1 : 1 / 256 ≤ 1 / p.rate := one_div_le_one_div_of_le hr hr2
  have hx3 : (x.length : ℝ) ≤ 10 ^ 10 := by exact_mod_cast hx2
  have hL : (B.length : ℝ) = 256 := by rw [h256]; norm_num
  have hq : 256 / p.rate = 256 * (1 / p.rate) := by ring
  obtain ⟨y, p', m, h1, -, -, -, -, h2, -, -, h3, h4⟩ := C117_polyphase fl ((257 + 256 / p.rate) / 2 ^ 53) cc B hB p hs hr
    (by rw [h0, neg_nonpos]; positivity) (by rw [h0]; positivity) x hx (by rw [hL, hq]; linarith) (by rw [hq]; linarith)
    (fun z hz => le_trans (hfl z) (by rw [hL] at hz; gcongr; linarith))
  rw [hL] at h3 h4
  refine ⟨y, p', m, h1, h2, h4 h0 (x.length * p.rate / 2 ^ 53) ?_ ?_, ?_⟩
  · have := hfl (x.length * p.rate)
    rwa [abs_of_nonneg (by positivity : (0 : ℝ) ≤ x.length * p.rate)] at this
  · have hn : (0 : ℝ) ≤ x.length := by positivity
    have e : p.rate / 256 * ((x.length + 2 * (x.length * p.rate) + 1) * ((257 + 256 / p.rate) / 2 ^ 53)) =
        (1 + 257 / 256 * p.rate) * (x.length + 2 * (x.length * p.rate) + 1) / 2 ^ 53 := by
      field_simp
      ring
    have : x.length * p.rate / 2 ^ 53 + (1 + 257 / 256 * p.rate) * (x.length + 2 * (x.length * p.rate) + 1) / 2 ^ 53 ≤
        10 ^ 10 * 256 / 2 ^ 53 + (1 + 257 / 256 * 256) * (10 ^ 10 + 2 * (10 ^ 10 * 256) + 1) / 2 ^ 53 := by gcongr
    rw [e]
    refine lt_of_le_of_lt this ?_
    norm_num
  · intro k hk
    obtain ⟨i, τ, j, row, t1, t2, t3, t4, t5, t6, t7, t8⟩ := h3 k hk
    refine ⟨i, τ, j, row, t1, by rw [h0, zero_add] at t2; exact t2, t4, t5, t6, ?_, t8⟩
    rw [h256] at t7
    exact t7

/-- The hypotheses are met by a rounding to multiples of `2 ^ -30`, which is inexact at `1 / 3`. -/
noncomputable def fixedPoint (z : ℝ) : ℝ := np.round (z * 2 ^ 30) / 2 ^ 30

theorem fixedPoint_spec (z : ℝ) : |fixedPoint z - z| ≤ 1 / 2 ^ 31 := by
  have h := abs_le.mp (np.round_spec (z * 2 ^ 30)).1
  unfold fixedPoint
  rw [abs_le]
  constructor
  · rw [le_sub_iff_add_le, le_div_iff₀ (by positivity)]; linarith
  · rw [sub_le_iff_le_add, div_le_iff₀ (by positivity)]; linarith

example : fixedPoint (1 / 3) ≠ 1 / 3 := by
  unfold fixedPoint
  intro h
  rw [div_eq_div_iff (by positivity) (by norm_num)] at h
  have h2 : (np.round (1 / 3 * 2 ^ 30) : ℝ) * 3 = ((1073741824 : ℤ) : ℝ) := by rw [h]; norm_num
  have h3 : np.round (1 / 3 * 2 ^ 30) * 3 = 1073741824 := by exact_mod_cast h2
  omega

example (polyfit : ℕ → List ℝ → List ℝ) : ∃ (y : List ℝ) (m : ℤ), ({ order := 3, rate := 3 } : PolyRate).filterF fixedPoint polyfit [0, 1, 2, 4, 8] = .ok y ∧
    IsRound (fixedPoint (5 * 3)) m ∧ (y.length : ℤ) = max m 0 := by
  obtain ⟨y, m, h1, h2, -, -, h3⟩ := C117_polynomial fixedPoint (1 / 2 ^ 31) polyfit { order := 3, rate := 3 } (by norm_num) [0, 1, 2, 4, 8] (by simp) (by norm_num) (by norm_num)
    (fun z _ => fixedPoint_spec z)
  exact ⟨y, m, h1, by simpa using h2, h3 (1 / 2 ^ 31) (fixedPoint_spec _) (by norm_num)⟩

example : ∃ (y : List ℝ) (p' : Polyphase) (m : ℤ), ({ index := 0, rate := 3 / 2, s := [0, 0] } : Polyphase).filterF fixedPoint [[1, 0], [1 / 2, 1 / 2]] [0, 1, 2, 4] = (.ok y, p') ∧
    IsRound (fixedPoint (4 * (3 / 2))) m ∧ (y.length : ℤ) = max m 0 := by
  obtain ⟨y, p', m, h1, -, -, -, -, h2, -, -, -, h3⟩ := C117_polyphase fixedPoint (1 / 2 ^ 31) 2 [[1, 0], [1 / 2, 1 / 2]] ⟨by simp, by norm_num, by simp⟩
    { index := 0, rate := 3 / 2, s := [0, 0] } rfl (by norm_num) (by norm_num) (by norm_num) [0, 1, 2, 4] (by simp) (by norm_num) (by norm_num) (fun z _ => fixedPoint_spec z)
  exact ⟨y, p', m, h1, by simpa using h2, h3 rfl (1 / 2 ^ 31) (fixedPoint_spec _) (by norm_num)⟩

/-- A rounding in the sense of `IsDouble` which is inexact. -/
example : IsDouble (fun z => z * (1 + 1 / 2 ^ 53)) := by
  intro z
  rw [show z * (1 + 1 / 2 ^ 53) - z = z / 2 ^ 53 by ring, abs_div, abs_of_pos (by positivity : (0 : ℝ) < 2 ^ 53)]

end Verif.Props
