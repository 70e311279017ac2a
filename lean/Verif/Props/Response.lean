import Verif.Model.Response
import Verif.Lemmas.Response
import Verif.Lemmas.Iir
import Verif.Props.Fir

/- Properties of the response and roots methods (C65, C66). -/

namespace Verif.Props

open Finset Spec

theorem dtft_period (c : List ℝ) (f : ℝ) : dtft c (f + 2) = dtft c f := by
  unfold dtft
  apply sum_congr rfl
  intro n _
  congr 1
  rw [show -(Complex.I * Real.pi * ((f + 2 : ℝ) : ℂ) * n) = -(Complex.I * Real.pi * f * n) + ((-(n : ℤ) : ℤ) : ℂ) * (2 * Real.pi * Complex.I) by
    push_cast; ring, Complex.exp_add, Complex.exp_int_mul_two_pi_mul_I, mul_one]

theorem polyval_reverse (c : List ℝ) (f : ℝ) :
    np.polyval (np.complexOf c).reverse (Complex.exp (-(Complex.I * Real.pi * f))) = dtft c f := by
  rw [np.polyval_eq, np.eval_toPoly, ← sum_range_reflect]
  have hl : (np.complexOf c).reverse.length = c.length := by simp [np.complexOf]
  rw [hl, dtft]
  apply sum_congr rfl
  intro i hi
  have hi := mem_range.mp hi
  have hl' : (np.complexOf c).length = c.length := by simp [np.complexOf]
  have : at0 (np.complexOf c).reverse (c.length - 1 - i) = at0 (np.complexOf c) i := by
    rw [at0_of_lt _ _ (by rw [hl]; omega), at0_of_lt _ _ (by rw [hl']; exact hi), List.getElem_reverse]
    congr 1
    rw [hl']; omega
  rw [this, at0_complexOf, show c.length - 1 - (c.length - 1 - i) = i by omega, ← Complex.exp_nat_mul]
  congr 2
  ring

theorem rotate_getElem? {α : Type _} (y : List α) (k : ℕ) (hk : k < y.length) : (np.rotate y)[k]? = y[(y.length / 2 + k) % y.length]? := by
  unfold np.rotate
  have hd : (y.drop (y.length / 2)).length = y.length - y.length / 2 := by simp
  by_cases h : k < y.length - y.length / 2
  · rw [List.getElem?_append_left (by omega), List.getElem?_drop, Nat.mod_eq_of_lt (by omega)]
  · rw [List.getElem?_append_right (by omega), hd, List.getElem?_take, if_pos (by omega),
      Nat.mod_eq_sub_mod (by omega), Nat.mod_eq_of_lt (by omega)]
    congr 1
    omega

/-- The general form: index `k` holds the response at `2(⌊N/2⌋+k)/N - 2`, which is congruent to the frequency evaluated. -/
theorem response_general (b a : List ℝ) (length count : ℤ) (hl : 0 < length) (hc : 0 < count) :
    ∃ y f, np.response b a length count = .ok (y, f) ∧ y.length = length.toNat ∧ f.length = length.toNat ∧
      ∀ k < length.toNat, f[k]? = some (axis length k) ∧
        y[k]? = some (open scoped Classical in
          let u : ℝ := 2 * (((length / 2 : ℤ) : ℝ) + (k : ℝ)) / (length : ℝ) - 2
          if dtft a u = 0 then none else some ((dtft b u / dtft a u) ^ count.toNat)) := by
  classical
  obtain ⟨N, rfl⟩ : ∃ N : ℕ, length = N := ⟨length.toNat, by omega⟩
  have hN : 0 < N := by exact_mod_cast hl
  have hNr : (N : ℝ) ≠ 0 := by positivity
  refine ⟨_, _, by unfold np.response; rw [if_neg (by omega), if_neg (by omega)], by simp [np.rotate, np.freqz]; omega,
    by simp [np.linspace], ?_⟩
  intro k hk
  simp only [Int.toNat_natCast] at hk ⊢
  constructor
  · unfold np.linspace axis
    rw [List.getElem?_map, List.getElem?_range hk]
    simp only [Option.map_some, Option.some.injEq]
    by_cases h1 : N = 1
    · have : k = 0 := by omega
      subst this; simp
    · have : (N : ℝ) - 1 ≠ 0 := by
        have : (N : ℝ) ≠ 1 := by exact_mod_cast h1
        exact sub_ne_zero.mpr this
      push_cast
      field_simp
      ring
  · rw [List.getElem?_map, rotate_getElem? _ _ (by simpa [np.freqz] using hk)]
    have hlen : (np.freqz b a N).length = N := by simp [np.freqz]
    rw [hlen]
    have hm : (N / 2 + k) % N < N := Nat.mod_lt _ hN
    unfold np.freqz
    rw [List.getElem?_map, List.getElem?_range hm]
    simp only [Option.map_some]
    -- the angle
    have hz : ∀ c : List ℝ, np.polyval (np.complexOf c).reverse (Complex.exp (-(Complex.I * (2 * Real.pi * ((N / 2 + k) % N : ℕ) / N)))) =
        dtft c (2 * (((((N : ℤ) / 2 : ℤ)) : ℝ) + k) / (N : ℤ) - 2) := by
      intro c
      have hcast : ((((N : ℤ) / 2 : ℤ)) : ℝ) = ((N / 2 : ℕ) : ℝ) := by
        rw [← Int.cast_natCast (N / 2)]
        congr 1
      rw [hcast]
      have hx : Complex.exp (-(Complex.I * (2 * Real.pi * ((N / 2 + k) % N : ℕ) / N))) =
          Complex.exp (-(Complex.I * Real.pi * ((2 * (((N / 2 + k) % N : ℕ) : ℝ) / N : ℝ) : ℂ))) := by
        congr 1
        push_cast
        ring
      rw [hx, polyval_reverse]
      by_cases h : N / 2 + k < N
      · rw [Nat.mod_eq_of_lt h]
        rw [← dtft_period c (2 * _ / _ - 2)]
        congr 1
        push_cast
        ring
      · rw [Nat.mod_eq_sub_mod (by omega), Nat.mod_eq_of_lt (by omega), Nat.cast_sub (by omega)]
        congr 1
        push_cast
        field_simp
    rw [hz, hz]
    split <;> simp

theorem response_rejects (b a : List ℝ) (length count : ℤ) (h : length ≤ 0 ∨ count ≤ 0) : np.response b a length count = .error .valueError := by
  unfold np.response
  by_cases h1 : length ≤ 0
  · simp [h1]
  · simp [h1, h.resolve_left h1]

/-- C65, FIR.  For even length, index `k` holds the `count`-th power of the response at the frequency `f_k = -1 + 2k/length` of the axis. -/
theorem C65_fir_response (g : Fir ℝ) (length count : ℤ) (hl : 0 < length) (he : Even length) (hc : 0 < count) :
    ∃ y f, g.response length count = .ok (y, f) ∧ y.length = length.toNat ∧ f.length = length.toNat ∧
      ∀ k < length.toNat, f[k]? = some (axis length k) ∧ y[k]? = some (some (freqResp [] g.b (axis length k) ^ count.toNat)) := by
  obtain ⟨y, f, h1, h2, h3, h4⟩ := response_general g.b [1, 0] length count hl hc
  refine ⟨y, f, h1, h2, h3, fun k hk => ⟨(h4 k hk).1, ?_⟩⟩
  rw [(h4 k hk).2]
  have hN : (length : ℝ) ≠ 0 := by exact_mod_cast hl.ne'
  have hu : 2 * (((length / 2 : ℤ) : ℝ) + k) / length - 2 = axis length k := by
    unfold axis
    obtain ⟨m, rfl⟩ := he
    rw [show (m + m) / 2 = m by omega]
    have hm : (m : ℝ) ≠ 0 := by intro q; apply hN; push_cast; rw [q]; norm_num
    push_cast at hN ⊢
    field_simp
    ring
  simp only [hu]
  have hd : dtft [1, 0] (axis length k) = 1 := by simp [dtft, sum_range_succ, at0]
  rw [hd, if_neg one_ne_zero, freqResp]
  simp [dtft]

/-- A moving average twice. -/
example := C65_fir_response ⟨id, [1 / 2, 1 / 2], [0, 0]⟩ 64 2 (by norm_num) (by decide) (by norm_num)

/-- C65, IIR.  Likewise; a sample is undefined exactly where the denominator vanishes, which a stable filter excludes. -/
theorem C65_iir_response (g : Iir ℝ) (ha : g.a ≠ []) (h0 : at0 g.a 0 = 0) (length count : ℤ) (hl : 0 < length) (he : Even length) (hc : 0 < count) :
    ∃ y f, g.response length count = .ok (y, f) ∧ y.length = length.toNat ∧ f.length = length.toNat ∧
      ∀ k < length.toNat, f[k]? = some (axis length k) ∧
        (1 - dtft g.a (axis length k) ≠ 0 → y[k]? = some (some (freqResp g.a g.b (axis length k) ^ count.toNat))) ∧
        (1 - dtft g.a (axis length k) = 0 → y[k]? = some none) := by
  obtain ⟨y, f, h1, h2, h3, h4⟩ := response_general g.b (1 :: g.a.tail.map (- ·)) length count hl hc
  refine ⟨y, f, h1, h2, h3, fun k hk => ⟨(h4 k hk).1, ?_⟩⟩
  have hN : (length : ℝ) ≠ 0 := by exact_mod_cast hl.ne'
  have hu : 2 * (((length / 2 : ℤ) : ℝ) + k) / length - 2 = axis length k := by
    unfold axis
    obtain ⟨m, rfl⟩ := he
    rw [show (m + m) / 2 = m by omega]
    have hm : (m : ℝ) ≠ 0 := by intro q; apply hN; push_cast; rw [q]; norm_num
    push_cast at hN ⊢
    field_simp
    ring
  have := (h4 k hk).2
  simp only [hu, dtft_one_sub g.a ha h0] at this
  rw [this]
  constructor
  · intro h; rw [if_neg h, freqResp]
  · intro h; rw [if_pos h]

/-- A running sum, whose pole is met at frequency zero. -/
example := C65_iir_response ⟨id, [0, 1], [1, 0], [0, 0]⟩ (by simp) rfl 64 2 (by norm_num) (by decide) (by norm_num)

/-- C65.  For odd length the samples are not those of the axis: they are taken `1/length` below it. -/
theorem C65_response_odd (g : Fir ℝ) (length count : ℤ) (hl : 0 < length) (ho : Odd length) (hc : 0 < count) :
    ∃ y f, g.response length count = .ok (y, f) ∧ ∀ k < length.toNat, f[k]? = some (axis length k) ∧
      y[k]? = some (some (freqResp [] g.b (axis length k - 1 / (length : ℝ)) ^ count.toNat)) := by
  obtain ⟨y, f, h1, h2, h3, h4⟩ := response_general g.b [1, 0] length count hl hc
  refine ⟨y, f, h1, fun k hk => ⟨(h4 k hk).1, ?_⟩⟩
  rw [(h4 k hk).2]
  have hN : (length : ℝ) ≠ 0 := by exact_mod_cast hl.ne'
  have hu : 2 * (((length / 2 : ℤ) : ℝ) + k) / length - 2 = axis length k - 1 / (length : ℝ) := by
    unfold axis
    obtain ⟨m, rfl⟩ := ho
    rw [show (2 * m + 1) / 2 = m by omega]
    push_cast at hN ⊢
    field_simp
    ring
  simp only [hu]
  have hd : dtft [1, 0] (axis length k - 1 / (length : ℝ)) = 1 := by simp [dtft, sum_range_succ, at0]
  rw [hd, if_neg one_ne_zero, freqResp]
  simp [dtft]

/-- Five points. -/
example := C65_response_odd ⟨id, [1 / 2, 1 / 2], [0, 0]⟩ 5 1 (by norm_num) (by decide) (by norm_num)

/-- C65.  A nonpositive length or count is rejected. -/
theorem C65_response_rejects (g : Fir ℝ) (q : Iir ℝ) (length count : ℤ) (h : length ≤ 0 ∨ count ≤ 0) :
    g.response length count = .error .valueError ∧ q.response length count = .error .valueError :=
  ⟨response_rejects _ _ _ _ h, response_rejects _ _ _ _ h⟩

/-- No section. -/
example (g : Fir ℝ) (q : Iir ℝ) := C65_response_rejects g q 8 0 (.inr le_rfl)

/-- `count` instances with coefficients `b` in cascade, each in the zero state. -/
def cascade (b : List ℂ) : ℕ → List ℂ → Res (List ℂ)
  | 0, x => .ok x
  | n + 1, x =>
    match Fir.new id b none with
    | .error e => .error e
    | .ok f =>
      match (f.filter x).1 with
      | .error e => .error e
      | .ok y => cascade b n y

/-- C65.  The response is that of the filter: a cascade of `count` instances answers the complex exponential of frequency `u` after the
transient with the `count`-th power of the response times that exponential. -/
theorem C65_fir_eigenfunction (b : List ℝ) (hb : b ≠ []) (u : ℝ) (count N : ℕ) (hN : 0 < N) :
    ∃ y, cascade (np.complexOf b) count ((List.range N).map fun n : ℕ => Complex.exp (Complex.I * Real.pi * u * n)) = .ok y ∧
      y.length = N ∧ ∀ n, count * (b.length - 1) ≤ n → n < N →
        y[n]? = some (freqResp [] b u ^ count * Complex.exp (Complex.I * Real.pi * u * n)) := by
  have hcb : np.complexOf b ≠ [] := by simpa [np.complexOf] using hb
  have hl : (np.complexOf b).length = b.length := by simp [np.complexOf]
  have main : ∀ count m (A : ℂ) (x : List ℂ), x.length = N →
      (∀ n, m ≤ n → n < N → x[n]? = some (A * Complex.exp (Complex.I * Real.pi * u * n))) →
      ∃ y, cascade (np.complexOf b) count x = .ok y ∧ y.length = N ∧ ∀ n, count * (b.length - 1) + m ≤ n → n < N →
        y[n]? = some (freqResp [] b u ^ count * A * Complex.exp (Complex.I * Real.pi * u * n)) := by
    intro count
    induction count with
    | zero =>
      intro m A x hx h
      exact ⟨x, rfl, hx, fun n h1 h2 => by rw [h n (by omega) h2]; simp⟩
    | succ count ih =>
      intro m A x hx h
      have hxne : x ≠ [] := by intro q; rw [q] at hx; simp at hx; omega
      obtain ⟨f, y, f', h1, h2, h3, h4⟩ := C01_fir_convolution (np.complexOf b) x hcb hxne
      obtain ⟨z, g1, g2, g3⟩ := ih (b.length - 1 + m) (freqResp [] b u * A) y (by rw [h3, hx]) (by
        intro n hn hnN
        rw [h4 n (by omega)]
        have hle : b.length ≤ n + 1 := by omega
        have : ∑ i ∈ range (n + 1), at0 (np.complexOf b) i * at0 x (n - i) = ∑ i ∈ range b.length, at0 (np.complexOf b) i * at0 x (n - i) := by
          symm
          apply sum_subset
          · intro i hi; have := mem_range.mp hi; exact mem_range.mpr (by omega)
          · intro i _ hi
            have : b.length ≤ i := by simpa using hi
            rw [at0_of_le _ _ (by rw [hl]; exact this), zero_mul]
        rw [this, freqResp]
        simp only [dtft, List.length_nil, range_zero, sum_empty, sub_zero, div_one]
        rw [sum_mul, sum_mul]
        congr 1
        apply sum_congr rfl
        intro i hi
        have hi := mem_range.mp hi
        have hxi := h (n - i) (by omega) (by omega)
        have : at0 x (n - i) = A * Complex.exp (Complex.I * Real.pi * u * (n - i : ℕ)) := by
          unfold at0
          rw [List.getD_eq_getElem?_getD, hxi, Option.getD_some]
        rw [this, at0_complexOf, Nat.cast_sub (by omega)]
        rw [show Complex.I * Real.pi * u * ((n : ℂ) - i) = -(Complex.I * Real.pi * u * i) + Complex.I * Real.pi * u * n by ring, Complex.exp_add]
        ring)
      refine ⟨z, ?_, g2, ?_⟩
      · unfold cascade
        rw [h1]
        simp only [h2]
        exact g1
      · intro n hn hnN
        rw [g3 n (by rw [Nat.succ_mul] at hn; omega) hnN]
        congr 1
        ring
  obtain ⟨y, h1, h2, h3⟩ := main count 0 1 ((List.range N).map fun n : ℕ => Complex.exp (Complex.I * Real.pi * u * n)) (by simp)
    (fun n _ hn => by simp [hn])
  exact ⟨y, h1, h2, fun n h4 h5 => by rw [h3 n (by omega) h5, mul_one]⟩

/-- A moving average twice. -/
example := C65_fir_eigenfunction [1 / 2, 1 / 2] (by simp) (1 / 4) 2 10 (by norm_num)

theorem sortAbs_perm (z : List ℂ) : (np.sortAbs z).Perm z := by
  classical
  exact List.mergeSort_perm _ _

theorem sortAbs_sorted (z : List ℂ) : (np.sortAbs z).Pairwise fun u v => ‖u‖ ≤ ‖v‖ := by
  classical
  have := List.pairwise_mergeSort (le := fun u v : ℂ => decide (‖u‖ ≤ ‖v‖)) (by
    intro a b c h1 h2; simp only [decide_eq_true_eq] at *; exact h1.trans h2) (by
    intro a b; simp only [Bool.or_eq_true, decide_eq_true_eq]; exact le_total _ _) z
  exact this.imp (by simp)

/-- The denominator polynomial. -/
theorem poly_pole (a : List ℝ) (ha : a ≠ []) (z : ℂ) : (np.toPoly (np.complexOf (1 :: a.tail.map (- ·)))).eval z =
    z ^ (a.length - 1) - ∑ i ∈ Icc 1 (a.length - 1), ((at0 a i : ℝ) : ℂ) * z ^ (a.length - 1 - i) := by
  rw [np.eval_toPoly]
  simp only [at0_complexOf]
  have hl : (np.complexOf (1 :: a.tail.map (- ·))).length = a.length := by
    have := List.length_pos_of_ne_nil ha
    simp [np.complexOf]; omega
  rw [hl]
  obtain ⟨m, hm⟩ : ∃ m, a.length = m + 1 := ⟨a.length - 1, by have := List.length_pos_of_ne_nil ha; omega⟩
  rw [hm, sum_range_succ', sum_bij (s := Icc 1 (m + 1 - 1)) (t := range m)
    (g := fun j => ((at0 a (j + 1) : ℝ) : ℂ) * z ^ (m + 1 - 1 - (j + 1))) (fun i _ => i - 1)]
  · have e : ∀ j, at0 (1 :: a.tail.map (- ·)) (j + 1) = - at0 a (j + 1) := by
      intro j
      rw [at0_cons_succ]
      unfold at0
      rw [List.getD_eq_getElem?_getD, List.getD_eq_getElem?_getD, List.getElem?_map, List.getElem?_tail]
      cases a[j + 1]? <;> simp
    simp only [e, at0_cons_zero]
    push_cast
    simp only [neg_mul, sum_neg_distrib, one_mul, Nat.sub_zero]
    ring
  · intro i hi; have := mem_Icc.mp hi; exact mem_range.mpr (by omega)
  · intro i hi j hj h; have := mem_Icc.mp hi; have := mem_Icc.mp hj; omega
  · intro j hj; have := mem_range.mp hj; exact ⟨j + 1, mem_Icc.mpr ⟨by omega, by omega⟩, by omega⟩
  · intro i hi; have := mem_Icc.mp hi; rw [show i - 1 + 1 = i by omega]

/-- C66.  The poles an IirFilter reports for one instance are exactly the poles of its recursion, sorted by magnitude, `order` of them;
so the filter is stable if and only if every reported pole is inside the unit circle. -/
theorem C66_iir_poles (g : Iir ℝ) (ha : g.a ≠ []) :
    (g.roots 1).1.length = g.a.length - 1 ∧ ((g.roots 1).1.Pairwise fun u v => ‖u‖ ≤ ‖v‖) ∧
      (∀ z, z ∈ (g.roots 1).1 ↔ Pole g.a z) ∧ (Stable g.a ↔ ∀ z ∈ (g.roots 1).1, ‖z‖ < 1) := by
  have hperm : (g.roots 1).1.Perm (np.roots (np.complexOf (1 :: g.a.tail.map (- ·)))) := by
    unfold Iir.roots
    refine (sortAbs_perm _).trans ?_
    simp [np.tile]
  have hcons : np.complexOf (1 :: g.a.tail.map (- ·)) = (1 : ℂ) :: np.complexOf (g.a.tail.map (- ·)) := by simp [np.complexOf]
  have hmem : ∀ z, z ∈ (g.roots 1).1 ↔ Pole g.a z := by
    intro z
    rw [hperm.mem_iff, hcons, np.mem_roots _ _ _ one_ne_zero, ← hcons, np.polyval_eq, poly_pole g.a ha]
    unfold Pole
    exact sub_eq_zero
  refine ⟨?_, sortAbs_sorted _, hmem, ?_⟩
  · rw [hperm.length_eq, hcons, np.roots_length _ _ one_ne_zero]
    simp [np.complexOf]
  · unfold Stable
    constructor
    · intro h z hz; exact h z ((hmem z).mp hz)
    · intro h z hz; exact h z ((hmem z).mpr hz)

/-- A filter of the second order. -/
example := C66_iir_poles ⟨id, [0, 1, -1 / 4], [1, 0, 0], [0, 0, 0]⟩ (by simp)

/-- C66.  The zeros reported by a FirFilter with nonzero first coefficient are exactly the roots of its polynomial; `count` copies of
`order` zeros, sorted by magnitude, and as many poles at the origin. -/
theorem C66_fir_roots (g : Fir ℝ) (b0 : ℝ) (t : List ℝ) (hb : g.b = b0 :: t) (h0 : b0 ≠ 0) (count : ℕ) (hc : 0 < count) :
    (g.roots count).1 = List.replicate (count * t.length) 0 ∧ (g.roots count).2.length = count * t.length ∧
      ((g.roots count).2.Pairwise fun u v => ‖u‖ ≤ ‖v‖) ∧ (∀ z, z ∈ (g.roots count).2 ↔ IsRootOf g.b z) := by
  have hcons : np.complexOf g.b = (b0 : ℂ) :: np.complexOf t := by rw [hb]; simp [np.complexOf]
  have h0' : (b0 : ℂ) ≠ 0 := by exact_mod_cast h0
  refine ⟨by simp [Fir.roots, hb], ?_, sortAbs_sorted _, ?_⟩
  · unfold Fir.roots
    simp only
    rw [(sortAbs_perm _).length_eq, np.tile, List.length_flatten, List.map_replicate, List.sum_replicate, hcons, np.roots_length _ _ h0']
    simp [np.complexOf]
  · intro z
    unfold Fir.roots
    simp only
    rw [(sortAbs_perm _).mem_iff, np.tile, List.mem_flatten]
    rw [isRootOf_iff, ← np.polyval_eq, hcons, ← np.mem_roots _ _ _ h0']
    constructor
    · rintro ⟨l, hl, hz⟩; rw [List.eq_of_mem_replicate hl] at hz; exact hz
    · intro hz; exact ⟨_, List.mem_replicate.mpr ⟨hc.ne', rfl⟩, hz⟩

/-- A filter of the second order twice. -/
example := C66_fir_roots ⟨id, [2, 1, 1], [0, 0, 0]⟩ 2 [1, 1] rfl (by norm_num) 2 (by norm_num)

/-- A product over tiled and sorted roots is the polynomial, to the power `count`. -/
theorem sorted_roots_prod (c : List ℂ) (x : ℂ) (hx : x ≠ 0) (count : ℕ) (z : ℂ) :
    ((np.sortAbs (np.tile (np.roots (x :: c)) count)).map (z - ·)).prod * x ^ count = (np.toPoly (x :: c)).eval z ^ count := by
  have hlc : (np.toPoly (x :: c)).leadingCoeff = x := by
    rw [Polynomial.leadingCoeff, np.natDegree_toPoly c x hx]
    have := np.coeff_toPoly (x :: c) 0 (by simp)
    simpa [at0] using this
  have h := (IsAlgClosed.splits (np.toPoly (x :: c))).eval_eq_prod_roots z
  rw [hlc] at h
  rw [((sortAbs_perm _).map _).prod_eq, np.tile, List.map_flatten, List.prod_flatten, List.map_replicate, List.map_replicate,
    List.prod_replicate, h, mul_pow, mul_comm]
  congr 2
  rw [np.roots, ← Multiset.prod_coe, ← Multiset.map_coe, Multiset.coe_toList]

/-- C66.  The roots are reported with their multiplicities, `count` times: the products over them are the denominator and the numerator
of the transfer function of `count` instances. -/
theorem C66_iir_multiplicity (g : Iir ℝ) (ha : g.a ≠ []) (b0 : ℝ) (t : List ℝ) (hb : g.b = b0 :: t) (h0 : b0 ≠ 0) (count : ℕ) (z : ℂ) :
    ((g.roots count).1.map (z - ·)).prod =
        (z ^ (g.a.length - 1) - ∑ i ∈ Icc 1 (g.a.length - 1), ((at0 g.a i : ℝ) : ℂ) * z ^ (g.a.length - 1 - i)) ^ count ∧
      ((g.roots count).2.map (z - ·)).prod * (b0 : ℂ) ^ count =
        (∑ i ∈ range g.b.length, ((at0 g.b i : ℝ) : ℂ) * z ^ (g.b.length - 1 - i)) ^ count ∧
      ((g.roots count).1.Pairwise fun u v => ‖u‖ ≤ ‖v‖) ∧ ((g.roots count).2.Pairwise fun u v => ‖u‖ ≤ ‖v‖) := by
  have hcons : np.complexOf (1 :: g.a.tail.map (- ·)) = (1 : ℂ) :: np.complexOf (g.a.tail.map (- ·)) := by simp [np.complexOf]
  have hbc : np.complexOf g.b = (b0 : ℂ) :: np.complexOf t := by rw [hb]; simp [np.complexOf]
  refine ⟨?_, ?_, sortAbs_sorted _, sortAbs_sorted _⟩
  · have := sorted_roots_prod (np.complexOf (g.a.tail.map (- ·))) 1 one_ne_zero count z
    rw [one_pow, mul_one, ← hcons] at this
    unfold Iir.roots
    simp only
    rw [this, poly_pole g.a ha]
  · have := sorted_roots_prod (np.complexOf t) b0 (by exact_mod_cast h0) count z
    rw [← hbc] at this
    unfold Iir.roots
    simp only
    rw [this, np.eval_toPoly]
    simp only [at0_complexOf]
    simp [np.complexOf]

theorem C66_fir_multiplicity (g : Fir ℝ) (b0 : ℝ) (t : List ℝ) (hb : g.b = b0 :: t) (h0 : b0 ≠ 0) (count : ℕ) (z : ℂ) :
    ((g.roots count).2.map (z - ·)).prod * (b0 : ℂ) ^ count =
        (∑ i ∈ range g.b.length, ((at0 g.b i : ℝ) : ℂ) * z ^ (g.b.length - 1 - i)) ^ count := by
  have hbc : np.complexOf g.b = (b0 : ℂ) :: np.complexOf t := by rw [hb]; simp [np.complexOf]
  have := sorted_roots_prod (np.complexOf t) b0 (by exact_mod_cast h0) count z
  rw [← hbc] at this
  unfold Fir.roots
  simp only
  rw [this, np.eval_toPoly]
  simp only [at0_complexOf]
  simp [np.complexOf]

/-- A filter of the second order twice. -/
example := C66_fir_multiplicity ⟨id, [2, 1, 1], [0, 0, 0]⟩ 2 [1, 1] rfl (by norm_num) 2

/-- C66.  For a count that is not negative `roots` succeeds.  For a negative count it raises ValueError, unless the filter has a single coefficient: then there are
no roots, and no error. -/
theorem C66_count (g : Fir ℝ) (hb : g.b ≠ []) (q : Iir ℝ) (ha : q.a ≠ []) (hab : q.a.length = q.b.length) (count : ℤ) :
    (0 ≤ count → g.rootsZ count = .ok (g.roots count.toNat) ∧ q.rootsZ count = .ok (q.roots count.toNat)) ∧
    (count < 0 → (1 < g.b.length → g.rootsZ count = .error .valueError) ∧ (g.b.length = 1 → g.rootsZ count = .ok ([], [])) ∧
      (1 < q.a.length → q.rootsZ count = .error .valueError) ∧ (q.a.length = 1 → q.rootsZ count = .ok ([], []))) := by
  have htile : ∀ (z : List ℂ), 0 ≤ count → np.tileZ z count = .ok (np.tile z count.toNat) := by
    intro z h
    rw [np.tileZ, if_neg (by omega)]
  have hbad : ∀ (z : List ℂ), count < 0 → 0 < z.length → np.tileZ z count = .error .valueError := by
    intro z h h'
    rw [np.tileZ, if_pos ⟨h, h'⟩]
  have hnil : count < 0 → np.tileZ ([] : List ℂ) count = .ok [] := by
    intro h
    rw [np.tileZ, if_neg (by simp)]
    simp [np.tile]
  have hone : ∀ x : ℝ, np.roots (np.complexOf [x]) = [] := by
    intro x
    simp [np.roots, np.complexOf, np.toPoly]
  have hsort : np.sortAbs [] = [] := by simp [np.sortAbs]
  have hlen := List.length_pos_of_ne_nil hb
  refine ⟨fun h => ⟨?_, ?_⟩, fun h => ⟨fun hl => ?_, fun hl => ?_, fun hl => ?_, fun hl => ?_⟩⟩
  · unfold Fir.rootsZ
    rw [htile _ h, np.zerosZ, if_neg (not_lt.mpr (mul_nonneg h (by omega)))]
    have : (count * ((g.b.length : ℤ) - 1)).toNat = count.toNat * (g.b.length - 1) := by
      obtain ⟨c, rfl⟩ := Int.eq_ofNat_of_zero_le h
      rw [show ((g.b.length : ℤ) - 1) = ((g.b.length - 1 : ℕ) : ℤ) by omega]
      norm_cast
    rw [this]
    rfl
  · unfold Iir.rootsZ
    rw [htile _ h, htile _ h]
    rfl
  · unfold Fir.rootsZ
    have hz : np.zerosZ (count * ((g.b.length : ℤ) - 1)) = .error .valueError := by
      rw [np.zerosZ, if_pos (mul_neg_of_neg_of_pos h (by omega))]
    rw [hz]
    by_cases h' : 0 < (np.roots (np.complexOf g.b)).length
    · rw [hbad _ h h']; rfl
    · rw [List.eq_nil_of_length_eq_zero (by omega : (np.roots (np.complexOf g.b)).length = 0), hnil h]; rfl
  · obtain ⟨x, hx⟩ := List.length_eq_one_iff.mp hl
    unfold Fir.rootsZ
    rw [hx, hone, hnil h]
    simp [np.zerosZ, hsort, bind, Except.bind]
  · unfold Iir.rootsZ
    rw [hbad _ h]
    · rfl
    · rw [show np.complexOf (1 :: q.a.tail.map (- ·)) = (1 : ℂ) :: np.complexOf (q.a.tail.map (- ·)) by simp [np.complexOf], np.roots_length _ _ one_ne_zero]
      simp [np.complexOf]
      omega
  · obtain ⟨x, hx⟩ := List.length_eq_one_iff.mp hl
    obtain ⟨y, hy⟩ := List.length_eq_one_iff.mp (hab ▸ hl)
    unfold Iir.rootsZ
    rw [hx, hy, List.tail_cons, List.map_nil, hone, hone, hnil h]
    simp [hsort, bind, Except.bind]

example : (⟨id, [1, 2], [0, 0]⟩ : Fir ℝ).rootsZ (-1) = .error .valueError ∧ (⟨id, [3], [0]⟩ : Fir ℝ).rootsZ (-1) = .ok ([], []) :=
  ⟨((C66_count ⟨id, [1, 2], [0, 0]⟩ (by simp) ⟨id, [0], [1], [0]⟩ (by simp) rfl (-1)).2 (by norm_num)).1 (by simp),
    ((C66_count ⟨id, [3], [0]⟩ (by simp) ⟨id, [0], [1], [0]⟩ (by simp) rfl (-1)).2 (by norm_num)).2.1 rfl⟩

/-- C66.  Zero coefficients at the start are delays, not zeros: the zeros reported are those of the coefficients after them.  Coefficients which are
all zero have none. -/
theorem C66_leading_zeros (g g' : Fir ℝ) (q q' : Iir ℝ) (k : ℕ) (hg : g.b = List.replicate k 0 ++ g'.b) (hq : q.b = List.replicate k 0 ++ q'.b) (count : ℕ) :
    (g.roots count).2 = (g'.roots count).2 ∧ (q.roots count).2 = (q'.roots count).2 ∧ (g'.b = [] → (g.roots count).2 = []) ∧ (q'.b = [] → (q.roots count).2 = []) := by
  have key : ∀ b : List ℝ, np.toPoly (np.complexOf (List.replicate k 0 ++ b)) = np.toPoly (np.complexOf b) := by
    intro b
    clear hg hq
    induction k with
    | zero => simp
    | succ k ih =>
      rw [List.replicate_succ, List.cons_append, ← ih]
      simp [np.complexOf, np.toPoly]
  have hnil : ∀ c, np.sortAbs (np.tile ([] : List ℂ) c) = [] := by
    intro c
    have := (sortAbs_perm (np.tile ([] : List ℂ) c)).length_eq
    apply List.eq_nil_of_length_eq_zero
    rw [this, np.tile]
    simp
  have hz : np.roots (np.complexOf []) = [] := by simp [np.roots, np.complexOf, np.toPoly]
  have e1 : (g.roots count).2 = (g'.roots count).2 := by simp only [Fir.roots, np.roots, hg, key]
  have e2 : (q.roots count).2 = (q'.roots count).2 := by simp only [Iir.roots, np.roots, hq, key]
  refine ⟨e1, e2, fun h => ?_, fun h => ?_⟩
  · rw [e1]; simp only [Fir.roots, h, hz, hnil]
  · rw [e2]; simp only [Iir.roots, h, hz, hnil]

/-- A delay of one sample and a zero at -1: the zero is reported, the delay is not. -/
example (s s' : List ℝ) : (({ cast := id, b := [0, 1, 1], s := s } : Fir ℝ).roots 1).2 = (({ cast := id, b := [1, 1], s := s' } : Fir ℝ).roots 1).2 :=
  (C66_leading_zeros _ _ ⟨id, [0], [0, 1, 1], s⟩ ⟨id, [0], [1, 1], s⟩ 1 rfl rfl 1).1

/-- Two poles at 1/2: `y_n = y_{n-1} - y_{n-2}/4 + x_n` has `(z - 1/2)^2`, so both reported poles are 1/2. -/
example (s : List ℝ) : ∀ p ∈ (({ cast := id, a := [0, 1, -1/4], b := [1, 0, 0], s := s } : Iir ℝ).roots 1).1, p = 1 / 2 := by
  intro p hp
  have h := (C66_iir_multiplicity { cast := id, a := [0, 1, -1/4], b := [1, 0, 0], s := s } (by simp) 1 [0, 0] rfl one_ne_zero 1 p).1
  rw [List.prod_eq_zero (List.mem_map.mpr ⟨p, hp, sub_self p⟩)] at h
  have e : Icc 1 2 = ({1, 2} : Finset ℕ) := by decide
  simp [at0, e] at h
  have h2 : (p - 1 / 2) ^ 2 = 0 := by rw [← sub_eq_zero] at h; linear_combination -h
  have := pow_eq_zero_iff (two_ne_zero) |>.mp h2
  linear_combination this

/-- The moving average of two samples: gain one at zero frequency, zero at Nyquist. -/
example : freqResp [] [1/2, 1/2] 0 = 1 ∧ freqResp [] [1/2, 1/2] (-1) = 0 := by
  constructor
  · simp [freqResp, dtft, sum_range_succ, at0]; norm_num
  · simp only [freqResp, dtft, sum_range_succ, at0, List.length_cons, List.length_nil]
    have : Complex.exp (Complex.I * Real.pi) = -1 := by rw [mul_comm, Complex.exp_pi_mul_I]
    simp [this]

/-- The sum in the group delay. -/
theorem polyval_ramp (b : List ℝ) (f : ℝ) :
    np.polyval (np.complexOf (b.zipIdx.map fun p => p.1 * (p.2 : ℝ))).reverse (Complex.exp (-(Complex.I * Real.pi * f))) =
      ∑ n ∈ range b.length, ((at0 b n * n : ℝ) : ℂ) * Complex.exp (-(Complex.I * Real.pi * f * n)) := by
  rw [polyval_reverse, dtft, List.length_map, List.length_zipIdx]
  apply sum_congr rfl
  intro n hn
  have hn := mem_range.mp hn
  congr 2
  rw [at0_of_lt _ _ (by simpa using hn), at0_of_lt _ _ hn]
  simp

/-- The group delay of a symmetric coefficient array is half its order, wherever the response does not vanish. -/
theorem symmetric_delay (b : List ℝ) (M : ℕ) (hl : b.length = M + 1) (hs : ∀ n ≤ M, at0 b n = at0 b (M - n)) (f : ℝ) (hne : dtft b f ≠ 0) :
    ((∑ n ∈ range b.length, ((at0 b n * n : ℝ) : ℂ) * Complex.exp (-(Complex.I * Real.pi * f * n))) / dtft b f).re = M / 2 := by
  set num := ∑ n ∈ range b.length, ((at0 b n * n : ℝ) : ℂ) * Complex.exp (-(Complex.I * Real.pi * f * n)) with hnum
  set den := dtft b f with hden
  have hconj : ∀ n : ℕ, (starRingEnd ℂ) (Complex.exp (-(Complex.I * Real.pi * f * n))) = Complex.exp (Complex.I * Real.pi * f * n) := by
    intro n
    rw [← Complex.exp_conj]
    congr 1
    simp
  set E := Complex.exp (-(Complex.I * Real.pi * f * M)) with hE
  have hsplit : ∀ n ≤ M, Complex.exp (-(Complex.I * Real.pi * f * ((M - n : ℕ) : ℂ))) = E * Complex.exp (Complex.I * Real.pi * f * n) := by
    intro n hn
    rw [hE, ← Complex.exp_add, Nat.cast_sub hn]
    congr 1; ring
  have hd : den = E * (starRingEnd ℂ) den := by
    rw [hden, dtft, hl, map_sum, mul_sum, ← sum_range_reflect]
    apply sum_congr rfl
    intro n hn
    have hn : n ≤ M := by have := mem_range.mp hn; omega
    rw [show M + 1 - 1 - n = M - n by omega, ← hs n hn, map_mul, hconj, Complex.conj_ofReal, hsplit n hn]
    ring
  have hn : num = E * (M * (starRingEnd ℂ) den - (starRingEnd ℂ) num) := by
    rw [hnum, hden, dtft, hl, map_sum, map_sum, mul_sum, ← sum_sub_distrib, mul_sum, ← sum_range_reflect]
    apply sum_congr rfl
    intro n hn
    have hn : n ≤ M := by have := mem_range.mp hn; omega
    rw [show M + 1 - 1 - n = M - n by omega, ← hs n hn, map_mul, map_mul, hconj, Complex.conj_ofReal, Complex.conj_ofReal, hsplit n hn]
    rw [Nat.cast_sub hn]
    push_cast
    ring
  have hc : (starRingEnd ℂ) den ≠ 0 := by simpa using hne
  have hq : num / den + (starRingEnd ℂ) (num / den) = M := by
    have h1 : num / den = (M * (starRingEnd ℂ) den - (starRingEnd ℂ) num) / (starRingEnd ℂ) den := by
      rw [div_eq_div_iff hne hc]
      linear_combination (starRingEnd ℂ) den * hn - (M * (starRingEnd ℂ) den - (starRingEnd ℂ) num) * hd
    rw [map_div₀, h1]
    field_simp
    ring
  have := congrArg Complex.re hq
  rw [Complex.add_re, Complex.conj_re] at this
  simp only [Complex.natCast_re] at this
  linarith

/-- C67.  A FirFilter with symmetric coefficients reports the group delay `count * order / 2` at every frequency where the response does
not vanish; the first sample is extrapolated from the next two.  The samples are those of the frequencies of `C65_fir_response`. -/
theorem C67_fir_delay (g : Fir ℝ) (M : ℕ) (hlen : g.b.length = M + 1) (hs : ∀ n ≤ M, at0 g.b n = at0 g.b (M - n))
    (length count : ℤ) (hl : 2 < length) (he : Even length) (hc : 0 < count) :
    ∃ y f, g.delay length count = .ok (y, f) ∧ y.length = length.toNat ∧ f.length = length.toNat ∧
      (∀ k < length.toNat, f[k]? = some (axis length k)) ∧
      (∀ k < length.toNat, 0 < k → dtft g.b (axis length k) ≠ 0 → y[k]? = some (M / 2 * count : ℝ)) ∧
      (dtft g.b (axis length 1) ≠ 0 → dtft g.b (axis length 2) ≠ 0 → y[0]? = some (M / 2 * count : ℝ)) := by
  classical
  obtain ⟨N, rfl⟩ : ∃ N : ℕ, length = N := ⟨length.toNat, by omega⟩
  have hN : 2 < N := by exact_mod_cast hl
  have hNr : (N : ℝ) ≠ 0 := by positivity
  set y0 := (np.rotate (np.groupDelay g.b N)).map (· * (count : ℝ)) with hy0
  have hlen0 : y0.length = N := by simp [hy0, np.rotate, np.groupDelay]; omega
  have hval : ∀ k < N, dtft g.b (axis N k) ≠ 0 → y0[k]? = some (M / 2 * count : ℝ) := by
    intro k hk hne
    have hgl : (np.groupDelay g.b N).length = N := by simp [np.groupDelay]
    rw [hy0, List.getElem?_map, rotate_getElem? _ _ (by rw [hgl]; exact hk), hgl]
    have hm : (N / 2 + k) % N < N := Nat.mod_lt _ (by omega)
    unfold np.groupDelay
    rw [List.getElem?_map, List.getElem?_range hm]
    simp only [Option.map_some]
    have hax : ∃ j : ℤ, (2 * (((N / 2 + k) % N : ℕ) : ℝ) / N : ℝ) = axis N k + 2 * j := by
      obtain ⟨m, hm⟩ := he
      have h2 : N / 2 + N / 2 = N := by omega
      have h2r : ((N / 2 : ℕ) : ℝ) + ((N / 2 : ℕ) : ℝ) = N := by exact_mod_cast h2
      unfold axis
      by_cases h : N / 2 + k < N
      · refine ⟨1, ?_⟩
        rw [Nat.mod_eq_of_lt h]
        push_cast
        field_simp
        linarith
      · refine ⟨0, ?_⟩
        rw [Nat.mod_eq_sub_mod (by omega), Nat.mod_eq_of_lt (by omega), Nat.cast_sub (by omega)]
        push_cast
        field_simp
        linarith
    obtain ⟨j, hj⟩ := hax
    have hexp : Complex.exp (-(Complex.I * (2 * Real.pi * ((N / 2 + k) % N : ℕ) / N))) = Complex.exp (-(Complex.I * Real.pi * (axis N k : ℝ))) := by
      have e : -(Complex.I * (2 * Real.pi * ((N / 2 + k) % N : ℕ) / N)) = -(Complex.I * Real.pi * (axis N k : ℝ)) + ((-j : ℤ) : ℂ) * (2 * Real.pi * Complex.I) := by
        have : (2 * Real.pi * ((N / 2 + k) % N : ℕ) / N : ℂ) = Real.pi * ((2 * (((N / 2 + k) % N : ℕ) : ℝ) / N : ℝ) : ℂ) := by push_cast; ring
        rw [this, hj]
        push_cast
        ring
      rw [e, Complex.exp_add, Complex.exp_int_mul_two_pi_mul_I, mul_one]
    rw [hexp, polyval_reverse, polyval_ramp, if_neg hne, symmetric_delay g.b M hlen hs _ hne]
  have haxis : np.linspace (-1) (1 - 2 / ((N : ℤ) : ℝ)) N = (List.range N).map (axis N) := by
    unfold np.linspace
    apply List.map_congr_left
    intro k hk
    have : (N : ℝ) - 1 ≠ 0 := by
      have : (1 : ℝ) < N := by exact_mod_cast (by omega : 1 < N)
      linarith
    unfold axis
    push_cast
    field_simp
    ring
  refine ⟨y0.set 0 (at0 y0 1 * 2 - at0 y0 2), (List.range N).map (axis N), ?_, by rw [List.length_set, hlen0]; simp, ?_, ?_, ?_, ?_⟩
  · unfold Fir.delay
    rw [if_neg (by omega), if_neg (by omega)]
    simp only [Int.toNat_natCast]
    rw [haxis, ← hy0, if_pos (by omega)]
    rfl
  · simp
  · intro k hk
    simp only [Int.toNat_natCast] at hk
    simp [hk]
  · intro k hk h0 hne
    rw [List.getElem?_set_ne (by omega)]
    exact hval k (by simpa using hk) hne
  · intro h1 h2
    rw [List.getElem?_set_self (by omega)]
    have e1 : at0 y0 1 = M / 2 * count := by unfold at0; rw [List.getD_eq_getElem?_getD, hval 1 (by omega) h1]; rfl
    have e2 : at0 y0 2 = M / 2 * count := by unfold at0; rw [List.getD_eq_getElem?_getD, hval 2 (by omega) h2]; rfl
    rw [e1, e2]
    congr 1
    ring

/-- `[1, 2, 1]` is symmetric and its response vanishes at Nyquist only. -/
example : (∀ n ≤ 2, at0 ([1, 2, 1] : List ℝ) n = at0 ([1, 2, 1] : List ℝ) (2 - n)) ∧ dtft [1, 2, 1] 0 ≠ 0 := by
  constructor
  · intro n hn
    rcases (by omega : n = 0 ∨ n = 1 ∨ n = 2) with rfl | rfl | rfl <;> rfl
  · simp [dtft, sum_range_succ, at0]; norm_num

end Verif.Props
