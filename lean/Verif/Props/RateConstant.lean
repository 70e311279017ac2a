import Verif.Props.RateLinear

/- Property C34, constants: PolynomialRateFilter reproduces constant signals for every order, although it does not reproduce affine signals for all orders. -/

namespace Verif.Props

open Finset Spec

/-- The fit of constant data is the constant, for every order: where there are several exact fits it is the one of least norm. -/
theorem polyfit_constant (n : ℕ) (p : ℝ) (c : List ℝ) (h : IsPolyfit n [p, p, p, p] c) (t : ℝ) : polyAt c t = p := by
  have hlen := h.1
  have he : ∀ j, at0 (List.replicate n (0 : ℝ) ++ [p]) j = if j = n then p else 0 := by
    intro j
    simp only [at0, List.getD_eq_getElem?_getD, List.getElem?_append, List.length_replicate, List.getElem?_replicate]
    rcases lt_trichotomy j n with hj | hj | hj
    · simp [hj, hj.ne]
    · simp [hj]
    · obtain ⟨m, rfl⟩ : ∃ m, j = n + (m + 1) := ⟨j - n - 1, by omega⟩
      simp
  have hlast : ∀ j < n, 0 < n + 1 - 1 - j := fun j hj => by omega
  have hval : ∀ t, polyAt (List.replicate n (0 : ℝ) ++ [p]) t = p := by
    intro t
    unfold polyAt
    simp only [he]
    rw [show (List.replicate n (0 : ℝ) ++ [p]).length = n + 1 by simp, sum_range_succ, sum_eq_zero]
    · simp
    · intro j hj
      rw [if_neg (mem_range.mp hj).ne, zero_mul]
  have hdat : ∀ i : ℕ, i < 4 → at0 [p, p, p, p] i = p := by
    intro i hi
    rcases (by omega : i = 0 ∨ i = 1 ∨ i = 2 ∨ i = 3) with rfl | rfl | rfl | rfl <;> rfl
  have hex := polyfit_exact n [p, p, p, p] c (List.replicate n 0 ++ [p]) h (by simp) (fun i hi => by rw [hval, hdat i hi])
  have hz : ∀ e : List ℝ, (∀ i : ℕ, i < 4 → polyAt e ((i : ℝ) - 1) = at0 [p, p, p, p] i) → sqErr [p, p, p, p] e = 0 := by
    intro e he
    unfold sqErr
    apply sum_eq_zero
    intro i hi
    rw [he i (mem_range.mp hi), sub_self]; norm_num
  have hnorm := (h.2 (List.replicate n 0 ++ [p]) (by simp)).2 (by rw [hz c hex, hz _ (fun i hi => by rw [hval, hdat i hi])])
  have hcn : at0 c n = p := by
    have h1 := hex 1 (by omega)
    rw [hdat 1 (by omega)] at h1
    unfold polyAt at h1
    rw [hlen, sum_range_succ, sum_eq_zero] at h1
    · simpa using h1
    · intro j hj
      have := hlast j (mem_range.mp hj)
      rw [show ((1 : ℕ) : ℝ) - 1 = 0 by norm_num, zero_pow (by omega), mul_zero]
  have hw : ∀ j < n, 0 < ∑ i ∈ range 4, ((i : ℝ) - 1) ^ (2 * (n + 1 - 1 - j)) := by
    intro j hj
    apply sum_pos'
    · intro i _
      rw [pow_mul]; positivity
    · exact ⟨2, by simp, by norm_num⟩
  have hsum : ∑ j ∈ range n, (∑ i ∈ range 4, ((i : ℝ) - 1) ^ (2 * (n + 1 - 1 - j))) * at0 c j ^ 2 = 0 := by
    apply le_antisymm _ (sum_nonneg fun j hj => mul_nonneg (hw j (mem_range.mp hj)).le (sq_nonneg _))
    unfold fitNorm at hnorm
    rw [hlen, show (List.replicate n (0 : ℝ) ++ [p]).length = n + 1 by simp] at hnorm
    generalize hW : (fun j : ℕ => ∑ i ∈ range 4, ((i : ℝ) - 1) ^ (2 * (n + 1 - 1 - j))) = W at hnorm
    have hW' : ∀ j, ∑ i ∈ range 4, ((i : ℝ) - 1) ^ (2 * (n + 1 - 1 - j)) = W j := fun j => congrFun hW j
    simp only [hW'] at hnorm ⊢
    have hzero : ∑ j ∈ range n, W j * at0 (List.replicate n (0 : ℝ) ++ [p]) j ^ 2 = 0 := by
      apply sum_eq_zero
      intro j hj
      rw [he j, if_neg (mem_range.mp hj).ne]; ring
    rw [sum_range_succ, sum_range_succ _ n, hzero, hcn, he n, if_pos rfl] at hnorm
    linarith
  have hc0 : ∀ j < n, at0 c j = 0 := by
    intro j hj
    have := (sum_eq_zero_iff_of_nonneg (fun j hj => mul_nonneg (hw j (mem_range.mp hj)).le (sq_nonneg _))).mp hsum j (mem_range.mpr hj)
    exact pow_eq_zero_iff two_ne_zero |>.mp ((mul_eq_zero.mp this).resolve_left (hw j hj).ne')
  unfold polyAt
  rw [hlen, sum_range_succ, sum_eq_zero]
  · simp [hcn]
  · intro j hj
    rw [hc0 j (mem_range.mp hj), zero_mul]

private theorem constant_extend (p : ℝ) (N : ℕ) (hN : 2 ≤ N) (n : ℤ) (h1 : -1 ≤ n) (h2 : n ≤ N + 1) : extend (List.replicate N p) n = p := by
  have := affine_extend (List.replicate N p) (by simpa using hN) p 0 (fun n hn => by
    rw [at0_of_lt _ _ hn]; simp) n h1 (by simpa using h2)
  simpa using this

/-- C34.  For every order and rate a constant signal gives the same constant, at all output samples. -/
theorem C34_constant (polyfit : ℕ → List ℝ → List ℝ) (hfit : ∀ n d, d.length = 4 → IsPolyfit n d (polyfit n d)) (f : PolyRate)
    (hr : 0 < f.rate) (p : ℝ) (N : ℕ) (hN : 2 ≤ N) :
    ∃ M : ℕ, f.filter polyfit (some (List.replicate N p)) = .ok (List.replicate M p) ∧ IsRound (N * f.rate) M := by
  by_cases h1 : f.order = 1
  · obtain ⟨y, g1, g2, g3⟩ := C34_affine polyfit hfit f (by omega) (by omega) hr (List.replicate N p) (by simpa using hN) p 0 (fun n hn => by
      rw [at0_of_lt _ _ hn]; simp)
    refine ⟨y.length, ?_, by simpa using g2⟩
    rw [g1]
    congr 1
    apply List.ext_getElem?
    intro k
    by_cases hk : k < y.length
    · rw [g3 k hk]; simp [hk]
    · rw [List.getElem?_eq_none (not_lt.mp hk)]; simp [hk]
  · obtain ⟨y, g1, g2, g3⟩ := fit_values polyfit f h1 hr (List.replicate N p) (by simpa using hN)
    refine ⟨y.length, ?_, by rw [g2]; simpa using np.round_spec _⟩
    rw [g1]
    congr 1
    apply List.ext_getElem?
    intro k
    by_cases hk : k < y.length
    · obtain ⟨hkt, hyk⟩ := g3 k hk
      rw [hyk]
      have hpos : 0 ≤ (k : ℝ) / f.rate := by positivity
      have hj : ⌊(k : ℝ) / f.rate⌋₊ < N := (Nat.floor_lt hpos).mpr (by simpa using hkt)
      simp only
      rw [constant_extend p N hN _ (by omega) (by omega), constant_extend p N hN _ (by omega) (by omega), constant_extend p N hN _ (by omega) (by omega),
        constant_extend p N hN _ (by omega) (by omega), polyfit_constant _ p _ (hfit _ _ rfl)]
      simp [hk]
    · rw [List.getElem?_eq_none (not_lt.mp hk)]; simp [hk]

/-- Order 9, for which the fit through four samples is far from unique. -/
example (polyfit : ℕ → List ℝ → List ℝ) (hfit : ∀ n d, d.length = 4 → IsPolyfit n d (polyfit n d)) :=
  C34_constant polyfit hfit { order := 9, rate := 5 / 2 } (by norm_num) 3 7 (by norm_num)

/-- C34.  For every order and rate an offset of the signal is an offset of the output. -/
theorem C34_offset (polyfit : ℕ → List ℝ → List ℝ) (hfit : ∀ n d, d.length = 4 → IsPolyfit n d (polyfit n d)) (f : PolyRate)
    (hr : 0 < f.rate) (p : ℝ) (x : List ℝ) (hx : 2 ≤ x.length) :
    ∃ y, f.filter polyfit (some x) = .ok y ∧ f.filter polyfit (some (x.map (· + p))) = .ok (y.map (· + p)) := by
  obtain ⟨u, v, h1, h2, h3, h4⟩ := C92_linear polyfit hfit f hr x (List.replicate x.length p) hx (by simp) 1 1
  obtain ⟨M, g1, -⟩ := C34_constant polyfit hfit f hr p x.length hx
  rw [g1] at h2
  obtain rfl : List.replicate M p = v := by simpa using h2
  have hm : ∀ (l : List ℝ) (m : ℕ), l.length = m → mix 1 1 l (List.replicate m p) = l.map (· + p) := by
    intro l m hl
    subst hl
    unfold mix
    induction l with
    | nil => rfl
    | cons a t ih => rw [List.length_cons, List.replicate_succ, List.zipWith_cons_cons, ih, List.map_cons, one_mul, one_mul]
  refine ⟨u, h1, ?_⟩
  rw [← hm x _ rfl, h4, hm u M (by simpa using h3)]

example (polyfit : ℕ → List ℝ → List ℝ) (hfit : ∀ n d, d.length = 4 → IsPolyfit n d (polyfit n d)) :=
  C34_offset polyfit hfit { order := 4, rate := 2 } (by norm_num) 10 [0, 1, 5] (by simp)

end Verif.Props
