import Verif.Props.PolyRate

/-!
Property C121: polynomial rate filters one after another (diamondback/filters/polynomial_rate_filter.py).
-/

namespace Verif.Props

open Spec

/-- Every order but two passes through the samples. -/
private theorem integer_times (polyfit : ℕ → List ℝ → List ℝ) (hfit : ∀ n d, d.length = 4 → IsPolyfit n d (polyfit n d)) (f : PolyRate)
    (ho : f.order = 1 ∨ 3 ≤ f.order) (hr : 0 < f.rate) (x : List ℝ) (hx : 2 ≤ x.length) :
    ∃ y, f.filter polyfit (some x) = .ok y ∧ IsRound (x.length * f.rate) y.length ∧
      ∀ k < y.length, ∀ i : ℕ, (k : ℝ) / f.rate = i → i < x.length ∧ y[k]? = some (at0 x i) := by
  rcases ho with ho | ho
  · obtain ⟨y, h1, h2, h3⟩ := C35_linear polyfit f ho hr x hx
    refine ⟨y, h1, h2, fun k hk i hi => ?_⟩
    obtain ⟨v, g1, -, g2⟩ := h3 k hk
    obtain ⟨g3, g4⟩ := g2 i hi
    exact ⟨g3, by rw [g1, g4]⟩
  · exact C35_interpolates polyfit hfit f ho hr x hx

private theorem isRound_nat (n : ℕ) : IsRound (n : ℝ) (n : ℤ) := by simp [IsRound]

/-- C121.  Raising the rate by an integer keeps every sample and puts `k - 1` between one and the next. -/
theorem C121_up (polyfit : ℕ → List ℝ → List ℝ) (hfit : ∀ n d, d.length = 4 → IsPolyfit n d (polyfit n d)) (order : ℤ)
    (ho : order = 1 ∨ 3 ≤ order) (k : ℕ) (hk : 1 ≤ k) (x : List ℝ) (hx : 2 ≤ x.length) :
    ∃ y, ({ order := order, rate := k } : PolyRate).filter polyfit (some x) = .ok y ∧ y.length = x.length * k ∧
      ∀ i < x.length, y[i * k]? = x[i]? := by
  have hk0 : (0 : ℝ) < k := by exact_mod_cast hk
  obtain ⟨y, h1, h2, h3⟩ := integer_times polyfit hfit { order := order, rate := k } ho hk0 x hx
  have hl : y.length = x.length * k := by
    have h4 := isRound_nat (x.length * k)
    push_cast at h4
    exact_mod_cast IsRound.unique h2 h4
  refine ⟨y, h1, hl, fun i hi => ?_⟩
  have hik : i * k < y.length := by rw [hl]; exact Nat.mul_lt_mul_of_pos_right hi hk
  obtain ⟨-, g⟩ := h3 (i * k) hik i (by push_cast; field_simp)
  rw [g, at0_of_lt _ _ hi, List.getElem?_eq_getElem hi]

/-- Four times as many samples. -/
example (polyfit : ℕ → List ℝ → List ℝ) (hfit : ∀ n d, d.length = 4 → IsPolyfit n d (polyfit n d)) := C121_up polyfit hfit 3 (.inr le_rfl) 4 (by norm_num) [1, 5, 2] (by simp)

/-- C121.  Lowering the rate by an integer keeps every `k`-th sample. -/
theorem C121_down (polyfit : ℕ → List ℝ → List ℝ) (hfit : ∀ n d, d.length = 4 → IsPolyfit n d (polyfit n d)) (order : ℤ)
    (ho : order = 1 ∨ 3 ≤ order) (k : ℕ) (hk : 1 ≤ k) (x : List ℝ) (hx : 2 ≤ x.length) :
    ∃ y, ({ order := order, rate := 1 / k } : PolyRate).filter polyfit (some x) = .ok y ∧ IsRound ((x.length : ℝ) / k) y.length ∧
      ∀ j < y.length, j * k < x.length ∧ y[j]? = x[j * k]? := by
  have hk0 : (0 : ℝ) < k := by exact_mod_cast hk
  obtain ⟨y, h1, h2, h3⟩ := integer_times polyfit hfit { order := order, rate := 1 / k } ho (by positivity) x hx
  refine ⟨y, h1, by simpa [div_eq_mul_inv] using h2, fun j hj => ?_⟩
  obtain ⟨g1, g2⟩ := h3 j hj (j * k) (by push_cast; field_simp)
  exact ⟨g1, by rw [g2, at0_of_lt _ _ g1, List.getElem?_eq_getElem g1]⟩

/-- Every second sample. -/
example (polyfit : ℕ → List ℝ → List ℝ) (hfit : ∀ n d, d.length = 4 → IsPolyfit n d (polyfit n d)) := C121_down polyfit hfit 3 (.inr le_rfl) 2 (by norm_num) [1, 5, 2, 7] (by simp)

/-- C121.  Raising the rate by an integer and lowering it again, with the same or another order, returns the signal. -/
theorem C121_return (polyfit : ℕ → List ℝ → List ℝ) (hfit : ∀ n d, d.length = 4 → IsPolyfit n d (polyfit n d)) (o1 o2 : ℤ)
    (ho1 : o1 = 1 ∨ 3 ≤ o1) (ho2 : o2 = 1 ∨ 3 ≤ o2) (k : ℕ) (hk : 1 ≤ k) (x : List ℝ) (hx : 2 ≤ x.length) :
    ∃ y, ({ order := o1, rate := k } : PolyRate).filter polyfit (some x) = .ok y ∧
      ({ order := o2, rate := 1 / k } : PolyRate).filter polyfit (some y) = .ok x := by
  have hk0 : (0 : ℝ) < k := by exact_mod_cast hk
  obtain ⟨y, h1, h2, h3⟩ := C121_up polyfit hfit o1 ho1 k hk x hx
  have hy : 2 ≤ y.length := by rw [h2]; exact hx.trans (Nat.le_mul_of_pos_right _ hk)
  obtain ⟨z, g1, g2, g3⟩ := C121_down polyfit hfit o2 ho2 k hk y hy
  refine ⟨y, h1, ?_⟩
  rw [g1]
  congr 1
  have hl : z.length = x.length := by
    have h4 := isRound_nat x.length
    have he : ((y.length : ℕ) : ℝ) / k = x.length := by rw [h2]; push_cast; field_simp
    rw [he] at g2
    exact_mod_cast IsRound.unique g2 h4
  apply List.ext_getElem? 
  intro j
  by_cases hj : j < z.length
  · rw [(g3 j hj).2, h3 j (by omega)]
  · rw [List.getElem?_eq_none (by omega), List.getElem?_eq_none (by omega)]

/-- The value of the linear filter at rate `r`, on whichever interval. -/
private theorem linear_at (polyfit : ℕ → List ℝ → List ℝ) (r : ℝ) (hr : 0 < r) (x : List ℝ) (hx : 2 ≤ x.length) :
    ∃ y, ({ order := 1, rate := r } : PolyRate).filter polyfit (some x) = .ok y ∧ IsRound (x.length * r) y.length ∧
      ∀ k < y.length, ∀ i : ℕ, (i : ℝ) ≤ k / r → (k : ℝ) / r ≤ i + 1 →
        at0 y k = extend1 x i + (extend1 x (i + 1) - extend1 x i) * (k / r - i) := by
  obtain ⟨y, h1, h2, h3⟩ := C35_linear polyfit { order := 1, rate := r } rfl hr x hx
  refine ⟨y, h1, h2, fun k hk i a b => ?_⟩
  obtain ⟨v, g1, g2, -⟩ := h3 k hk
  rw [List.getElem?_eq_getElem hk] at g1
  rw [at0_of_lt _ _ hk, Option.some.inj g1]
  exact (g2 i a b).2.1

/-- C121.  With order one, raising the rate by an integer and then changing it by any rate is the same as changing it by the product. -/
theorem C121_compose (polyfit : ℕ → List ℝ → List ℝ) (k : ℕ) (hk : 1 ≤ k) (r : ℝ) (hr : 0 < r) (x : List ℝ) (hx : 2 ≤ x.length) :
    ∃ y z, ({ order := 1, rate := k } : PolyRate).filter polyfit (some x) = .ok y ∧
      ({ order := 1, rate := r } : PolyRate).filter polyfit (some y) = .ok z ∧
      ({ order := 1, rate := k * r } : PolyRate).filter polyfit (some x) = .ok z := by
  have hk0 : (0 : ℝ) < k := by exact_mod_cast hk
  obtain ⟨y, h1, h2, h3⟩ := linear_at polyfit k hk0 x hx
  have hl : y.length = x.length * k := by
    have h4 := isRound_nat (x.length * k)
    push_cast at h4
    exact_mod_cast IsRound.unique h2 h4
  have hy : 2 ≤ y.length := by rw [hl]; exact hx.trans (Nat.le_mul_of_pos_right _ hk)
  obtain ⟨z, g1, g2, g3⟩ := linear_at polyfit r hr y hy
  obtain ⟨w, e1, e2, e3⟩ := linear_at polyfit (k * r) (by positivity) x hx
  have hzw : z.length = w.length := by
    rw [hl] at g2
    push_cast at g2
    rw [mul_assoc] at g2
    exact_mod_cast IsRound.unique g2 e2
  refine ⟨y, z, h1, g1, ?_⟩
  rw [e1]
  congr 1
  have hin : ∀ a i : ℕ, a < y.length → i * k ≤ a → a ≤ (i + 1) * k →
      at0 y a = extend1 x i + (extend1 x (i + 1) - extend1 x i) * (a / k - i) := by
    intro a i ha b c
    refine h3 a ha i ?_ ?_
    · rw [le_div_iff₀ hk0]; exact_mod_cast b
    · rw [div_le_iff₀ hk0]; exact_mod_cast c
  -- the extension of the first output is on the line of the extension of the signal
  have hext : ∀ a i : ℕ, a ≤ y.length → i < x.length → i * k ≤ a → a ≤ (i + 1) * k →
      extend1 y a = extend1 x i + (extend1 x (i + 1) - extend1 x i) * (a / k - i) := by
    intro a i ha hi b c
    by_cases hay : a < y.length
    · rw [extend1, if_pos hay]; exact hin a i hay b c
    · have hae : a = x.length * k := by omega
      have hi1 : i + 1 = x.length := by
        have : x.length * k ≤ (i + 1) * k := by omega
        have := Nat.le_of_mul_le_mul_right this hk
        omega
      rw [extend1, if_neg hay]
      rcases Nat.lt_or_ge 1 k with hk1 | hk1
      · have m1 : (i + 1) * k = i * k + k := by ring
        have hyk : y.length = i * k + k := by rw [hl, ← hi1]; ring
        rw [hin (y.length - 1) i (by omega) (by omega) (by omega), hin (y.length - 2) i (by omega) (by omega) (by omega)]
        have c1 : ((y.length - 1 : ℕ) : ℝ) = y.length - 1 := by push_cast [show 1 ≤ y.length by omega]; ring
        have c2 : ((y.length - 2 : ℕ) : ℝ) = y.length - 2 := by push_cast [show 2 ≤ y.length by omega]; ring
        have c3 : a = y.length := by omega
        rw [c1, c2, c3]
        field_simp
        ring
      · obtain rfl : k = 1 := by omega
        have hy0 : ∀ n, n < y.length → at0 y n = at0 x n := by
          intro n hn
          have hnx : n < x.length := by omega
          have := hin n n hn (by omega) (by omega)
          simpa [extend1, hnx] using this
        have hl1 : y.length = x.length := by omega
        rw [hy0 _ (by omega), hy0 _ (by omega), hl1]
        have ha1 : a = i + 1 := by omega
        rw [ha1]
        have : ¬ i + 1 < x.length := by omega
        simp only [extend1, this, if_false, Nat.cast_add, Nat.cast_one]
        ring
  have hat : ∀ j, j < z.length → at0 w j = at0 z j := by
    intro j hj
    have hpos : 0 ≤ (j : ℝ) / r := by positivity
    obtain ⟨a, ha⟩ : ∃ a, a = ⌊(j : ℝ) / r⌋₊ := ⟨_, rfl⟩
    have a1 : (a : ℝ) ≤ j / r := by rw [ha]; exact Nat.floor_le hpos
    have a2 : (j : ℝ) / r < a + 1 := by rw [ha]; exact Nat.lt_floor_add_one _
    have aly : a < y.length := by
      have := abs_le.mp g2.1
      have hj' : (j : ℝ) + 1 ≤ z.length := by exact_mod_cast hj
      have h5 : (j : ℝ) / r < y.length := by
        rw [div_lt_iff₀ hr]
        push_cast at this
        linarith
      exact_mod_cast lt_of_le_of_lt a1 h5
    obtain ⟨i, hi⟩ : ∃ i, i = a / k := ⟨_, rfl⟩
    have b1 : i * k ≤ a := by rw [hi]; exact Nat.div_mul_le_self a k
    have b2 : a + 1 ≤ (i + 1) * k := by
      have := Nat.lt_div_mul_add (a := a) hk
      rw [← hi] at this
      have : (i + 1) * k = i * k + k := by ring
      omega
    have b3 : i < x.length := by
      rw [hi]; exact Nat.div_lt_of_lt_mul (by rw [Nat.mul_comm, ← hl]; exact aly)
    have b1' : (i : ℝ) * k ≤ a := by exact_mod_cast b1
    have b2' : (a : ℝ) + 1 ≤ (i + 1) * k := by exact_mod_cast b2
    have hjd : (j : ℝ) / (k * r) = j / r / k := by rw [div_div, mul_comm]
    rw [g3 j hj a a1 a2.le, hext a i aly.le b3 b1 (by omega), hext (a + 1) i aly b3 (by omega) b2]
    rw [e3 j (by omega) i (by rw [hjd, le_div_iff₀ hk0]; linarith) (by rw [hjd, div_le_iff₀ hk0]; linarith), hjd]
    push_cast
    field_simp
    ring
  apply List.ext_getElem hzw.symm
  intro j a b
  have := hat j b
  rwa [at0_of_lt _ _ a, at0_of_lt _ _ b] at this

/-- C121.  The other way about samples are lost: they do not come back. -/
theorem C121_lossy (polyfit : ℕ → List ℝ → List ℝ) (hfit : ∀ n d, d.length = 4 → IsPolyfit n d (polyfit n d)) :
    ∃ y z, ({ order := 1, rate := 1 / (2 : ℕ) } : PolyRate).filter polyfit (some [0, 1, 0, 1]) = .ok y ∧
      ({ order := 1, rate := (2 : ℕ) } : PolyRate).filter polyfit (some y) = .ok z ∧ z[1]? = some 0 ∧ ([0, 1, 0, 1] : List ℝ)[1]? = some 1 := by
  obtain ⟨y, h1, h2, h3⟩ := C121_down polyfit hfit 1 (.inl rfl) 2 (by norm_num) [0, 1, 0, 1] (by simp)
  have hl : y.length = 2 := by
    have h4 := isRound_nat 2
    have he : ((([0, 1, 0, 1] : List ℝ).length : ℕ) : ℝ) / (2 : ℕ) = (2 : ℕ) := by norm_num
    rw [he] at h2
    exact_mod_cast IsRound.unique h2 h4
  have hy : y = [0, 0] := by
    apply List.ext_getElem?
    intro j
    rcases (by omega : j = 0 ∨ j = 1 ∨ 2 ≤ j) with rfl | rfl | hj
    · rw [(h3 0 (by omega)).2]; rfl
    · rw [(h3 1 (by omega)).2]; rfl
    · rw [List.getElem?_eq_none (by omega), List.getElem?_eq_none (by simpa using hj)]
  subst hy
  obtain ⟨z, g1, g2, g3⟩ := C34_affine polyfit hfit { order := 1, rate := (2 : ℕ) } (by simp) (by simp) (by simp) [0, 0] (by simp) 0 0 (by
    intro n hn
    rcases (by simp at hn; omega : n = 0 ∨ n = 1) with rfl | rfl <;> simp [at0])
  refine ⟨_, z, h1, g1, ?_, rfl⟩
  have hz : z.length = 4 := by
    have h4 := isRound_nat 4
    have he : ((([0, 0] : List ℝ).length : ℕ) : ℝ) * (2 : ℕ) = (4 : ℕ) := by norm_num
    simp only [he] at g2
    exact_mod_cast IsRound.unique g2 h4
  rw [g3 1 (by omega)]
  norm_num

/-- The hypotheses are met by a signal of three samples, first at three times and then at three halves of its rate. -/
example (polyfit : ℕ → List ℝ → List ℝ) : ∃ y z, ({ order := 1, rate := (3 : ℕ) } : PolyRate).filter polyfit (some [1, 5, 2]) = .ok y ∧
    ({ order := 1, rate := 1 / 2 } : PolyRate).filter polyfit (some y) = .ok z ∧
    ({ order := 1, rate := (3 : ℕ) * (1 / 2) } : PolyRate).filter polyfit (some [1, 5, 2]) = .ok z :=
  C121_compose polyfit 3 (by norm_num) (1 / 2) (by norm_num) [1, 5, 2] (by simp)

example (polyfit : ℕ → List ℝ → List ℝ) (hfit : ∀ n d, d.length = 4 → IsPolyfit n d (polyfit n d)) :
    ∃ y, ({ order := 3, rate := (4 : ℕ) } : PolyRate).filter polyfit (some [1, 5]) = .ok y ∧
      ({ order := 1, rate := 1 / (4 : ℕ) } : PolyRate).filter polyfit (some y) = .ok [1, 5] :=
  C121_return polyfit hfit 3 1 (.inr le_rfl) (.inl rfl) 4 (by norm_num) [1, 5] (by simp)

end Verif.Props
