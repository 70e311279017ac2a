import Verif.Lemmas.ZTransform

/-
Properties C43, C44 of ZTransform (diamondback/transforms/z_transform.py).
-/

namespace Verif.Props

open Polynomial Spec

/-- What is assumed of `scipy.signal.residue`: its poles are the roots of the denominator. -/
def ResidueSpec (residue : List ℝ → List ℝ → List ℂ × List ℂ) : Prop :=
  ∀ v u, (residue v u).2.Perm (np.roots (np.complexOf u))

theorem two_t_eq (f : ℝ) : (2 * ((1 / (Real.pi * f) : ℝ) : ℂ) : ℂ) = ((2 / (Real.pi * f) : ℝ) : ℂ) := by
  push_cast; ring

theorem bilinear_eq (f : ℝ) (hf : 0 < f) (s : ℂ) : zt.bilinear (2 * ((1 / (Real.pi * f) : ℝ) : ℂ)) s =
    (1 + s * (Real.pi * f / 2)) / (1 - s * (Real.pi * f / 2)) := by
  have : (Real.pi : ℂ) * f ≠ 0 := by
    have := mul_pos Real.pi_pos hf
    exact_mod_cast this.ne'
  unfold zt.bilinear
  have e : s / (2 * ((1 / (Real.pi * f) : ℝ) : ℂ)) = s * (Real.pi * f / 2) := by
    push_cast; field_simp
  rw [e]

/-- The branches of an accepted call. -/
theorem zt.ok_cases (residue : List ℝ → List ℝ → List ℂ × List ℂ) (u v : List ℝ) (f : ℝ) (bl : Bool)
    (r : Option (List ℝ) × Option (List ℝ)) (h : zt.transform residue u v f bl = .ok r) :
    0 < f ∧ (¬ ∀ c ∈ u, c = 0) ∧ (¬ ∀ c ∈ v, c = 0) ∧ (zt.strip u).getLastD 0 ≠ 0 ∧ (zt.strip u).length ≠ 1 := by
  unfold zt.transform at h
  simp only at h
  split at h; · cases h
  split at h; · cases h
  split at h; · cases h
  split at h; · cases h
  split at h; · cases h
  refine ⟨by linarith, ?_, ?_, ?_, ?_⟩ <;> assumption

theorem zt.transform_bilinear (residue : List ℝ → List ℝ → List ℂ × List ℂ) (u v : List ℝ) (f : ℝ)
    (h1 : ¬ ∀ c ∈ u, c = 0) (h2 : ¬ ∀ c ∈ v, c = 0) (h3 : 0 < f) (h4 : (zt.strip u).getLastD 0 ≠ 0) (h5 : (zt.strip u).length ≠ 1)
    (h6 : ¬ IsRootOf u (2 * ((1 / (Real.pi * f) : ℝ) : ℂ))) :
    ∃ p z : List ℂ, (p.map (starRingEnd ℂ)).Perm p ∧ (z.map (starRingEnd ℂ)).Perm z ∧ p.length + 1 = (zt.strip u).length ∧
      (∀ q, q ∈ p ↔ ∃ s, IsRootOf u s ∧ q = (1 + s * (Real.pi * f / 2)) / (1 - s * (Real.pi * f / 2))) ∧
      (∀ q, q ∈ z → q = 0 ∨ ∃ s, IsRootOf v s ∧ q = (1 + s * (Real.pi * f / 2)) / (1 - s * (Real.pi * f / 2))) ∧
      (∀ s, IsRootOf v s → (1 + s * (Real.pi * f / 2)) / (1 - s * (Real.pi * f / 2)) ∈ z) ∧
      zt.transform residue u v f true = .ok (some (zt.recursive ((np.poly p).map Complex.re)),
        open scoped Classical in if IsRootOf v (2 * ((1 / (Real.pi * f) : ℝ) : ℂ)) then none else
          zt.normalise (zt.recursive ((np.poly p).map Complex.re)) ((np.poly z).map Complex.re)) := by
  classical
  obtain ⟨x, t, hs, hx⟩ := zt.strip_cons u h1
  obtain ⟨y, t', hs', hy⟩ := zt.strip_cons v h2
  set d := (zt.strip u).getLastD 0 with hd
  set p0 := np.roots (np.complexOf ((zt.strip u).map (· / d))) with hp0
  set z0 := np.roots (np.complexOf ((zt.strip v).map (· / d))) with hz0
  have hrp : ∀ s, s ∈ p0 ↔ IsRootOf u s := zt.roots_scaled u x t hs hx d h4
  have hrz : ∀ s, s ∈ z0 ↔ IsRootOf v s := zt.roots_scaled v y t' hs' hy d h4
  have hbc : ∀ p, (starRingEnd ℂ) (zt.bilinear (2 * ((1 / (Real.pi * f) : ℝ) : ℂ)) p) =
      zt.bilinear (2 * ((1 / (Real.pi * f) : ℝ) : ℂ)) ((starRingEnd ℂ) p) := by
    intro p; rw [two_t_eq]; exact zt.bilinear_conj _ p
  set p := p0.map (zt.bilinear (2 * ((1 / (Real.pi * f) : ℝ) : ℂ))) with hp
  set z1 := z0.map (zt.bilinear (2 * ((1 / (Real.pi * f) : ℝ) : ℂ))) with hz1
  have hpc : (p.map (starRingEnd ℂ)).Perm p := zt.map_conj_perm _ _ hbc (np.roots_conj _)
  have hzc : (z1.map (starRingEnd ℂ)).Perm z1 := zt.map_conj_perm _ _ hbc (np.roots_conj _)
  refine ⟨p, if z1.length < p.length then z1 ++ List.replicate (p.length - z1.length) 0 else z1, hpc, ?_, ?_, ?_, ?_, ?_, ?_⟩
  · split
    · rw [List.map_append]
      apply hzc.append
      simp
    · exact hzc
  · rw [hp, List.length_map, hp0, hs]
    simp only [List.map_cons, np.complexOf]
    rw [np.roots_length]
    · simp
    · simp [hx, h4]
  · intro q
    rw [hp, List.mem_map]
    constructor
    · rintro ⟨s, hs, rfl⟩
      exact ⟨s, (hrp s).mp hs, bilinear_eq f h3 s⟩
    · rintro ⟨s, hs, rfl⟩
      exact ⟨s, (hrp s).mpr hs, bilinear_eq f h3 s⟩
  · have key : ∀ q, q ∈ z1 → ∃ s, IsRootOf v s ∧ q = (1 + s * (Real.pi * f / 2)) / (1 - s * (Real.pi * f / 2)) := by
      intro q hq
      obtain ⟨s, hs, rfl⟩ := List.mem_map.mp hq
      exact ⟨s, (hrz s).mp hs, bilinear_eq f h3 s⟩
    intro q hq
    split at hq
    · rcases List.mem_append.mp hq with hq | hq
      · exact Or.inr (key q hq)
      · exact Or.inl (List.eq_of_mem_replicate hq)
    · exact Or.inr (key q hq)
  · intro s hs
    have : (1 + s * (Real.pi * f / 2)) / (1 - s * (Real.pi * f / 2)) ∈ z1 :=
      List.mem_map.mpr ⟨s, (hrz s).mpr hs, bilinear_eq f h3 s⟩
    split
    · exact List.mem_append_left _ this
    · exact this
  · unfold zt.transform
    simp only [h1, h2, not_le.mpr h3, if_false]
    rw [← hd]
    simp only [h4, h5, if_false, if_true]
    rw [← hp0, ← hz0, ← hp, ← hz1]
    rw [if_neg (by rw [hrp]; exact h6)]
    simp only [hrz]

/-- C43, bilinear.  Whenever the call returns finite recursive coefficients, they start with zero, their number is that of `u`, and
their poles are exactly the images `(1 + sπf/2) / (1 - sπf/2)` of the s-domain poles. -/
theorem C43_bilinear_poles (residue : List ℝ → List ℝ → List ℂ × List ℂ) (u v : List ℝ) (f : ℝ) (a : List ℝ) (b : Option (List ℝ))
    (h : zt.transform residue u v f true = .ok (some a, b)) :
    at0 a 0 = 0 ∧ (u.head? ≠ some 0 → a.length = u.length) ∧
      ∀ z, Pole a z ↔ ∃ s, IsRootOf u s ∧ z = (1 + s * (Real.pi * f / 2)) / (1 - s * (Real.pi * f / 2)) := by
  classical
  obtain ⟨h3, h1, h2, h4, h5⟩ := zt.ok_cases _ _ _ _ _ _ h
  by_cases h6 : IsRootOf u (2 * ((1 / (Real.pi * f) : ℝ) : ℂ))
  · exfalso
    obtain ⟨x, t, hs, hx⟩ := zt.strip_cons u h1
    have hm := (zt.roots_scaled u x t hs hx ((zt.strip u).getLastD 0) h4 _).mpr h6
    unfold zt.transform at h
    simp only [h1, h2, not_le.mpr h3, h4, h5, if_false, if_true] at h
    rw [if_pos hm] at h
    simp at h
  · obtain ⟨p, z, hpc, hzc, hl, hpm, -, -, he⟩ := zt.transform_bilinear residue u v f h1 h2 h3 h4 h5 h6
    rw [he] at h
    simp only [Except.ok.injEq, Prod.mk.injEq, Option.some.injEq] at h
    obtain ⟨rfl, -⟩ := h
    refine ⟨rfl, ?_, ?_⟩
    · intro hu
      have : zt.strip u = u := by
        cases u with
        | nil => rfl
        | cons x u =>
          have hx : x ≠ 0 := by simpa using hu
          simp [zt.strip, List.dropWhile, hx]
      rw [this] at hl
      simp only [zt.recursive, List.length_cons, List.length_tail, List.length_map, np.poly_length]
      omega
    · intro q
      rw [zt.recursive_pole p hpc, hpm]

/-- The last coefficient is nonzero and there are at least two when the roots are in the open left half plane. -/
theorem zt.stable_shape (u : List ℝ) (hroot : ∃ s, IsRootOf u s) (hu : ∃ c ∈ u, c ≠ 0) (hst : ∀ s, IsRootOf u s → s.re < 0) :
    (¬ ∀ c ∈ u, c = 0) ∧ (zt.strip u).getLastD 0 ≠ 0 ∧ (zt.strip u).length ≠ 1 := by
  have h1 : ¬ ∀ c ∈ u, c = 0 := by
    obtain ⟨c, hc, h0⟩ := hu
    intro h; exact h0 (h c hc)
  obtain ⟨x, t, hs, hx⟩ := zt.strip_cons u h1
  refine ⟨h1, ?_, ?_⟩
  · intro h0
    have : IsRootOf u 0 := by
      rw [isRootOf_iff, ← zt.toPoly_strip]
      obtain ⟨l, d, hld⟩ : ∃ l d, zt.strip u = l ++ [d] := by
        rw [hs]
        exact ⟨(x :: t).dropLast, (x :: t).getLast (by simp), (List.dropLast_append_getLast (by simp)).symm⟩
      rw [hld] at h0
      have hd : d = 0 := by simpa using h0
      rw [hld, hd]
      simp only [np.complexOf, List.map_append, List.map_cons, List.map_nil]
      rw [np.toPoly_append_singleton]
      simp
    have := hst 0 this
    simp at this
  · intro h
    rw [hs] at h
    have ht : t = [] := by simpa using h
    obtain ⟨s, hsr⟩ := hroot
    rw [isRootOf_iff, ← zt.toPoly_strip, hs, ht] at hsr
    simp [np.complexOf, np.toPoly] at hsr
    exact hx hsr

/-- C43, bilinear.  A stable s-domain denominator of degree at least one is accepted for every frequency > 0 and gives a stable
recursion. -/
theorem C43_bilinear_stable (residue : List ℝ → List ℝ → List ℂ × List ℂ) (u v : List ℝ) (f : ℝ) (hf : 0 < f)
    (hroot : ∃ s, IsRootOf u s) (hu : ∃ c ∈ u, c ≠ 0) (hst : ∀ s, IsRootOf u s → s.re < 0) (hv : ∃ c ∈ v, c ≠ 0) :
    ∃ a b, zt.transform residue u v f true = .ok (some a, b) ∧ at0 a 0 = 0 ∧ Stable a := by
  obtain ⟨h1, h4, h5⟩ := zt.stable_shape u hroot hu hst
  have h2 : ¬ ∀ c ∈ v, c = 0 := by
    obtain ⟨c, hc, h0⟩ := hv
    intro h; exact h0 (h c hc)
  have hpos : 0 < 2 / (Real.pi * f) := div_pos two_pos (mul_pos Real.pi_pos hf)
  have h6 : ¬ IsRootOf u (2 * ((1 / (Real.pi * f) : ℝ) : ℂ)) := by
    intro h
    have := hst _ h
    rw [two_t_eq, Complex.ofReal_re] at this
    linarith
  obtain ⟨p, z, hpc, hzc, hl, hpm, -, -, he⟩ := zt.transform_bilinear residue u v f h1 h2 hf h4 h5 h6
  refine ⟨_, _, he, rfl, ?_⟩
  intro q hq
  rw [zt.recursive_pole p hpc, hpm] at hq
  obtain ⟨s, hs, rfl⟩ := hq
  rw [← bilinear_eq f hf, two_t_eq]
  exact zt.norm_bilinear_lt _ hpos s (hst s hs)

/-- C43, impulse invariant.  The poles are exactly the images `exp(sπf)` of the s-domain poles. -/
theorem C43_impulse_poles (residue : List ℝ → List ℝ → List ℂ × List ℂ) (hres : ResidueSpec residue) (u v : List ℝ) (f : ℝ)
    (a : List ℝ) (b : Option (List ℝ)) (h : zt.transform residue u v f false = .ok (some a, b)) :
    at0 a 0 = 0 ∧ (u.head? ≠ some 0 → a.length = u.length) ∧
      ∀ z, Pole a z ↔ ∃ s, IsRootOf u s ∧ z = Complex.exp (s * (Real.pi * f)) := by
  classical
  obtain ⟨h3, h1, h2, h4, h5⟩ := zt.ok_cases _ _ _ _ _ _ h
  obtain ⟨x, t, hs, hx⟩ := zt.strip_cons u h1
  have hroots := zt.roots_scaled u x t hs hx ((zt.strip u).getLastD 0) h4
  unfold zt.transform at h
  simp only [h1, h2, not_le.mpr h3, h4, h5, if_false, Bool.false_eq_true] at h
  simp only [Except.ok.injEq, Prod.mk.injEq, Option.some.injEq, zt.impulse_fst] at h
  obtain ⟨rfl, -⟩ := h
  have hperm := hres ((zt.strip v).map (· / (zt.strip u).getLastD 0)) ((zt.strip u).map (· / (zt.strip u).getLastD 0))
  generalize hP : (residue ((zt.strip v).map (· / (zt.strip u).getLastD 0)) ((zt.strip u).map (· / (zt.strip u).getLastD 0))).2 = P at hperm ⊢
  have hconj : ((P.map fun p => Complex.exp (p / ((1 / (Real.pi * f) : ℝ) : ℂ))).map (starRingEnd ℂ)).Perm
      (P.map fun p => Complex.exp (p / ((1 / (Real.pi * f) : ℝ) : ℂ))) := by
    apply zt.map_conj_perm _ (fun p => Complex.exp (p / ((1 / (Real.pi * f) : ℝ) : ℂ)))
    · intro p
      rw [← Complex.exp_conj]; simp
    · exact ((hperm.map _).trans (np.roots_conj _)).trans hperm.symm
  refine ⟨rfl, ?_, ?_⟩
  · intro hu
    have hstrip : zt.strip u = u := by
      cases u with
      | nil => rfl
      | cons x u =>
        have hx : x ≠ 0 := by simpa using hu
        simp [zt.strip, List.dropWhile, hx]
    have hl := hperm.length_eq
    generalize (zt.strip u).getLastD 0 = d at hl h4
    rw [hs] at hl hstrip
    simp only [List.map_cons, np.complexOf] at hl
    rw [np.roots_length _ _ (by simp only [ne_eq, Complex.ofReal_eq_zero]; exact div_ne_zero hx h4)] at hl
    rw [← hstrip]
    simp only [List.length_map] at hl
    simp only [zt.recursive, List.length_cons, List.length_tail, List.length_map, np.poly_length]
    omega
  · intro q
    rw [zt.recursive_pole _ hconj, List.mem_map]
    have e : ∀ s : ℂ, s / ((1 / (Real.pi * f) : ℝ) : ℂ) = s * (Real.pi * f) := by
      intro s; push_cast; rw [div_div_eq_mul_div, div_one]
    constructor
    · rintro ⟨s, hs, rfl⟩
      exact ⟨s, (hroots s).mp (hperm.mem_iff.mp hs), by rw [e]⟩
    · rintro ⟨s, hs, rfl⟩
      exact ⟨s, hperm.mem_iff.mpr ((hroots s).mpr hs), by rw [e]⟩

/-- C43, impulse invariant.  A stable s-domain denominator of degree at least one is accepted for every frequency > 0 and gives a
stable recursion. -/
theorem C43_impulse_stable (residue : List ℝ → List ℝ → List ℂ × List ℂ) (hres : ResidueSpec residue) (u v : List ℝ) (f : ℝ) (hf : 0 < f)
    (hroot : ∃ s, IsRootOf u s) (hu : ∃ c ∈ u, c ≠ 0) (hst : ∀ s, IsRootOf u s → s.re < 0) (hv : ∃ c ∈ v, c ≠ 0) :
    ∃ a b, zt.transform residue u v f false = .ok (some a, b) ∧ at0 a 0 = 0 ∧ Stable a := by
  obtain ⟨h1, h4, h5⟩ := zt.stable_shape u hroot hu hst
  have h2 : ¬ ∀ c ∈ v, c = 0 := by
    obtain ⟨c, hc, h0⟩ := hv
    intro h; exact h0 (h c hc)
  have hok : ∃ a b, zt.transform residue u v f false = .ok (some a, b) := by
    unfold zt.transform
    simp only [h1, h2, not_le.mpr hf, h4, h5, if_false, Bool.false_eq_true]
    exact ⟨_, _, rfl⟩
  obtain ⟨a, b, h⟩ := hok
  obtain ⟨g1, -, g2⟩ := C43_impulse_poles residue hres u v f a b h
  refine ⟨a, b, h, g1, ?_⟩
  intro q hq
  obtain ⟨s, hs, rfl⟩ := (g2 q).mp hq
  rw [Complex.norm_exp, Real.exp_lt_one_iff]
  rw [show s * ((Real.pi : ℂ) * f) = s * ((Real.pi * f : ℝ) : ℂ) by push_cast; ring, Complex.re_mul_ofReal]
  exact mul_neg_of_neg_of_pos (hst s hs) (mul_pos Real.pi_pos hf)

/-- The hypotheses are met by `s² + s + 1`, at any frequency. -/
example : (∃ s, IsRootOf [1, 1, 1] s) ∧ (∃ c ∈ [(1 : ℝ), 1, 1], c ≠ 0) ∧ (∀ s, IsRootOf [1, 1, 1] s → s.re < 0) := by
  refine ⟨?_, ⟨1, by simp, one_ne_zero⟩, ?_⟩
  · have : 0 < (np.toPoly (np.complexOf [1, 1, 1])).degree := by
      rw [← Polynomial.natDegree_pos_iff_degree_pos]
      simp only [np.complexOf, List.map_cons]
      rw [np.natDegree_toPoly _ _ (by norm_num)]
      simp
    obtain ⟨s, hs⟩ := Complex.exists_root this
    exact ⟨s, (isRootOf_iff _ _).mpr hs⟩
  · intro s hs
    have h : s * s + s + 1 = 0 := by
      simp only [IsRootOf, List.length_cons, List.length_nil, Finset.sum_range_succ, Finset.sum_range_zero, at0] at hs
      simp at hs
      linear_combination hs
    have hr := congrArg Complex.re h
    have hi := congrArg Complex.im h
    simp at hr hi
    by_contra hn
    push Not at hn
    have : s.im * (2 * s.re + 1) = 0 := by linarith
    rcases mul_eq_zero.mp this with h0 | h0
    · rw [h0] at hr; nlinarith
    · linarith

theorem sum_eq_eval_one (c : List ℝ) : ((c.sum : ℝ) : ℂ) = (np.toPoly (np.complexOf c)).eval 1 := by
  induction c with
  | nil => simp [np.complexOf, np.toPoly]
  | cons x c ih =>
    rw [List.sum_cons, Complex.ofReal_add, ih]
    simp [np.complexOf, np.toPoly]

theorem sum_map_mul (c : List ℝ) (k : ℝ) : (c.map (· * k)).sum = c.sum * k := List.sum_map_mul_right c id k |>.trans (by simp)

/-- C44.  Whenever finite coefficients are returned, `sum(b) = 1 - sum(a)`: the gain at zero frequency is one. -/
theorem C44_dc_gain (residue : List ℝ → List ℝ → List ℂ × List ℂ) (u v : List ℝ) (f : ℝ) (bl : Bool) (a b : List ℝ)
    (h : zt.transform residue u v f bl = .ok (some a, some b)) : b.sum = 1 - a.sum := by
  have key : ∀ a c d : List ℝ, zt.normalise a c = some d → d.sum = 1 - a.sum := by
    intro a c d hn
    unfold zt.normalise at hn
    split at hn
    · cases hn
    · rename_i h0
      cases hn
      rw [sum_map_mul]; field_simp
  obtain ⟨h3, h1, h2, h4, h5⟩ := zt.ok_cases _ _ _ _ _ _ h
  unfold zt.transform at h
  simp only [h1, h2, not_le.mpr h3, h4, h5, if_false] at h
  cases bl
  · simp only [Bool.false_eq_true, if_false, Except.ok.injEq, Prod.mk.injEq, Option.some.injEq] at h
    obtain ⟨rfl, hb⟩ := h
    exact key _ _ _ hb
  · simp only [if_true] at h
    split at h
    · simp at h
    · simp only [Except.ok.injEq, Prod.mk.injEq, Option.some.injEq] at h
      obtain ⟨rfl, hb⟩ := h
      split at hb
      · cases hb
      · exact key _ _ _ hb

/-- C44, bilinear.  For a stable denominator the forward coefficients are finite (and hence normalised) unless the numerator
vanishes at zero frequency or at `2/(πf)`, the point the bilinear map sends to infinity. -/
theorem C44_bilinear_finite (residue : List ℝ → List ℝ → List ℂ × List ℂ) (u v : List ℝ) (f : ℝ) (hf : 0 < f)
    (hroot : ∃ s, IsRootOf u s) (hu : ∃ c ∈ u, c ≠ 0) (hst : ∀ s, IsRootOf u s → s.re < 0)
    (hv0 : ¬ IsRootOf v 0) (hv1 : ¬ IsRootOf v ((2 / (Real.pi * f) : ℝ) : ℂ)) :
    ∃ a b, zt.transform residue u v f true = .ok (some a, some b) ∧ b.sum = 1 - a.sum := by
  have hv : ¬ ∀ c ∈ v, c = 0 := by
    intro h
    apply hv0
    unfold IsRootOf
    apply Finset.sum_eq_zero
    intro i hi
    rw [Finset.mem_range] at hi
    have : at0 v i = 0 := by
      unfold at0
      rw [List.getD_eq_getElem?_getD, List.getElem?_eq_getElem hi, Option.getD_some]
      exact h _ (List.getElem_mem hi)
    rw [this]; simp
  obtain ⟨h1, h4, h5⟩ := zt.stable_shape u hroot hu hst
  have hpos : 0 < 2 / (Real.pi * f) := div_pos two_pos (mul_pos Real.pi_pos hf)
  have h6 : ¬ IsRootOf u (2 * ((1 / (Real.pi * f) : ℝ) : ℂ)) := by
    intro h
    have := hst _ h
    rw [two_t_eq, Complex.ofReal_re] at this
    linarith
  obtain ⟨p, z, hpc, hzc, hl, hpm, hzm, -, he⟩ := zt.transform_bilinear residue u v f h1 hv hf h4 h5 h6
  rw [two_t_eq, if_neg hv1] at he
  have hsum : ((np.poly z).map Complex.re).sum ≠ 0 := by
    intro h0
    have h0' : ((((np.poly z).map Complex.re).sum : ℝ) : ℂ) = 0 := by rw [h0]; simp
    rw [sum_eq_eval_one, show np.complexOf ((np.poly z).map Complex.re) = np.poly z from np.poly_real z hzc, np.toPoly_poly,
      Polynomial.eval_list_prod, List.prod_eq_zero_iff] at h0'
    simp only [List.map_map, List.mem_map, Function.comp_apply, eval_sub, eval_X, eval_C] at h0'
    obtain ⟨q, hq, h01⟩ := h0'
    have hq1 : q = 1 := (sub_eq_zero.mp h01).symm
    rcases hzm q hq with h | ⟨s, hs, h⟩
    · rw [h] at hq1; simp at hq1
    · rw [hq1] at h
      have hc : (Real.pi : ℂ) * f ≠ 0 := by
        have := mul_pos Real.pi_pos hf
        exact_mod_cast this.ne'
      have hden : (1 - s * (Real.pi * f / 2) : ℂ) ≠ 0 := by
        intro hd
        rw [hd] at h; simp at h
      rw [eq_div_iff hden] at h
      have h' : s * (Real.pi * f) = 0 := by linear_combination -h
      rcases mul_eq_zero.mp h' with h0 | h0
      · rw [h0] at hs; exact hv0 hs
      · exact hc h0
  have hn : zt.normalise (zt.recursive ((np.poly p).map Complex.re)) ((np.poly z).map Complex.re) =
      some (((np.poly z).map Complex.re).map
        (· * ((1 - (zt.recursive ((np.poly p).map Complex.re)).sum) / ((np.poly z).map Complex.re).sum))) := by
    unfold zt.normalise
    rw [if_neg hsum]
  rw [hn] at he
  exact ⟨_, _, he, C44_dc_gain residue u v f true _ _ he⟩

/-- The hypotheses on the numerator are met by the constant one, the numerator used by the filter designs. -/
example (f : ℝ) : ¬ IsRootOf [1] 0 ∧ ¬ IsRootOf [1] ((2 / (Real.pi * f) : ℝ) : ℂ) := by
  constructor <;> simp [IsRootOf, at0]

/-- C44.  A numerator that vanishes at zero frequency divides by zero: the forward coefficients are not finite. -/
theorem C44_zero_dc_not_finite (residue : List ℝ → List ℝ → List ℂ × List ℂ) (u v : List ℝ) (f : ℝ) (hv : IsRootOf v 0)
    (a b : List ℝ) : zt.transform residue u v f true ≠ .ok (some a, some b) := by
  intro h
  obtain ⟨h3, h1, h2, h4, h5⟩ := zt.ok_cases _ _ _ _ _ _ h
  by_cases h6 : IsRootOf u (2 * ((1 / (Real.pi * f) : ℝ) : ℂ))
  · obtain ⟨x, t, hs, hx⟩ := zt.strip_cons u h1
    have hm := (zt.roots_scaled u x t hs hx ((zt.strip u).getLastD 0) h4 _).mpr h6
    unfold zt.transform at h
    simp only [h1, h2, not_le.mpr h3, h4, h5, if_false, if_true] at h
    rw [if_pos hm] at h
    simp at h
  · obtain ⟨p, z, hpc, hzc, hl, hpm, -, hzm, he⟩ := zt.transform_bilinear residue u v f h1 h2 h3 h4 h5 h6
    have h1z : (1 : ℂ) ∈ z := by simpa using hzm 0 hv
    have hsum : ((np.poly z).map Complex.re).sum = 0 := by
      have h0' : ((((np.poly z).map Complex.re).sum : ℝ) : ℂ) = 0 := by
        rw [sum_eq_eval_one, show np.complexOf ((np.poly z).map Complex.re) = np.poly z from np.poly_real z hzc, np.toPoly_poly,
          Polynomial.eval_list_prod, List.prod_eq_zero_iff]
        simp only [List.map_map, List.mem_map, Function.comp_apply, eval_sub, eval_X, eval_C]
        exact ⟨1, h1z, by simp⟩
      exact_mod_cast h0'
    rw [he] at h
    simp only [Except.ok.injEq, Prod.mk.injEq, zt.normalise, hsum, if_true] at h
    have := h.2
    split at this <;> cases this

/-- A numerator `s`. -/
example (residue : List ℝ → List ℝ → List ℂ × List ℂ) := C44_zero_dc_not_finite residue [1, 1] [1, 0] (1 / 2) (by simp [IsRootOf, at0, Finset.sum_range_succ])

/-- The hypotheses of `C43_bilinear_poles` hold: a transform which succeeds, from `1 / (s + 1)`. -/
example (residue : List ℝ → List ℝ → List ℂ × List ℂ) : ∃ a b, zt.transform residue [1, 1] [0, 1] (1 / 2) true = .ok (some a, b) := by
  have h : ∀ s : ℂ, IsRootOf [1, 1] s ↔ s = -1 := fun s => by simp [IsRootOf, at0, Finset.sum_range_succ]; exact eq_neg_iff_add_eq_zero.symm
  obtain ⟨a, b, h1, -⟩ := C43_bilinear_stable residue [1, 1] [0, 1] (1 / 2) (by norm_num) ⟨-1, (h _).mpr rfl⟩ ⟨1, by simp⟩ (fun s hs => by rw [(h s).mp hs]; norm_num) ⟨1, by simp⟩
  exact ⟨a, b, h1⟩

end Verif.Props
