import Verif.Props.ZTransform
import Verif.Spec.Analog
import Mathlib.Analysis.SpecialFunctions.Trigonometric.Arctan
import Verif.Spec.Response
import Verif.Props.IirDesign

/- Property C85: the transfer functions which ZTransform (diamondback/transforms/z_transform.py) relates. -/

namespace Verif.Props

open Verif Verif.Spec Finset Polynomial

theorem sAt_eval (c : List ℝ) (s : ℂ) : sAt c s = (np.toPoly (np.complexOf c)).eval s := by
  rw [np.eval_toPoly]
  unfold sAt np.complexOf
  rw [List.length_map]
  apply sum_congr rfl
  intro i _
  congr 1
  exact (at0_complexOf c i).symm

theorem zAt_eval (c : List ℝ) (z : ℂ) (hz : z ≠ 0) : zAt c z * z ^ (c.length - 1) = sAt c z := by
  unfold zAt sAt
  rw [sum_mul]
  apply sum_congr rfl
  intro i hi
  have hi := mem_range.mp hi
  rw [mul_assoc]
  congr 1
  rw [show c.length - 1 = i + (c.length - 1 - i) by omega, pow_add, ← mul_assoc, ← mul_pow, inv_mul_cancel₀ hz, one_pow, one_mul]
  congr 1; omega

theorem sAt_roots (x : ℝ) (t : List ℝ) (hx : x ≠ 0) (s : ℂ) : sAt (x :: t) s = x * ((np.roots (np.complexOf (x :: t))).map (s - ·)).prod := by
  have hx' : (x : ℂ) ≠ 0 := by exact_mod_cast hx
  have hlead : (np.toPoly (np.complexOf (x :: t))).leadingCoeff = x := by
    have h1 := np.natDegree_toPoly (np.complexOf t) (x : ℂ) hx'
    have h2 := np.coeff_toPoly ((x : ℂ) :: np.complexOf t) 0 (by simp)
    simp only [List.length_cons, Nat.add_sub_cancel, Nat.sub_zero] at h2
    rw [leadingCoeff]
    show (np.toPoly ((x : ℂ) :: np.complexOf t)).coeff (np.toPoly ((x : ℂ) :: np.complexOf t)).natDegree = x
    rw [h1, h2]; simp [at0]
  rw [sAt_eval, (IsAlgClosed.splits (np.toPoly (np.complexOf (x :: t)))).eq_prod_roots, hlead, eval_mul, eval_C, eval_multiset_prod, Multiset.map_map]
  congr 1
  unfold np.roots
  conv_lhs => rw [← Multiset.coe_toList (np.toPoly (np.complexOf (x :: t))).roots, Multiset.map_coe, Multiset.prod_coe]
  simp [Function.comp_def]

theorem sAt_div (c : List ℝ) (d : ℝ) (s : ℂ) : sAt (c.map (· / d)) s = sAt c s / d := by
  rw [sAt_eval, sAt_eval, zt.complexOf_div, np.toPoly_map_mul, eval_mul, eval_C, div_eq_inv_mul]

/-- One factor under the bilinear map. -/
theorem bilinear_factor (h p z : ℂ) (hh : h ≠ 0) (hp : p ≠ h) (hz : z ≠ -1) : (h - p) * (z - zt.bilinear h p) = (z + 1) * (h * (z - 1) / (z + 1) - p) := by
  have h1 : z + 1 ≠ 0 := fun e => hz (eq_neg_of_add_eq_zero_left e)
  have h2 : 1 - p / h ≠ 0 := by
    intro e
    apply hp
    have : p / h = 1 := (sub_eq_zero.mp e).symm
    rw [div_eq_one_iff_eq hh] at this
    exact this
  have h3 : h - p ≠ 0 := sub_ne_zero.mpr (Ne.symm hp)
  have h4 : zt.bilinear h p = (h + p) / (h - p) := by
    unfold zt.bilinear
    rw [div_eq_div_iff h2 h3]
    field_simp
  rw [h4]
  field_simp
  ring

theorem bilinear_prod (h z : ℂ) (hh : h ≠ 0) (hz : z ≠ -1) (r : List ℂ) (hr : h ∉ r) :
    (r.map (h - ·)).prod * ((r.map (zt.bilinear h)).map (z - ·)).prod = (z + 1) ^ r.length * (r.map (h * (z - 1) / (z + 1) - ·)).prod := by
  induction r with
  | nil => simp
  | cons p r ih =>
    simp only [List.mem_cons, not_or] at hr
    have e := bilinear_factor h p z hh (Ne.symm hr.1) hz
    have i := ih hr.2
    simp only [List.map_cons, List.prod_cons, List.length_cons, pow_succ]
    calc (h - p) * (r.map (h - ·)).prod * ((z - zt.bilinear h p) * ((r.map (zt.bilinear h)).map (z - ·)).prod)
        = ((h - p) * (z - zt.bilinear h p)) * ((r.map (h - ·)).prod * ((r.map (zt.bilinear h)).map (z - ·)).prod) := by ring
      _ = _ := by rw [e, i]; ring

theorem poly_eval (r : List ℂ) (h : (r.map (starRingEnd ℂ)).Perm r) (z : ℂ) : sAt ((np.poly r).map Complex.re) z = (r.map (z - ·)).prod := by
  rw [sAt_eval]
  unfold np.complexOf
  rw [np.poly_real r h, np.toPoly_poly, eval_list_prod, List.map_map]
  congr 1
  apply List.map_congr_left
  intro c _
  simp

/-- The denominator of the recursion. -/
theorem recursive_zAt (r : List ℂ) (h : (r.map (starRingEnd ℂ)).Perm r) (z : ℂ) :
    1 - zAt (zt.recursive ((np.poly r).map Complex.re)) z = zAt ((np.poly r).map Complex.re) z := by
  have hh : at0 ((np.poly r).map Complex.re) 0 = 1 := by
    have h1 := np.poly_head r
    have h2 := at0_complexOf ((np.poly r).map Complex.re) 0
    unfold np.complexOf at h2
    rw [np.poly_real r h, h1] at h2
    exact_mod_cast h2.symm
  have hl : ((np.poly r).map Complex.re).length = r.length + 1 := by rw [List.length_map, np.poly_length]
  obtain ⟨c, t, ht⟩ := List.exists_cons_of_ne_nil (List.ne_nil_of_length_pos (by omega : 0 < ((np.poly r).map Complex.re).length))
  rw [ht] at hh ⊢
  have hc : c = 1 := hh
  subst hc
  have hrec : zt.recursive (1 :: t) = 0 :: t.map (- ·) := by
    unfold zt.recursive
    simp [div_neg]
  rw [hrec]
  unfold zAt
  simp only [List.length_cons, List.length_map]
  rw [sum_range_succ', sum_range_succ']
  have : ∀ i, at0 (0 :: t.map (- ·)) (i + 1) = - at0 ((1 : ℝ) :: t) (i + 1) := by
    intro i
    simp only [at0, List.getD_eq_getElem?_getD, List.getElem?_cons_succ, List.getElem?_map]
    cases t[i]? <;> simp
  simp only [this]
  simp [at0, sum_neg_distrib]
  ring

theorem strip_of_head (u : List ℝ) (hu : u.head? ≠ some 0) : zt.strip u = u := by
  classical
  unfold zt.strip
  cases u with
  | nil => rfl
  | cons x t =>
    have hx : x ≠ 0 := by simpa using hu
    rw [List.dropWhile_cons_of_neg (by simpa using hx)]

/-- C85, bilinear.  The relation of the transfer functions, for every `z` except `0` and `-1`: with `s = 2 / (πf) · (z - 1) / (z + 1)`, the discrete transfer function is the continuous
one divided by its value at zero, times `((1 + 1/z) / 2) ^ (deg v - deg u)` (written without division, so that it says where the poles are as well). -/
theorem zAt_map_mul (c : List ℝ) (k : ℝ) (z : ℂ) : zAt (c.map (· * k)) z = zAt c z * k := by
  unfold zAt
  rw [List.length_map, sum_mul]
  apply sum_congr rfl
  intro i _
  rw [at0_map_mul]
  push_cast
  ring

theorem sAt_zero (u : List ℝ) : sAt u 0 = ((u.getLastD 0 : ℝ) : ℂ) := by
  rcases List.eq_nil_or_concat u with rfl | ⟨l, x, rfl⟩
  · simp [sAt]
  · unfold sAt
    simp only [List.concat_eq_append, List.length_append, List.length_singleton, Nat.add_sub_cancel]
    rw [sum_range_succ, sum_eq_zero]
    · simp [at0]
    · intro i hi
      have := mem_range.mp hi
      rw [zero_pow (by omega), mul_zero]

/-- The arithmetic of C85_bilinear. -/
theorem bilinear_algebra (m n : ℕ) {z A B UH VH U0 V0 Us Vs P1 Pz Q1 Qz : ℂ} (hz0 : z ≠ 0) (hz1 : z ≠ -1) (hUH : UH ≠ 0) (hVH : VH ≠ 0) (hQ1 : Q1 ≠ 0)
    (p1 : UH * P1 = 2 ^ n * U0) (pz : UH * Pz = (z + 1) ^ n * Us) (q1 : VH * Q1 = 2 ^ m * V0) (qz : VH * Qz = (z + 1) ^ m * Vs)
    (az : A * z ^ n = Pz) (bz : B * z ^ m = P1 / Q1 * Qz) : B * (Us * V0) = A * (Vs * U0) * ((1 + z⁻¹) / 2) ^ ((m : ℤ) - (n : ℤ)) := by
  have hw : z + 1 ≠ 0 := fun e => hz1 (eq_neg_of_add_eq_zero_left e)
  have e : (1 + z⁻¹) / 2 = (z + 1) / (2 * z) := by field_simp
  have he : (z + 1) / (2 * z) ≠ 0 := div_ne_zero hw (mul_ne_zero two_ne_zero hz0)
  rw [e, zpow_sub₀ he, zpow_natCast, zpow_natCast, div_pow, div_pow, mul_pow, mul_pow]
  have hwn : (z + 1) ^ n ≠ 0 := pow_ne_zero _ hw
  have hwm : (z + 1) ^ m ≠ 0 := pow_ne_zero _ hw
  have hzn : z ^ n ≠ 0 := pow_ne_zero _ hz0
  have hzm : z ^ m ≠ 0 := pow_ne_zero _ hz0
  have h2n : (2 : ℂ) ^ n ≠ 0 := pow_ne_zero _ two_ne_zero
  have h2m : (2 : ℂ) ^ m ≠ 0 := pow_ne_zero _ two_ne_zero
  have eU0 : U0 = UH * P1 / 2 ^ n := by rw [p1]; field_simp
  have eUs : Us = UH * Pz / (z + 1) ^ n := by rw [pz]; field_simp
  have eV0 : V0 = VH * Q1 / 2 ^ m := by rw [q1]; field_simp
  have eVs : Vs = VH * Qz / (z + 1) ^ m := by rw [qz]; field_simp
  have eA : A = Pz / z ^ n := by rw [← az]; field_simp
  have eB : B = P1 / Q1 * Qz / z ^ m := by rw [← bz]; field_simp
  rw [eU0, eUs, eV0, eVs, eA, eB]
  field_simp

theorem bilinear_main (residue : List ℝ → List ℝ → List ℂ × List ℂ) (u v : List ℝ) (f : ℝ) (a b : List ℝ) (hu : u.head? ≠ some 0) (hv : v.head? ≠ some 0)
    (h : zt.transform residue u v f true = .ok (some a, some b)) :
    (sAt v 0 ≠ 0 ∧ sAt u 0 ≠ 0 ∧ zAt b (-1) ≠ 0 ∧ 1 - zAt a (-1) ≠ 0) ∧ ∀ z : ℂ, z ≠ 0 → z ≠ -1 →
    (1 - zAt a z = 0 → sAt u (2 / (Real.pi * f) * ((z - 1) / (z + 1))) = 0) ∧ zAt b z * (sAt u (2 / (Real.pi * f) * ((z - 1) / (z + 1))) * sAt v 0) =
      (1 - zAt a z) * (sAt v (2 / (Real.pi * f) * ((z - 1) / (z + 1))) * sAt u 0) * ((1 + z⁻¹) / 2) ^ ((v.length : ℤ) - u.length) := by
  classical
  obtain ⟨hf, n1, n2, n3, n4⟩ := zt.ok_cases _ _ _ _ _ _ h
  obtain ⟨x, t, hsu, hx⟩ := zt.strip_cons u n1
  obtain ⟨y, t', hsv, hy⟩ := zt.strip_cons v n2
  have eu : u = x :: t := by rw [← hsu, strip_of_head u hu]
  have ev : v = y :: t' := by rw [← hsv, strip_of_head v hv]
  set d := (zt.strip u).getLastD 0 with hd
  set H : ℂ := 2 * ((1 / (Real.pi * f) : ℝ) : ℂ) with hH
  have hH0 : H ≠ 0 := by
    rw [hH, two_t_eq]
    have := div_pos two_pos (mul_pos Real.pi_pos hf)
    exact_mod_cast this.ne'
  have hHs : ∀ z : ℂ, H * (z - 1) / (z + 1) = 2 / (Real.pi * f) * ((z - 1) / (z + 1)) := by
    intro z; rw [hH]; push_cast; ring
  unfold zt.transform at h
  simp only [n1, n2, not_le.mpr hf, if_false] at h
  rw [← hd, ← hH] at h
  simp only [n3, n4, if_false, if_true] at h
  split at h
  · simp at h
  rename_i hp0
  simp only [Except.ok.injEq, Prod.mk.injEq, Option.some.injEq] at h
  obtain ⟨ha, hb⟩ := h
  split at hb
  · simp at hb
  rename_i hq0
  set p0 := np.roots (np.complexOf ((zt.strip u).map (· / d))) with hp0d
  set z0 := np.roots (np.complexOf ((zt.strip v).map (· / d))) with hz0d
  have hbc : ∀ p, (starRingEnd ℂ) (zt.bilinear H p) = zt.bilinear H ((starRingEnd ℂ) p) := by
    intro p; rw [hH, two_t_eq]; exact zt.bilinear_conj _ p
  have hpc : ((p0.map (zt.bilinear H)).map (starRingEnd ℂ)).Perm (p0.map (zt.bilinear H)) := zt.map_conj_perm _ _ hbc (np.roots_conj _)
  have hzc : ((z0.map (zt.bilinear H)).map (starRingEnd ℂ)).Perm (z0.map (zt.bilinear H)) := zt.map_conj_perm _ _ hbc (np.roots_conj _)
  have hd' : (d : ℂ) ≠ 0 := by exact_mod_cast n3
  -- the continuous polynomials by their roots
  have hU : ∀ s, sAt u s = x * (p0.map (s - ·)).prod := by
    intro s
    have h1 := sAt_div (x :: t) d s
    rw [List.map_cons, sAt_roots _ _ (div_ne_zero hx n3), ← List.map_cons (f := (· / d)), ← hsu, ← hp0d, hsu, ← eu] at h1
    push_cast at h1
    rw [eq_div_iff hd'] at h1
    rw [← h1]; field_simp
  have hV : ∀ s, sAt v s = y * (z0.map (s - ·)).prod := by
    intro s
    have h1 := sAt_div (y :: t') d s
    rw [List.map_cons, sAt_roots _ _ (div_ne_zero hy n3), ← List.map_cons (f := (· / d)), ← hsv, ← hz0d, hsv, ← ev] at h1
    push_cast at h1
    rw [eq_div_iff hd'] at h1
    rw [← h1]; field_simp
  have hlp : p0.length = u.length - 1 := by
    rw [hp0d, hsu, eu]; simp only [List.map_cons, np.complexOf]
    rw [np.roots_length _ _ (by simp [hx, n3])]; simp
  have hlz : z0.length = v.length - 1 := by
    rw [hz0d, hsv, ev]; simp only [List.map_cons, np.complexOf]
    rw [np.roots_length _ _ (by simp [hy, n3])]; simp
  have hUH : sAt u H ≠ 0 := by
    rw [hU]
    refine mul_ne_zero (by exact_mod_cast hx) (List.prod_ne_zero ?_)
    intro h0
    obtain ⟨c, hc, e⟩ := List.mem_map.mp h0
    exact hp0 (by rw [sub_eq_zero.mp e]; exact hc)
  have hVH : sAt v H ≠ 0 := by
    rw [hV]
    refine mul_ne_zero (by exact_mod_cast hy) (List.prod_ne_zero ?_)
    intro h0
    obtain ⟨c, hc, e⟩ := List.mem_map.mp h0
    exact hq0 (by rw [sub_eq_zero.mp e]; exact hc)
  -- the discrete polynomials
  have hP : ∀ w, w ≠ -1 → sAt u H * ((p0.map (zt.bilinear H)).map (w - ·)).prod = (w + 1) ^ (u.length - 1) * sAt u (H * (w - 1) / (w + 1)) := by
    intro w hw
    have e := bilinear_prod H w hH0 hw p0 hp0
    rw [hU, hU, ← hlp, mul_assoc, e]; ring
  have hQ : ∀ w, w ≠ -1 → sAt v H * ((z0.map (zt.bilinear H)).map (w - ·)).prod = (w + 1) ^ (v.length - 1) * sAt v (H * (w - 1) / (w + 1)) := by
    intro w hw
    have e := bilinear_prod H w hH0 hw z0 hq0
    rw [hV, hV, ← hlz, mul_assoc, e]; ring
  have h11 : (1 : ℂ) ≠ -1 := by norm_num
  have hA : ∀ w, w ≠ 0 → (1 - zAt a w) * w ^ (u.length - 1) = ((p0.map (zt.bilinear H)).map (w - ·)).prod := by
    intro w hw
    rw [← ha, recursive_zAt _ hpc, ← hlp, ← poly_eval _ hpc, ← zAt_eval _ _ hw]
    congr 2
    simp [np.poly_length]
  set pad := (if (z0.map (zt.bilinear H)).length < (p0.map (zt.bilinear H)).length then
      z0.map (zt.bilinear H) ++ List.replicate ((p0.map (zt.bilinear H)).length - (z0.map (zt.bilinear H)).length) 0 else z0.map (zt.bilinear H)) with hpad
  obtain ⟨k, hk⟩ : ∃ k, pad = z0.map (zt.bilinear H) ++ List.replicate k 0 := by
    rw [hpad]
    split
    · exact ⟨_, rfl⟩
    · exact ⟨0, by simp⟩
  have hpadc : (pad.map (starRingEnd ℂ)).Perm pad := by
    rw [hk, List.map_append]
    apply hzc.append
    simp
  have hc : ∀ w, sAt ((np.poly pad).map Complex.re) w = ((z0.map (zt.bilinear H)).map (w - ·)).prod * w ^ k := by
    intro w
    rw [poly_eval _ hpadc, hk]
    simp
  have hcl : ((np.poly pad).map Complex.re).length = v.length - 1 + k + 1 := by
    rw [List.length_map, np.poly_length, hk]; simp [hlz]
  unfold zt.normalise at hb
  split at hb
  · simp at hb
  rename_i hsum
  simp only [Option.some.injEq] at hb
  have one_at : ∀ l : List ℝ, zAt l 1 = ((l.sum : ℝ) : ℂ) := by
    intro l
    rw [sum_eq_range]
    simp [zAt]
  have hB : ∀ w, w ≠ 0 → zAt b w * w ^ (v.length - 1) = (((1 - a.sum) / ((np.poly pad).map Complex.re).sum : ℝ) : ℂ) * ((z0.map (zt.bilinear H)).map (w - ·)).prod := by
    intro w hw
    have e := zAt_eval ((np.poly pad).map Complex.re) w hw
    rw [hc, hcl, Nat.add_sub_cancel, pow_add] at e
    have hwk : w ^ k ≠ 0 := pow_ne_zero _ hw
    have e' : zAt ((np.poly pad).map Complex.re) w * w ^ (v.length - 1) = ((z0.map (zt.bilinear H)).map (w - ·)).prod := by
      apply mul_right_cancel₀ hwk
      rw [mul_assoc, e]
    rw [← e', ← hb, ha]
    rw [zAt_map_mul]
    push_cast
    ring
  have h10 : (1 : ℂ) ≠ 0 := one_ne_zero
  have a1 := hA 1 h10
  rw [one_at, one_pow, mul_one] at a1
  have c1 := hc 1
  rw [← zAt_eval _ _ h10, one_at, one_pow, one_pow, mul_one, mul_one] at c1
  have p1 := hP 1 h11
  have q1 := hQ 1 h11
  have s0 : H * (1 - 1) / (1 + 1) = 0 := by simp
  rw [s0] at p1 q1
  have hs : ((((np.poly pad).map Complex.re).sum : ℝ) : ℂ) ≠ 0 := by exact_mod_cast hsum
  rw [c1] at hs
  have hV0 : sAt v 0 ≠ 0 := by
    intro e
    rw [e, mul_zero] at q1
    exact (mul_ne_zero hVH hs) q1
  have hU0 : sAt u 0 ≠ 0 := by
    rw [sAt_zero, ← strip_of_head u hu]
    exact_mod_cast n3
  have hK : (((1 - a.sum) / ((np.poly pad).map Complex.re).sum : ℝ) : ℂ) = ((p0.map (zt.bilinear H)).map (1 - ·)).prod / ((z0.map (zt.bilinear H)).map (1 - ·)).prod := by
    push_cast
    rw [a1, c1]
  have hne : ∀ r : List ℂ, H ∉ r → ((r.map (zt.bilinear H)).map (-1 - ·)).prod ≠ 0 := by
    intro r hr
    refine List.prod_ne_zero ?_
    intro h0
    obtain ⟨c, hc, e⟩ := List.mem_map.mp h0
    obtain ⟨s, hs, rfl⟩ := List.mem_map.mp hc
    have hsH : s ≠ H := fun e => hr (e ▸ hs)
    have e1 := bilinear_factor H s 1 hH0 hsH h11
    have hd1 : (1 : ℂ) - s / H ≠ 0 := by
      intro e2
      exact hsH ((div_eq_one_iff_eq hH0).mp (sub_eq_zero.mp e2).symm)
    have e3 : zt.bilinear H s = -1 := (sub_eq_zero.mp e).symm
    unfold zt.bilinear at e3
    rw [div_eq_iff hd1] at e3
    have : (2 : ℂ) = 0 := by linear_combination e3
    norm_num at this
  have hm0 : (-1 : ℂ) ≠ 0 := by norm_num
  have hP1 : ((p0.map (zt.bilinear H)).map (1 - ·)).prod ≠ 0 := by
    intro e
    rw [e, mul_zero] at p1
    exact (mul_ne_zero (pow_ne_zero _ (by norm_num)) hU0) p1.symm
  refine ⟨⟨hV0, hU0, ?_, ?_⟩, ?_⟩
  · intro e
    have := hB (-1) hm0
    rw [e, zero_mul, hK] at this
    exact mul_ne_zero (div_ne_zero hP1 hs) (hne z0 hq0) this.symm
  · intro e
    have := hA (-1) hm0
    rw [e, zero_mul] at this
    exact hne p0 hp0 this.symm
  intro z hz0 hz1
  have pz := hP z hz1
  have qz := hQ z hz1
  rw [hHs] at pz qz
  have az := hA z hz0
  have bz := hB z hz0
  rw [hK] at bz
  have hlen : ((v.length : ℤ) - u.length) = ((v.length - 1 : ℕ) : ℤ) - ((u.length - 1 : ℕ) : ℤ) := by
    rw [eu, ev]; simp
  rw [hlen]
  rw [show (1 : ℂ) + 1 = 2 by norm_num] at p1 q1
  refine ⟨?_, ?_⟩
  · intro e
    rw [e, zero_mul] at az
    rw [← az, mul_zero] at pz
    have hw : z + 1 ≠ 0 := fun e => hz1 (eq_neg_of_add_eq_zero_left e)
    exact (mul_eq_zero.mp pz.symm).resolve_left (pow_ne_zero _ hw)
  exact bilinear_algebra _ _ hz0 hz1 hUH hVH hs p1 pz q1 qz az bz

/-- C85.  The bilinear transform returns coefficients whose transfer function is the transfer function V / U of the continuous system,
divided by its value at zero frequency, at `s = 2 / (π f) (z - 1) / (z + 1)`, times a power of `(1 + z⁻¹) / 2` which is 1 when U and V have the
same degree. -/
theorem C85_bilinear (residue : List ℝ → List ℝ → List ℂ × List ℂ) (u v : List ℝ) (f : ℝ) (a b : List ℝ) (hu : u.head? ≠ some 0) (hv : v.head? ≠ some 0)
    (h : zt.transform residue u v f true = .ok (some a, some b)) (z : ℂ) (hz0 : z ≠ 0) (hz1 : z ≠ -1)
    (hs : sAt u (2 / (Real.pi * f) * ((z - 1) / (z + 1))) ≠ 0) :
    zAt b z / (1 - zAt a z) = sAt v (2 / (Real.pi * f) * ((z - 1) / (z + 1))) / sAt u (2 / (Real.pi * f) * ((z - 1) / (z + 1))) /
      (sAt v 0 / sAt u 0) * ((1 + z⁻¹) / 2) ^ ((v.length : ℤ) - u.length) := by
  obtain ⟨⟨hV, hU, -, -⟩, hm⟩ := bilinear_main residue u v f a b hu hv h
  obtain ⟨h1, h2⟩ := hm z hz0 hz1
  have h3 : 1 - zAt a z ≠ 0 := fun e => hs (h1 e)
  generalize ((1 + z⁻¹) / 2) ^ ((v.length : ℤ) - u.length) = g at h2 ⊢
  generalize sAt u (2 / (Real.pi * f) * ((z - 1) / (z + 1))) = us at h2 hs ⊢
  generalize sAt v (2 / (Real.pi * f) * ((z - 1) / (z + 1))) = vs at h2 ⊢
  field_simp
  linear_combination h2

theorem zAt_exp (c : List ℝ) (θ : ℝ) : zAt c (Complex.exp (Complex.I * Real.pi * θ)) = dtft c θ := by
  unfold zAt dtft
  apply sum_congr rfl
  intro n _
  rw [← Complex.exp_neg, ← Complex.exp_nat_mul]
  congr 2
  ring

theorem exp_arctan (x : ℝ) : Complex.exp (Complex.I * (2 * Real.arctan x : ℝ)) * (1 - Complex.I * x) = 1 + Complex.I * x := by
  have h0 : 0 < 1 + x ^ 2 := by positivity
  have hs : (Real.sqrt (1 + x ^ 2)) ^ 2 = 1 + x ^ 2 := Real.sq_sqrt h0.le
  have hs0 : Real.sqrt (1 + x ^ 2) ≠ 0 := (Real.sqrt_pos.mpr h0).ne'
  have e : Complex.I * (2 * Real.arctan x : ℝ) = (2 : ℕ) * ((Real.arctan x : ℝ) * Complex.I) := by push_cast; ring
  rw [e, Complex.exp_nat_mul, Complex.exp_mul_I, ← Complex.ofReal_cos, ← Complex.ofReal_sin, Real.cos_arctan, Real.sin_arctan]
  have hsc : ((Real.sqrt (1 + x ^ 2) : ℝ) : ℂ) ^ 2 = 1 + (x : ℂ) ^ 2 := by exact_mod_cast hs
  have hs0c : ((Real.sqrt (1 + x ^ 2) : ℝ) : ℂ) ≠ 0 := by exact_mod_cast hs0
  push_cast
  field_simp
  rw [hsc]
  linear_combination (-(x : ℂ) ^ 2 - Complex.I * x ^ 3) * Complex.I_sq

/-- C85.  The frequency axis of the bilinear transform: at the normalised frequency `2/π atan(π f ω / 2)` the discrete system has the response of
the continuous system at the angular frequency ω, with unit gain at zero frequency, times the power of `(1 + j π f ω / 2)` by which the degree of U
exceeds the degree of V. -/
theorem C85_response (residue : List ℝ → List ℝ → List ℂ × List ℂ) (u v : List ℝ) (f : ℝ) (a b : List ℝ) (hu : u.head? ≠ some 0) (hv : v.head? ≠ some 0)
    (h : zt.transform residue u v f true = .ok (some a, some b)) (ω : ℝ) (hω : sAt u (Complex.I * ω) ≠ 0) :
    freqResp a b (2 / Real.pi * Real.arctan (Real.pi * f * ω / 2)) =
      sAt v (Complex.I * ω) / sAt u (Complex.I * ω) / (sAt v 0 / sAt u 0) * (1 + Complex.I * (Real.pi * f * ω / 2 : ℝ)) ^ ((u.length : ℤ) - v.length) := by
  have hf : 0 < f := (zt.ok_cases _ _ _ _ _ _ h).1
  set x := Real.pi * f * ω / 2 with hx
  have hpi : (Real.pi : ℂ) ≠ 0 := by exact_mod_cast Real.pi_ne_zero
  have hfc : (f : ℂ) ≠ 0 := by exact_mod_cast hf.ne'
  have hm : (1 : ℂ) - Complex.I * x ≠ 0 := by
    intro e; have := congrArg Complex.re e; simp at this
  have hp : (1 : ℂ) + Complex.I * x ≠ 0 := by
    intro e; have := congrArg Complex.re e; simp at this
  have hz := exp_arctan x
  have he : Complex.I * (2 * Real.arctan x : ℝ) = Complex.I * Real.pi * ((2 / Real.pi * Real.arctan x : ℝ) : ℂ) := by
    push_cast; field_simp
  rw [he] at hz
  unfold freqResp
  rw [← zAt_exp, ← zAt_exp]
  set z := Complex.exp (Complex.I * Real.pi * ((2 / Real.pi * Real.arctan x : ℝ) : ℂ)) with hzd
  have hz' : z = (1 + Complex.I * x) / (1 - Complex.I * x) := by rw [← hz]; field_simp
  have hz0 : z ≠ 0 := Complex.exp_ne_zero _
  have hz1 : z + 1 ≠ 0 := by
    rw [hz', div_add_one hm]
    exact div_ne_zero (by ring_nf; norm_num) hm
  have hS : 2 / (Real.pi * f) * ((z - 1) / (z + 1)) = Complex.I * (ω : ℂ) := by
    have : (z - 1) / (z + 1) = Complex.I * x := by
      rw [div_eq_iff hz1]; linear_combination hz
    rw [this, hx]; push_cast; field_simp
  have hg : (1 + z⁻¹) / 2 = (1 + Complex.I * x)⁻¹ := by
    rw [hz']; field_simp; ring
  have := C85_bilinear residue u v f a b hu hv h z hz0 (fun e => hz1 (by rw [e]; ring)) (by rw [hS]; exact hω)
  rw [hS, hg, inv_zpow'] at this
  rw [this]
  congr 2
  ring

/-- C85.  With a numerator and a denominator of the same degree the response is exact, at every frequency. -/
theorem C85_exact (residue : List ℝ → List ℝ → List ℂ × List ℂ) (u v : List ℝ) (f : ℝ) (a b : List ℝ) (hu : u.head? ≠ some 0) (hv : v.head? ≠ some 0) (hl : u.length = v.length)
    (h : zt.transform residue u v f true = .ok (some a, some b)) (ω : ℝ) (hω : sAt u (Complex.I * ω) ≠ 0) :
    freqResp a b (2 / Real.pi * Real.arctan (Real.pi * f * ω / 2)) = sAt v (Complex.I * ω) / sAt u (Complex.I * ω) / (sAt v 0 / sAt u 0) := by
  rw [C85_response residue u v f a b hu hv h ω hω, hl, sub_self, zpow_zero, mul_one]

/-- The functions of s of the two sides have the same number of coefficients, and the denominator 1 + s does not vanish on the axis. -/
example : ([1, 1] : List ℝ).head? ≠ some 0 ∧ ([2, 1] : List ℝ).head? ≠ some 0 ∧ ([1, 1] : List ℝ).length = ([2, 1] : List ℝ).length ∧
    ∀ ω : ℝ, sAt [1, 1] (Complex.I * ω) ≠ 0 := by
  refine ⟨by simp, by simp, rfl, fun ω h => ?_⟩
  have := congrArg Complex.re h
  simp [sAt, at0, sum_range_succ] at this

/-- C85.  In general the gain exceeds the gain of the continuous system by the power of `√(1 + (π f ω / 2)²)` by which the degree of U exceeds the
degree of V. -/
theorem C85_gain (residue : List ℝ → List ℝ → List ℂ × List ℂ) (u v : List ℝ) (f : ℝ) (a b : List ℝ) (hu : u.head? ≠ some 0) (hv : v.head? ≠ some 0) (hl : v.length ≤ u.length)
    (h : zt.transform residue u v f true = .ok (some a, some b)) (ω : ℝ) (hω : sAt u (Complex.I * ω) ≠ 0) :
    ‖freqResp a b (2 / Real.pi * Real.arctan (Real.pi * f * ω / 2))‖ =
      ‖sAt v (Complex.I * ω) / sAt u (Complex.I * ω)‖ / ‖sAt v 0 / sAt u 0‖ * Real.sqrt (1 + (Real.pi * f * ω / 2) ^ 2) ^ (u.length - v.length) := by
  rw [C85_response residue u v f a b hu hv h ω hω, norm_mul, norm_div, norm_zpow]
  congr 1
  rw [show ((u.length : ℤ) - v.length) = ((u.length - v.length : ℕ) : ℤ) by omega, zpow_natCast]
  congr 1
  rw [mul_comm Complex.I, ← Complex.ofReal_one, Complex.norm_add_mul_I]
  norm_num

/-- C85 (disagreement).  The transfer function of a continuous system of more poles than zeros is mapped by `s = 2 / (π f) (z - 1) / (z + 1)` to a
function with zeros at z = -1; the code puts these zeros at z = 0, and its response at Nyquist is never zero, nor is it infinite. -/
theorem C85_nyquist (residue : List ℝ → List ℝ → List ℂ × List ℂ) (u v : List ℝ) (f : ℝ) (a b : List ℝ) (hu : u.head? ≠ some 0) (hv : v.head? ≠ some 0)
    (h : zt.transform residue u v f true = .ok (some a, some b)) : dtft b 1 ≠ 0 ∧ 1 - dtft a 1 ≠ 0 ∧ freqResp a b 1 ≠ 0 := by
  obtain ⟨⟨-, -, hb, ha⟩, -⟩ := bilinear_main residue u v f a b hu hv h
  have e : Complex.exp (Complex.I * Real.pi * (1 : ℝ)) = -1 := by
    rw [Complex.ofReal_one, mul_one, mul_comm, Complex.exp_pi_mul_I]
  rw [← e, zAt_exp] at hb ha
  exact ⟨hb, ha, div_ne_zero hb ha⟩

/-- The hypotheses of `C85_bilinear`, `C85_response`, `C85_exact` and `C85_gain` hold: a first order low pass filter and a first order lead are accepted, with a
denominator without imaginary roots. -/
example (residue : List ℝ → List ℝ → List ℂ × List ℂ) (f : ℝ) (hf : 0 < f) :
    (∃ a b, zt.transform residue [1, 1] [1] f true = .ok (some a, some b)) ∧ (∃ a b, zt.transform residue [1, 1] [1, 2] f true = .ok (some a, some b)) ∧
      ∀ ω : ℝ, sAt [1, 1] (Complex.I * ω) ≠ 0 := by
  have hr : ∀ s, IsRootOf [1, 1] s ↔ s = -1 := by
    intro s
    simp [IsRootOf, at0, sum_range_succ]
    constructor
    · intro e; linear_combination e
    · intro e; rw [e]; ring
  have h1 : ∃ s, IsRootOf [1, 1] s := ⟨-1, (hr _).mpr rfl⟩
  have h2 : ∃ c ∈ [(1 : ℝ), 1], c ≠ 0 := ⟨1, by simp, one_ne_zero⟩
  have h3 : ∀ s, IsRootOf [1, 1] s → s.re < 0 := by
    intro s hs; rw [(hr s).mp hs]; norm_num
  refine ⟨?_, ?_, ?_⟩
  · obtain ⟨a, b, h, -⟩ := C44_bilinear_finite residue [1, 1] [1] f hf h1 h2 h3 (by simp [IsRootOf, at0]) (by simp [IsRootOf, at0])
    exact ⟨a, b, h⟩
  · have hp : 0 < 2 / (Real.pi * f) := div_pos two_pos (mul_pos Real.pi_pos hf)
    obtain ⟨a, b, h, -⟩ := C44_bilinear_finite residue [1, 1] [1, 2] f hf h1 h2 h3 (by simp [IsRootOf, at0, sum_range_succ])
      (by
        intro h
        simp only [IsRootOf, at0, List.length_cons, List.length_nil, sum_range_succ, range_zero, sum_empty] at h
        have h' : (2 / (Real.pi * f)) + 2 = 0 := by
          have : (((2 / (Real.pi * f)) + 2 : ℝ) : ℂ) = 0 := by rw [← h]; simp
          exact_mod_cast this
        linarith)
    exact ⟨a, b, h⟩
  · intro ω e
    have := congrArg Complex.re e
    simp [sAt, at0, sum_range_succ] at this

end Verif.Props
