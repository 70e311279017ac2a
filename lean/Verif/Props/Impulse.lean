import Verif.Props.Bilinear
import Verif.Props.Iir
import Verif.Lemmas.Impulse
import Mathlib.Analysis.SpecialFunctions.ImproperIntegrals
import Mathlib.Analysis.Calculus.Deriv.Polynomial
import Mathlib.Analysis.SpecialFunctions.Gamma.Basic

/- Property C86: impulse invariance of ZTransform (diamondback/transforms/z_transform.py). -/

namespace Verif.Props

open Verif Verif.Spec Finset Polynomial

/-- What is assumed of `scipy.signal.residue` for simple poles: the residue of V / U at the pole p is V(p) / U'(p). -/
def SimpleResidueSpec (residue : List ℝ → List ℝ → List ℂ × List ℂ) : Prop :=
  ∀ v u, SimpleRoots u → (residue v u).1.length = (residue v u).2.length ∧
    ∀ i < (residue v u).2.length, at0 (residue v u).1 i * deriv (sAt u) (at0 (residue v u).2 i) = sAt v (at0 (residue v u).2 i)

theorem deriv_sAt (u : List ℝ) (s : ℂ) : deriv (sAt u) s = (derivative (np.toPoly (np.complexOf u))).eval s := by
  rw [show sAt u = fun s => (np.toPoly (np.complexOf u)).eval s from funext fun s => sAt_eval u s]
  exact Polynomial.deriv _

theorem toPoly_complexOf (u : List ℝ) : np.toPoly (np.complexOf u) = (np.toPoly u).map Complex.ofRealHom := np.toPoly_map Complex.ofRealHom u

theorem real_eval_conj (p : ℝ[X]) (s : ℂ) : (p.map Complex.ofRealHom).eval ((starRingEnd ℂ) s) = (starRingEnd ℂ) ((p.map Complex.ofRealHom).eval s) := by
  have := Polynomial.aeval_conj p s
  rw [aeval_def, aeval_def, ← eval_map, ← eval_map] at this
  exact this

theorem sAt_conj (u : List ℝ) (s : ℂ) : sAt u ((starRingEnd ℂ) s) = (starRingEnd ℂ) (sAt u s) := by
  rw [sAt_eval, sAt_eval, toPoly_complexOf, real_eval_conj]

theorem deriv_sAt_conj (u : List ℝ) (s : ℂ) : deriv (sAt u) ((starRingEnd ℂ) s) = (starRingEnd ℂ) (deriv (sAt u) s) := by
  rw [deriv_sAt, deriv_sAt, toPoly_complexOf, derivative_map, real_eval_conj]

theorem simple_nodup (u : List ℝ) (hu : np.toPoly (np.complexOf u) ≠ 0) (h : SimpleRoots u) : (np.roots (np.complexOf u)).Nodup := by
  classical
  unfold np.roots
  rw [← Multiset.coe_nodup, Multiset.coe_toList, Multiset.nodup_iff_count_le_one]
  intro s
  rw [count_roots]
  by_contra hc
  obtain ⟨h1, h2⟩ := (one_lt_rootMultiplicity_iff_isRoot hu).mp (not_le.mp hc)
  exact h s (by rw [sAt_eval]; exact h1) (by rw [deriv_sAt]; exact h2)

theorem range_prod_at0 (p : List ℂ) (g : ℂ → ℂ) : (p.map g).prod = ∏ i ∈ range p.length, g (at0 p i) := by
  induction p with
  | nil => simp
  | cons x p ih =>
    rw [List.map_cons, List.prod_cons, List.length_cons, prod_range_succ', ih, mul_comm]
    rfl

theorem range_sum_at0 (p : List ℂ) (g : ℂ → ℂ) : (p.map g).sum = ∑ i ∈ range p.length, g (at0 p i) := by
  induction p with
  | nil => simp
  | cons x p ih =>
    rw [List.map_cons, List.sum_cons, List.length_cons, sum_range_succ', ih, add_comm]
    rfl

/-- Partial fractions. -/
theorem partial_fractions (x : ℝ) (t v : List ℝ) (hx : x ≠ 0) (p r : List ℂ) (hp : p.Perm (np.roots (np.complexOf (x :: t)))) (hn : p.Nodup)
    (hv : v.length ≤ t.length) (hr : ∀ i < p.length, at0 r i * deriv (sAt (x :: t)) (at0 p i) = sAt v (at0 p i)) (s : ℂ) (hs : s ∉ p) :
    sAt v s = sAt (x :: t) s * ∑ i ∈ range p.length, at0 r i * (s - at0 p i)⁻¹ := by
  have hx' : (x : ℂ) ≠ 0 := by exact_mod_cast hx
  have hlen : p.length = t.length := by
    rw [hp.length_eq]; exact (np.roots_length (np.complexOf t) (x : ℂ) hx').trans (by simp [np.complexOf])
  have hinj : Set.InjOn (at0 p) (range p.length : Finset ℕ) := by
    intro i hi j hj e
    have hi := mem_range.mp hi
    have hj := mem_range.mp hj
    simp only [at0, List.getD_eq_getElem?_getD, List.getElem?_eq_getElem hi, List.getElem?_eq_getElem hj, Option.getD_some] at e
    exact (List.Nodup.getElem_inj_iff hn).mp e
  have hU : ∀ s, sAt (x :: t) s = x * (Lagrange.nodal (range p.length) (at0 p)).eval s := by
    intro s
    rw [sAt_roots x t hx, ← (hp.map (s - ·)).prod_eq, Lagrange.eval_nodal]
    congr 1
    have := range_prod_at0 p (s - ·)
    exact this
  have hUd : ∀ s, deriv (sAt (x :: t)) s = x * (derivative (Lagrange.nodal (range p.length) (at0 p))).eval s := by
    intro s
    rw [show sAt (x :: t) = fun s => x * (Lagrange.nodal (range p.length) (at0 p)).eval s from funext hU, deriv_const_mul_field, Polynomial.deriv]
  have hdeg : (np.toPoly (np.complexOf v)).degree < #(range p.length) := by
    rw [card_range, hlen]
    rcases v with _ | ⟨y, v⟩
    · simp [np.complexOf, np.toPoly, bot_lt_iff_ne_bot]
    · refine lt_of_le_of_lt (degree_le_natDegree) ?_
      have h1 := np.natDegree_toPoly_le (np.complexOf (y :: v))
      simp only [np.complexOf, List.length_map, List.length_cons] at h1 hv ⊢
      exact_mod_cast (by omega : (np.toPoly (List.map (fun r : ℝ => (r : ℂ)) (y :: v))).natDegree < t.length)
  have hi := Lagrange.eq_interpolate hinj hdeg
  have he := Lagrange.eval_interpolate_not_at_node (s := range p.length) (v := at0 p) (r := fun i => (np.toPoly (np.complexOf v)).eval (at0 p i)) (x := s) (by
    intro i hi e
    apply hs
    have hi := mem_range.mp hi
    rw [e]
    simp [at0, hi])
  rw [← hi] at he
  rw [sAt_eval, he, hU, mul_comm (x : ℂ), mul_assoc]
  congr 1
  rw [mul_sum]
  apply sum_congr rfl
  intro i hi
  have h1 := hr i (mem_range.mp hi)
  rw [← sAt_eval, ← h1, hUd, Lagrange.nodalWeight_eq_eval_derivative_nodal hi]
  have h2 : (derivative (Lagrange.nodal (range p.length) (at0 p))).eval (at0 p i) ≠ 0 := by
    have := Lagrange.nodalWeight_ne_zero hinj hi
    rw [Lagrange.nodalWeight_eq_eval_derivative_nodal hi] at this
    exact fun h0 => this (by rw [h0, inv_zero])
  field_simp

/-- The sum of exponentials with these poles and residues has the transfer function as Laplace transform. -/
theorem laplace_sum (p r : List ℂ) (s : ℂ) (hs : ∀ q ∈ p, q.re < s.re) :
    MeasureTheory.IntegrableOn (fun t : ℝ => (∑ i ∈ range p.length, at0 r i * Complex.exp (at0 p i * t)) * Complex.exp (-(s * t))) (Set.Ioi 0) ∧
    ∫ t : ℝ in Set.Ioi 0, (∑ i ∈ range p.length, at0 r i * Complex.exp (at0 p i * t)) * Complex.exp (-(s * t)) =
      ∑ i ∈ range p.length, at0 r i * (s - at0 p i)⁻¹ := by
  have e : (fun t : ℝ => (∑ i ∈ range p.length, at0 r i * Complex.exp (at0 p i * t)) * Complex.exp (-(s * t))) =
      fun t : ℝ => ∑ i ∈ range p.length, at0 r i * Complex.exp ((at0 p i - s) * t) := by
    funext t
    rw [sum_mul]
    apply sum_congr rfl
    intro i _
    rw [mul_assoc, ← Complex.exp_add]
    congr 2; ring
  have hre : ∀ i ∈ range p.length, (at0 p i - s).re < 0 := by
    intro i hi
    have hi := mem_range.mp hi
    have := hs (at0 p i) (by simp [at0, hi])
    rw [Complex.sub_re]; linarith
  have hint : ∀ i ∈ range p.length, MeasureTheory.IntegrableOn (fun t : ℝ => at0 r i * Complex.exp ((at0 p i - s) * t)) (Set.Ioi 0) := by
    intro i hi
    exact (integrableOn_exp_mul_complex_Ioi (hre i hi) 0).const_mul _
  rw [e]
  refine ⟨MeasureTheory.integrable_finsetSum _ hint, ?_⟩
  rw [MeasureTheory.integral_finsetSum _ hint]
  apply sum_congr rfl
  intro i hi
  rw [MeasureTheory.integral_const_mul, integral_exp_mul_complex_Ioi (hre i hi)]
  have hne : at0 p i - s ≠ 0 := by
    intro h0; have := hre i hi; rw [h0] at this; simp at this
  have hne' : s - at0 p i ≠ 0 := by
    intro h0; apply hne; rw [← neg_sub, h0, neg_zero]
  congr 1
  simp only [Complex.ofReal_zero, mul_zero, Complex.exp_zero]
  rw [← neg_sub s, neg_div_neg_eq, one_div]

theorem recursive_ser (r : List ℂ) (h : (r.map (starRingEnd ℂ)).Perm r) :
    1 - ser (zt.recursive ((np.poly r).map Complex.re)) = ser ((np.poly r).map Complex.re) := by
  have hh : at0 ((np.poly r).map Complex.re) 0 = 1 := by
    have h1 := np.poly_head r
    have h2 := at0_complexOf ((np.poly r).map Complex.re) 0
    unfold np.complexOf at h2
    rw [np.poly_real r h, h1] at h2
    exact_mod_cast h2.symm
  have hl : ((np.poly r).map Complex.re).length = r.length + 1 := by rw [List.length_map, np.poly_length]
  obtain ⟨c, t, ht⟩ := List.exists_cons_of_ne_nil (List.ne_nil_of_length_pos (by omega : 0 < ((np.poly r).map Complex.re).length))
  rw [ht] at hh ⊢
  have hc : c = 1 := hh
  subst hc
  have hrec : zt.recursive (1 :: t) = 0 :: t.map (- ·) := by
    unfold zt.recursive
    simp [div_neg]
  rw [hrec, ser_cons, ser_cons]
  have : ser (t.map (- ·)) = - ser t := by
    have := ser_map_mul t (-1)
    simp only [neg_mul, one_mul] at this
    rw [this]; simp
  rw [this]; simp

/-- A recursion determines its output. -/
theorem recursion_unique (a b x y : List ℝ) (H : PowerSeries ℝ) (h0 : at0 a 0 = 0) (hH : (1 - ser a) * H = ser b * ser x) (hy : Recursion a b x y) :
    ∀ n < x.length, at0 y n = PowerSeries.coeff n H := by
  intro n
  induction n using Nat.strong_induction_on with
  | _ n ih =>
    intro hn
    rw [hy.2 n hn]
    have : H = ser a * H + ser b * ser x := by linear_combination hH
    rw [this, map_add, PowerSeries.coeff_mul, PowerSeries.coeff_mul, Finset.Nat.sum_antidiagonal_eq_sum_range_succ_mk, Finset.Nat.sum_antidiagonal_eq_sum_range_succ_mk]
    simp only [coeff_ser]
    congr 1
    rw [sum_range_succ', h0, zero_mul, add_zero, ← Ico_succ_right_eq_Icc, sum_Ico_eq_sum_range]
    simp only [Order.succ_eq_add_one, Nat.add_sub_cancel]
    apply sum_congr rfl
    intro i hi
    have := mem_range.mp hi
    rw [ih (n - (1 + i)) (by omega) (by omega), add_comm 1 i]

/-- C86.  Impulse invariance: for simple poles and a numerator of lower degree, the impulse response of the discrete filter is a multiple of the
impulse response of the continuous system at the instants 0, π f, 2 π f, ...  The multiple is not zero when the continuous system is stable. -/
theorem C86_impulse (residue : List ℝ → List ℝ → List ℂ × List ℂ) (hres : ResidueSpec residue) (hres' : SimpleResidueSpec residue) (u v : List ℝ) (f : ℝ) (a b : List ℝ)
    (hu : u.head? ≠ some 0) (hv : v.head? ≠ some 0) (hl : v.length < u.length) (hsimple : SimpleRoots u)
    (h : zt.transform residue u v f false = .ok (some a, some b)) :
    ∃ (g : ℝ → ℝ) (k : ℝ), IsImpulseResponse u v g ∧ ((∀ s, sAt u s = 0 → s.re < 0) → k ≠ 0) ∧
      ∀ N, ∃ flt y flt', Iir.new id (some a) (some b) none = .ok flt ∧ flt.filter (1 :: List.replicate N 0) = (.ok y, flt') ∧ y.length = N + 1 ∧
        ∀ n ≤ N, at0 y n = k * g (n * (Real.pi * f)) := by
  classical
  obtain ⟨hf, n1, n2, n3, n4⟩ := zt.ok_cases _ _ _ _ _ _ h
  obtain ⟨ha0, hla, hpoles⟩ := C43_impulse_poles residue hres u v f a (some b) h
  obtain ⟨x, t, hsu, hx⟩ := zt.strip_cons u n1
  have eu : u = x :: t := by rw [← hsu, strip_of_head u hu]
  set d := (zt.strip u).getLastD 0 with hd
  unfold zt.transform at h
  simp only [n1, n2, not_le.mpr hf, if_false] at h
  rw [← hd] at h
  simp only [n3, n4, if_false, Bool.false_eq_true] at h
  simp only [Except.ok.injEq, Prod.mk.injEq, Option.some.injEq, zt.impulse_fst] at h
  obtain ⟨ha, hb⟩ := h
  rw [strip_of_head u hu, strip_of_head v hv] at ha hb
  set u' := u.map (· / d) with hu'
  set v' := v.map (· / d) with hv'
  have hd' : (d : ℂ) ≠ 0 := by exact_mod_cast n3
  have hsc : ∀ s, sAt u' s = sAt u s / d := fun s => sAt_div u d s
  have hscv : ∀ s, sAt v' s = sAt v s / d := fun s => sAt_div v d s
  have hder : ∀ s, deriv (sAt u') s = deriv (sAt u) s / d := by
    intro s
    rw [show sAt u' = fun s => sAt u s / d from funext hsc, deriv_div_const]
  have hsimple' : SimpleRoots u' := by
    intro s hs
    rw [hder]
    rw [hsc, div_eq_zero_iff] at hs
    exact div_ne_zero (hsimple s (hs.resolve_right hd')) hd'
  have eu' : u' = (x / d) :: t.map (· / d) := by rw [hu', eu]; rfl
  have hx' : x / d ≠ 0 := div_ne_zero hx n3
  obtain ⟨hrl, hrr⟩ := hres' v' u' hsimple'
  have hperm := hres v' u'
  set r := (residue v' u').1 with hr
  set p := (residue v' u').2 with hp
  have hne : np.toPoly (np.complexOf u') ≠ 0 := by
    rw [eu']
    exact np.toPoly_ne_zero (np.complexOf (t.map (· / d))) ((x / d : ℝ) : ℂ) (by exact_mod_cast hx')
  have hnod : p.Nodup := hperm.nodup_iff.mpr (simple_nodup u' hne hsimple')
  have hpconj : (p.map (starRingEnd ℂ)).Perm p := ((hperm.map _).trans (np.roots_conj _)).trans hperm.symm
  have hmem : ∀ s, s ∈ p ↔ sAt u s = 0 := by
    intro s
    rw [hperm.mem_iff, eu']
    rw [show np.complexOf (x / d :: t.map (· / d)) = ((x / d : ℝ) : ℂ) :: np.complexOf (t.map (· / d)) from rfl, np.mem_roots _ _ _ (by exact_mod_cast hx'), np.polyval_eq]
    rw [show ((x / d : ℝ) : ℂ) :: np.complexOf (t.map (· / d)) = np.complexOf u' by rw [eu']; rfl, ← sAt_eval, hsc, div_eq_zero_iff]
    simp [hd']
  -- residues
  have hrho : ∀ i < p.length, at0 r i = sAt v (at0 p i) / deriv (sAt u) (at0 p i) := by
    intro i hi
    have h1 := hrr i hi
    have h2 : deriv (sAt u) (at0 p i) ≠ 0 := hsimple _ ((hmem _).mp (by simp [at0, hi]))
    rw [hder, hscv] at h1
    rw [eq_div_iff h2]
    field_simp at h1
    exact h1
  set G : ℝ → ℂ := fun τ => ∑ i ∈ range p.length, at0 r i * Complex.exp (at0 p i * τ) with hG
  have hGr : ∀ τ, ((G τ).re : ℂ) = G τ := by
    intro τ
    apply Complex.conj_eq_iff_re.mp
    have e : G τ = (p.map fun q => sAt v q / deriv (sAt u) q * Complex.exp (q * τ)).sum := by
      rw [range_sum_at0, hG]
      apply sum_congr rfl
      intro i hi
      rw [hrho i (mem_range.mp hi)]
    rw [e, map_list_sum, List.map_map]
    have e2 : ((starRingEnd ℂ) ∘ fun q => sAt v q / deriv (sAt u) q * Complex.exp (q * τ)) = (fun q => sAt v q / deriv (sAt u) q * Complex.exp (q * τ)) ∘ (starRingEnd ℂ) := by
      funext q
      simp only [Function.comp]
      rw [sAt_conj, deriv_sAt_conj, map_mul, map_div₀, ← Complex.exp_conj, map_mul, Complex.conj_ofReal]
    rw [e2, ← List.map_map]
    exact (hpconj.map _).sum_eq
  -- discrete
  set T : ℂ := ((1 / (Real.pi * f) : ℝ) : ℂ) with hT
  set e : List ℂ := p.map fun q => Complex.exp (q / T) with he
  have hec : (e.map (starRingEnd ℂ)).Perm e := by
    apply zt.map_conj_perm _ (fun p => Complex.exp (p / T))
    · intro q
      rw [← Complex.exp_conj, hT]; simp
    · exact hpconj
  obtain ⟨hser, hlen2⟩ := impulse_series e r (by rw [he, List.length_map, hrl])
  have hmk : (PowerSeries.mk fun n => ∑ i ∈ range r.length, at0 r i * at0 e i ^ n) = (PowerSeries.mk fun n : ℕ => ((G (n * (Real.pi * f))).re)).map Complex.ofRealHom := by
    ext n
    simp only [PowerSeries.coeff_mk, PowerSeries.coeff_map, Complex.ofRealHom_eq_coe]
    rw [hGr, hG, hrl]
    apply sum_congr rfl
    intro i hi
    have hi := mem_range.mp hi
    congr 1
    have : at0 e i = Complex.exp (at0 p i / T) := by
      simp [he, at0, hi]
    rw [this, ← Complex.exp_nat_mul]
    congr 1
    rw [hT]; push_cast
    rw [div_div_eq_mul_div, div_one]; ring
  rw [hmk] at hser
  set M : PowerSeries ℝ := PowerSeries.mk fun n : ℕ => (G (n * (Real.pi * f))).re with hM
  rw [zt.impulse_fst] at hser
  have hA : (ser ((np.poly e).map Complex.re)).map Complex.ofRealHom = ser (np.poly e) := by
    rw [ser_map_ofReal]
    unfold np.complexOf
    rw [np.poly_real e hec]
  have hB : ser (((zt.impulse e r).2).map Complex.re) = ser ((np.poly e).map Complex.re) * M := by
    ext n
    rw [← hA, ← map_mul] at hser
    have h1 := congrArg (PowerSeries.coeff n) hser
    rw [PowerSeries.coeff_map, coeff_ser] at h1
    rw [coeff_ser]
    have h2 : at0 (((zt.impulse e r).2).map Complex.re) n = (at0 (zt.impulse e r).2 n).re := by
      simp only [at0, List.getD_eq_getElem?_getD, List.getElem?_map]
      cases (zt.impulse e r).2[n]? <;> simp
    rw [h2, ← h1]
    simp
  unfold zt.normalise at hb
  split at hb
  · simp at hb
  rename_i hsum
  simp only [Option.some.injEq] at hb
  set k := (1 - (zt.recursive ((np.poly e).map Complex.re)).sum) / (((zt.impulse e r).2).map Complex.re).sum with hk
  have hsb : ser b = PowerSeries.C k * ser (((zt.impulse e r).2).map Complex.re) := by
    rw [← hb, ← ser_map_mul]
    congr 1
    apply List.map_congr_left
    intro c _
    ring
  have hane : a ≠ [] := by
    rw [← ha]; simp [zt.recursive]
  refine ⟨fun τ => (G τ).re, k, ⟨?_, ?_⟩, ?_, ?_⟩
  · have : Continuous G := by rw [hG]; fun_prop
    exact Complex.continuous_re.comp this
  · refine ⟨∑ i ∈ range p.length, ‖at0 p i‖, ?_⟩
    intro s hs
    have hb : ∀ q ∈ p, q.re < s.re := by
      intro q hq
      obtain ⟨i, hi, rfl⟩ := List.getElem_of_mem hq
      have h1 : ‖at0 p i‖ ≤ ∑ i ∈ range p.length, ‖at0 p i‖ := single_le_sum (f := fun i => ‖at0 p i‖) (fun _ _ => norm_nonneg _) (mem_range.mpr hi)
      have h2 : at0 p i = p[i] := by simp [at0, hi]
      rw [h2] at h1
      have := Complex.re_le_norm p[i]
      linarith
    have hsp : s ∉ p := fun hm => lt_irrefl _ (hb s hm)
    have hs0 : sAt u s ≠ 0 := fun e0 => hsp ((hmem s).mpr e0)
    obtain ⟨l1, l2⟩ := laplace_sum p r s hb
    simp only [hGr]
    refine ⟨hs0, l1, ?_⟩
    rw [hG, l2]
    have hpf := partial_fractions (x / d) (t.map (· / d)) v' hx' p r (by rw [← eu']; exact hperm) hnod (by
      rw [hv', List.length_map, List.length_map]; rw [eu] at hl; simp at hl; omega) (by rw [← eu']; exact hrr) s hsp
    rw [← eu', hsc, hscv] at hpf
    field_simp at hpf
    rw [hpf]; field_simp
  · intro hst
    have hstab : Stable a := by
      intro q hq
      obtain ⟨s, hs, rfl⟩ := (hpoles q).mp hq
      rw [Complex.norm_exp, Real.exp_lt_one_iff]
      rw [show s * ((Real.pi : ℂ) * f) = s * ((Real.pi * f : ℝ) : ℂ) by push_cast; ring, Complex.re_mul_ofReal]
      exact mul_neg_of_neg_of_pos (hst s hs) (mul_pos Real.pi_pos hf)
    have := stable_sum_ne a ha0 hane hstab
    rw [hk]
    refine div_ne_zero ?_ hsum
    rw [ha]; exact this
  · intro N
    obtain ⟨flt, y, flt', g1, g2, g3⟩ := C07_iir_difference_equation a b (1 :: List.replicate N 0) (Or.inl hane) ha0 (by simp)
    refine ⟨flt, y, flt', g1, g2, by simpa using g3.1, ?_⟩
    intro n hn
    have hsx : ser ((1 : ℝ) :: List.replicate N 0) = 1 := by
      have := ser_append_zeros ([1] : List ℝ) N
      rw [List.singleton_append] at this
      rw [this, ser_cons]
      have h0 : ser ([] : List ℝ) = 0 := by ext k; simp [at0]
      rw [h0]; simp
    have := recursion_unique a b _ y (PowerSeries.C k * M) ha0 (by
      rw [hsx, hsb, hB, ← ha, recursive_ser e hec]; ring) g3 n (by simp; omega)
    rw [this, PowerSeries.coeff_C_mul, hM, PowerSeries.coeff_mk]

/-- The two hypotheses about residues hold of the textbook formula. -/
noncomputable def exactResidue (v u : List ℝ) : List ℂ × List ℂ :=
  ((np.roots (np.complexOf u)).map (fun p => sAt v p / deriv (sAt u) p), np.roots (np.complexOf u))

theorem exactResidue_spec : ResidueSpec exactResidue ∧ SimpleResidueSpec exactResidue := by
  refine ⟨fun v u => List.Perm.refl _, ?_⟩
  intro v u hu
  refine ⟨by simp [exactResidue], ?_⟩
  intro i hi
  have hi' : i < (np.roots (np.complexOf u)).length := hi
  have e1 : at0 (exactResidue v u).2 i = (np.roots (np.complexOf u))[i] := by
    simp [exactResidue, at0, hi']
  have e2 : at0 (exactResidue v u).1 i = sAt v (np.roots (np.complexOf u))[i] / deriv (sAt u) (np.roots (np.complexOf u))[i] := by
    simp [exactResidue, at0, hi']
  rw [e1, e2]
  have h0 : sAt u (np.roots (np.complexOf u))[i] = 0 := by
    rw [sAt_eval]
    have : (np.roots (np.complexOf u))[i] ∈ (np.toPoly (np.complexOf u)).roots := by
      rw [← Multiset.mem_toList]; exact List.getElem_mem hi'
    exact (mem_roots'.mp this).2
  exact div_mul_cancel₀ _ (hu _ h0)

example (f : ℝ) (hf : 0 < f) : SimpleRoots [1, 1] ∧ (∀ s, sAt [1, 1] s = 0 → s.re < 0) ∧
    ∃ a b, zt.transform exactResidue [1, 1] [1] f false = .ok (some a, some b) := by
  have hs : ∀ s, sAt [1, 1] s = s + 1 := by
    intro s; simp [sAt, at0, sum_range_succ]
  have hd : ∀ s, deriv (sAt [1, 1]) s = 1 := by
    intro s
    rw [show sAt [1, 1] = fun s => s + 1 from funext hs]
    simp
  refine ⟨fun s _ => by rw [hd]; exact one_ne_zero, ?_, ?_⟩
  · intro s h
    rw [hs] at h
    rw [eq_neg_of_add_eq_zero_left h]; norm_num
  · have hr : np.roots (np.complexOf [1, 1]) = [-1] := by
      have hl := np.roots_length (np.complexOf [1]) ((1 : ℝ) : ℂ) (by norm_num)
      have hl' : (np.roots (np.complexOf [1, 1])).length = 1 := hl
      obtain ⟨q, hq⟩ := List.length_eq_one_iff.mp hl'
      have hm := (np.mem_roots (np.complexOf [1]) ((1 : ℝ) : ℂ) q (by norm_num)).mp (by
        show q ∈ np.roots (np.complexOf [1, 1]); rw [hq]; simp)
      rw [hq]
      simp [np.polyval, np.complexOf] at hm
      rw [eq_neg_of_add_eq_zero_left hm]
    classical
    have e1 : zt.strip [(1 : ℝ), 1] = [1, 1] := strip_of_head _ (by simp)
    have e2 : zt.strip [(1 : ℝ)] = [1] := strip_of_head _ (by simp)
    have hv : sAt [1] (-1) = 1 := by simp [sAt, at0]
    unfold zt.transform
    simp [e1, e2, not_le.mpr hf, exactResidue, hr, hd, hv, zt.impulse, zt.normalise, np.convolve]

theorem laplace_ramp (r : ℂ) (hr : 0 < r.re) : ∫ t : ℝ in Set.Ioi 0, (t : ℂ) * Complex.exp (-(r * t)) = 1 / r ^ 2 := by
  have hr0 : r ≠ 0 := by intro e0; rw [e0] at hr; simp at hr
  have hreal : MeasureTheory.IntegrableOn (fun t : ℝ => t ^ ((2 : ℝ) - 1) * Real.exp (-(r.re * t))) (Set.Ioi 0) := by
    by_contra hni
    have h0 := MeasureTheory.integral_undef hni
    rw [Real.integral_rpow_mul_exp_neg_mul_Ioi two_pos hr] at h0
    have : 0 < (1 / r.re) ^ (2 : ℝ) * Real.Gamma 2 := mul_pos (Real.rpow_pos_of_pos (by positivity) _) (Real.Gamma_pos_of_pos two_pos)
    exact this.ne' h0
  have h1 : MeasureTheory.IntegrableOn (fun t : ℝ => (t : ℂ) * Complex.exp (-(r * t))) (Set.Ioi 0) := by
    refine (MeasureTheory.integrable_norm_iff ?_).mp ?_
    · apply Continuous.aestronglyMeasurable
      fun_prop
    · refine MeasureTheory.IntegrableOn.congr_fun hreal ?_ measurableSet_Ioi
      intro t ht
      have ht : 0 < t := ht
      simp only [norm_mul, Complex.norm_exp, Complex.norm_real, Real.norm_eq_abs, abs_of_pos ht]
      rw [show (2 : ℝ) - 1 = 1 by norm_num, Real.rpow_one]
      congr 2
      simp
  have h2 : MeasureTheory.IntegrableOn (fun t : ℝ => Complex.exp (-(r * t))) (Set.Ioi 0) := by
    have := integrableOn_exp_mul_complex_Ioi (a := -r) (by simpa using hr) 0
    simpa [neg_mul] using this
  have hF : MeasureTheory.IntegrableOn (fun t : ℝ => -(1 / r) * ((t : ℂ) * Complex.exp (-(r * t))) + -(1 / r ^ 2) * Complex.exp (-(r * t))) (Set.Ioi 0) :=
    (h1.const_mul _).add (h2.const_mul _)
  have hder : ∀ x : ℝ, HasDerivAt (fun t : ℝ => -(1 / r) * ((t : ℂ) * Complex.exp (-(r * t))) + -(1 / r ^ 2) * Complex.exp (-(r * t))) ((x : ℂ) * Complex.exp (-(r * x))) x := by
    intro x
    have d1 : HasDerivAt (fun t : ℝ => (t : ℂ)) 1 x := Complex.ofRealCLM.hasDerivAt
    have d2 : HasDerivAt (fun t : ℝ => Complex.exp (-(r * t))) (Complex.exp (-(r * x)) * (-(r * 1))) x := (d1.const_mul r).neg.cexp
    have d3 := ((d1.mul d2).const_mul (-(1 / r))).add (d2.const_mul (-(1 / r ^ 2)))
    refine d3.congr_deriv ?_
    field_simp
    ring
  have hlim := MeasureTheory.tendsto_zero_of_hasDerivAt_of_integrableOn_Ioi (fun x _ => hder x) h1 hF
  rw [MeasureTheory.integral_Ioi_of_hasDerivAt_of_tendsto' (fun x _ => hder x) h1 hlim]
  simp

/-- C86 (disagreement).  A double pole: `scipy.signal.residue` returns the coefficients of 1 / (s + 1) and of 1 / (s + 1)²; the code takes both for
simple poles.  The continuous impulse response t e^{-t} starts at zero; the impulse response of the filter does not. -/
theorem C86_repeated (residue : List ℝ → List ℝ → List ℂ × List ℂ) (hres : residue [1] [1, 2, 1] = ([0, 1], [-1, -1])) (f : ℝ) (hf : 0 < f) :
    ∃ a b, zt.transform residue [1, 2, 1] [1] f false = .ok (some a, some b) ∧ IsImpulseResponse [1, 2, 1] [1] (fun t => t * Real.exp (-t)) ∧
      ∀ N, ∃ flt y flt', Iir.new id (some a) (some b) none = .ok flt ∧ flt.filter (1 :: List.replicate N 0) = (.ok y, flt') ∧ y.length = N + 1 ∧
        ¬ ∃ k : ℝ, ∀ n ≤ N, at0 y n = k * ((n * (Real.pi * f)) * Real.exp (-(n * (Real.pi * f)))) := by
  classical
  set ε := Real.exp (-(Real.pi * f)) with hε
  have hε0 : 0 < ε := Real.exp_pos _
  have hε1 : ε < 1 := by
    rw [hε, Real.exp_lt_one_iff]
    have := mul_pos Real.pi_pos hf
    linarith
  have e1 : zt.strip [(1 : ℝ), 2, 1] = [1, 2, 1] := strip_of_head _ (by simp)
  have e2 : zt.strip [(1 : ℝ)] = [1] := strip_of_head _ (by simp)
  have he : Complex.exp (-1 / ((1 / (Real.pi * f) : ℝ) : ℂ)) = (ε : ℂ) := by
    rw [hε, Complex.ofReal_exp]
    congr 1
    push_cast
    rw [div_div_eq_mul_div, div_one]; ring
  have hok : zt.transform residue [1, 2, 1] [1] f false = .ok (some [0, 2 * ε, -ε ^ 2], some [1 - ε, -(ε * (1 - ε)), 0]) := by
    unfold zt.transform
    have hd : [(1 : ℝ), 2, 1].getLastD 0 = 1 := rfl
    have hi : zt.impulse [(ε : ℂ), ε] [0, 1] = (([1, -(2 * (ε : ℂ)), (ε : ℂ) ^ 2] : List ℂ), ([1, -(ε : ℂ), 0] : List ℂ)) := by
      simp [zt.impulse, np.convolve, List.range_succ]
      constructor <;> ring
    have h1 : (1 : ℝ) - ε ≠ 0 := by linarith
    have hr : zt.recursive [1, -(2 * ε), ε ^ 2] = [0, 2 * ε, -ε ^ 2] := by
      simp [zt.recursive, div_neg]
    have hn : zt.normalise [0, 2 * ε, -ε ^ 2] [1, -ε, 0] = some [1 - ε, -(ε * (1 - ε)), 0] := by
      unfold zt.normalise
      have hs : [(1 : ℝ), -ε, 0].sum = 1 - ε := by simp; ring
      have hs' : (1 : ℝ) - [0, 2 * ε, -ε ^ 2].sum = (1 - ε) * (1 - ε) := by simp; ring
      rw [hs, hs', if_neg h1, mul_div_assoc, div_self h1]
      simp
    have hm : ([(1 : ℝ)].map fun x => x / 1) = [1] := by simp
    have hm' : ([(1 : ℝ), 2, 1].map fun x => x / 1) = [1, 2, 1] := by simp
    simp only [e1, e2, hd, not_le.mpr hf, hm, hm', hres]
    simp only [List.map_cons, List.map_nil, he, hi]
    have hc1 : [(1 : ℂ).re, (-(2 * (ε : ℂ))).re, ((ε : ℂ) ^ 2).re] = [1, -(2 * ε), ε ^ 2] := by
      simp [← Complex.ofReal_pow]
    have hc2 : [(1 : ℂ).re, (-(ε : ℂ)).re, (0 : ℂ).re] = [1, -ε, 0] := by simp
    rw [hc1, hc2, hr, hn]
    simp
  refine ⟨_, _, hok, ?_, ?_⟩
  · refine ⟨by fun_prop, -1, ?_⟩
    intro s hs
    have hs1 : 0 < (s + 1).re := by simp; linarith
    have hs0 : s + 1 ≠ 0 := by intro e0; rw [e0] at hs1; simp at hs1
    have hu : sAt [1, 2, 1] s = (s + 1) ^ 2 := by
      simp [sAt, at0, sum_range_succ]; ring
    have hv : sAt [1] s = 1 := by simp [sAt, at0]
    have hi : ∫ t : ℝ in Set.Ioi 0, ((t * Real.exp (-t) : ℝ) : ℂ) * Complex.exp (-(s * t)) = 1 / (s + 1) ^ 2 := by
      rw [← laplace_ramp (s + 1) hs1]
      congr 1
      funext t
      push_cast
      rw [mul_assoc, ← Complex.exp_add]
      congr 2; ring
    refine ⟨by rw [hu]; exact pow_ne_zero _ hs0, ?_, by rw [hi, hu, hv]⟩
    by_contra hni
    have h0 := MeasureTheory.integral_undef hni
    rw [hi] at h0
    exact (div_ne_zero one_ne_zero (pow_ne_zero 2 hs0)) h0
  · intro N
    obtain ⟨flt, y, flt', g1, g2, g3⟩ := C07_iir_difference_equation [0, 2 * ε, -ε ^ 2] [1 - ε, -(ε * (1 - ε)), 0] (1 :: List.replicate N 0) (Or.inl (by simp)) (by simp [at0]) (by simp)
    refine ⟨flt, y, flt', g1, g2, by simpa using g3.1, ?_⟩
    rintro ⟨k, hk⟩
    have h0 := hk 0 (Nat.zero_le _)
    rw [g3.2 0 (by simp)] at h0
    simp [at0] at h0
    linarith

/-- The value assumed of the library for the double pole is the decomposition 1 / (s + 1)² = 0 / (s + 1) + 1 / (s + 1)². -/
example (s : ℂ) : sAt [1] s / sAt [1, 2, 1] s = 0 / (s - -1) + 1 / (s - -1) ^ 2 := by
  have hu : sAt [1, 2, 1] s = (s + 1) ^ 2 := by
    simp [sAt, at0, sum_range_succ]; ring
  have hv : sAt [1] s = 1 := by simp [sAt, at0]
  rw [hu, hv]; simp

end Verif.Props
