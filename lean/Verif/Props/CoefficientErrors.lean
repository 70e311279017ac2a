import Verif.Lemmas.Rounding
import Verif.Lemmas.FloatingPoint
import Verif.Props.Fir
import Verif.Props.Iir

/-
Property C162 of FirFilter and IirFilter (diamondback/filters/fir_filter.py, iir_filter.py): what errors of the coefficients do, for instance when designed
coefficients are stored with fewer digits.
-/

namespace Verif.Props

open Finset Spec

/-- The characteristic polynomial of a recursion is the product over its poles. -/
theorem characteristic (a : List ℝ) (h0 : at0 a 0 = 0) (ha : a ≠ []) :
    ∃ r : List ℂ, (∀ z, z ∈ r ↔ Pole a z) ∧ r.length = a.length - 1 ∧
      ∀ z : ℂ, z ^ (a.length - 1) - ∑ i ∈ Icc 1 (a.length - 1), ((at0 a i : ℝ) : ℂ) * z ^ (a.length - 1 - i) = (r.map fun w => z - w).prod := by
  obtain ⟨r, hr, hf⟩ := stable_factors a h0 ha
  have hlen : r.length = a.length - 1 := by
    have := congrArg List.length hf
    rw [np.poly_length] at this
    simp [np.complexOf] at this
    omega
  refine ⟨r, hr, hlen, fun z => ?_⟩
  have e1 : (np.toPoly (np.poly r)).eval z = (r.map fun w => z - w).prod := by
    rw [np.toPoly_poly, Polynomial.eval_list_prod, List.map_map]
    congr 1
    apply List.map_congr_left
    intro w _
    simp
  rw [← e1, ← hf, np.eval_toPoly]
  have hl : (np.complexOf (1 :: a.tail.map (- ·))).length = a.length - 1 + 1 := by simp [np.complexOf]
  rw [hl, sum_range_succ', Nat.add_sub_cancel]
  simp only [at0_complexOf]
  have hs : ∑ i ∈ Icc 1 (a.length - 1), ((at0 a i : ℝ) : ℂ) * z ^ (a.length - 1 - i) =
      - ∑ i ∈ range (a.length - 1), ((at0 ((1 : ℝ) :: a.tail.map (- ·)) (i + 1) : ℝ) : ℂ) * z ^ (a.length - 1 - (i + 1)) := by
    rw [← sum_neg_distrib, range_eq_Ico, Finset.sum_Ico_add' (fun i => -(((at0 ((1 : ℝ) :: a.tail.map (- ·)) i : ℝ) : ℂ) * z ^ (a.length - 1 - i))) 0 _ 1]
    rw [show Ico (0 + 1) (a.length - 1 + 1) = Icc 1 (a.length - 1) by ext; simp only [mem_Ico, mem_Icc]; omega]
    apply sum_congr rfl
    intro i hi
    obtain ⟨k, rfl⟩ : ∃ k, i = k + 1 := ⟨i - 1, by have := (mem_Icc.mp hi).1; omega⟩
    rcases a with _ | ⟨x, a⟩
    · exact absurd rfl ha
    simp only [at0, List.getD_eq_getElem?_getD]
    cases h : a[k]? <;> simp [h]
  rw [hs]
  simp [at0]
  ring

/-- A stable recursion has a margin: outside the unit circle the characteristic polynomial is at least a constant times its leading term. -/
theorem stable_margin (a : List ℝ) (h0 : at0 a 0 = 0) (ha : a ≠ []) (hst : Stable a) :
    ∃ c : ℝ, 0 < c ∧ ∀ z : ℂ, 1 ≤ ‖z‖ →
      c * ‖z‖ ^ (a.length - 1) ≤ ‖z ^ (a.length - 1) - ∑ i ∈ Icc 1 (a.length - 1), ((at0 a i : ℝ) : ℂ) * z ^ (a.length - 1 - i)‖ := by
  obtain ⟨r, hr, hlen, hz⟩ := characteristic a h0 ha
  have hr1 : ∀ w ∈ r, ‖w‖ < 1 := fun w hw => hst w ((hr w).mp hw)
  have key : ∀ l : List ℂ, (∀ w ∈ l, ‖w‖ < 1) → 0 < (l.map fun w => 1 - ‖w‖).prod ∧ ∀ z : ℂ, 1 ≤ ‖z‖ →
      (l.map fun w => 1 - ‖w‖).prod * ‖z‖ ^ l.length ≤ ‖(l.map fun w => z - w).prod‖ := by
    intro l
    induction l with
    | nil => intro _; simp
    | cons w l ih =>
      intro hl
      obtain ⟨i1, i2⟩ := ih fun v hv => hl v (List.mem_cons_of_mem _ hv)
      have hw := hl w (by simp)
      refine ⟨by simpa using mul_pos (by linarith) i1, fun z hz => ?_⟩
      simp only [List.map_cons, List.prod_cons, List.length_cons, norm_mul, pow_succ]
      have h1 : (1 - ‖w‖) * ‖z‖ ≤ ‖z - w‖ := by
        have := norm_sub_norm_le z w
        nlinarith [norm_nonneg w]
      have h2 := i2 z hz
      calc (1 - ‖w‖) * (l.map fun w => 1 - ‖w‖).prod * (‖z‖ ^ l.length * ‖z‖) = ((1 - ‖w‖) * ‖z‖) * ((l.map fun w => 1 - ‖w‖).prod * ‖z‖ ^ l.length) := by ring
        _ ≤ ‖z - w‖ * ‖(l.map fun w => z - w).prod‖ := mul_le_mul h1 h2 (by positivity) (norm_nonneg _)
  obtain ⟨k1, k2⟩ := key r hr1
  refine ⟨_, k1, fun z hz' => ?_⟩
  rw [hz z, ← hlen]
  exact k2 z hz'

/-- C162.  Stability survives small errors of the recursive coefficients. -/
theorem C162_stable (a : List ℝ) (h0 : at0 a 0 = 0) (hst : Stable a) :
    ∃ δ : ℝ, 0 < δ ∧ ∀ a' : List ℝ, a'.length = a.length → at0 a' 0 = 0 → (∀ i, |at0 a' i - at0 a i| ≤ δ) → Stable a' := by
  by_cases ha : a = []
  · refine ⟨1, one_pos, fun a' hl _ _ => ?_⟩
    rw [ha, List.length_nil, List.length_eq_zero_iff] at hl
    rw [hl, ← ha]; exact hst
  obtain ⟨c, hc, hm⟩ := stable_margin a h0 ha hst
  refine ⟨c / (2 * a.length + 1), by positivity, fun a' hl h0' hd z hp => ?_⟩
  by_contra hz
  rw [not_lt] at hz
  have h1 := hm z hz
  unfold Pole at hp
  rw [hl] at hp
  rw [hp, ← sum_sub_distrib] at h1
  have h2 : ‖∑ i ∈ Icc 1 (a.length - 1), (((at0 a' i : ℝ) : ℂ) * z ^ (a.length - 1 - i) - ((at0 a i : ℝ) : ℂ) * z ^ (a.length - 1 - i))‖ ≤
      ∑ i ∈ Icc 1 (a.length - 1), c / (2 * a.length + 1) * ‖z‖ ^ (a.length - 1) := by
    refine (norm_sum_le _ _).trans (sum_le_sum fun i hi => ?_)
    rw [← sub_mul, ← Complex.ofReal_sub, norm_mul, Complex.norm_real, norm_pow, Real.norm_eq_abs]
    exact mul_le_mul (hd i) (pow_le_pow_right₀ hz (by omega)) (by positivity) (by positivity)
  rw [sum_const, Nat.card_Icc, nsmul_eq_mul] at h2
  have hzp : 0 < ‖z‖ ^ (a.length - 1) := by positivity
  have h3 := h1.trans h2
  rw [← mul_assoc] at h3
  have h4 := le_of_mul_le_mul_right h3 hzp
  have h5 : ((a.length - 1 + 1 - 1 : ℕ) : ℝ) ≤ a.length := by exact_mod_cast (by omega)
  have h6 : ((a.length - 1 + 1 - 1 : ℕ) : ℝ) * (c / (2 * a.length + 1)) ≤ a.length * (c / (2 * a.length + 1)) := mul_le_mul_of_nonneg_right h5 (by positivity)
  have h7 : (a.length : ℝ) * (c / (2 * a.length + 1)) < c := by
    rw [← mul_div_assoc, div_lt_iff₀ (by positivity)]
    nlinarith [Nat.cast_nonneg (α := ℝ) a.length]
  linarith

/-- A sum against a window with finitely many nonzero weights. -/
theorem window_bound (L : ℕ) (g c : ℕ → ℝ) (hg : ∀ i, L ≤ i → g i = 0) (n : ℕ) (M : ℝ) (hc : ∀ i ≤ n, g i ≠ 0 → |c (n - i)| ≤ M) (hM : 0 ≤ M) :
    |∑ i ∈ range (n + 1), g i * c (n - i)| ≤ (∑ i ∈ range L, |g i|) * M := by
  have h1 : |∑ i ∈ range (n + 1), g i * c (n - i)| ≤ ∑ i ∈ range (n + 1), |g i| * M := by
    refine (abs_sum_le_sum_abs _ _).trans (sum_le_sum fun i hi => ?_)
    rw [abs_mul]
    by_cases h : g i = 0
    · simp [h]
    · exact mul_le_mul_of_nonneg_left (hc i (by have := mem_range.mp hi; omega) h) (abs_nonneg _)
  refine h1.trans ?_
  rw [← sum_mul]
  refine mul_le_mul_of_nonneg_right ?_ hM
  have h2 : ∑ i ∈ range (n + 1), |g i| ≤ ∑ i ∈ range (max L (n + 1)), |g i| :=
    sum_le_sum_of_subset_of_nonneg (range_mono (le_max_right _ _)) fun _ _ _ => abs_nonneg _
  refine h2.trans (le_of_eq (sum_subset (range_mono (le_max_left _ _)) fun i _ hi => ?_).symm)
  rw [hg i (by simpa using hi), abs_zero]

theorem recursion_range (a : List ℝ) (h0 : at0 a 0 = 0) (w : ℕ → ℝ) (n : ℕ) :
    ∑ i ∈ Icc 1 n, at0 a i * w (n - i) = ∑ i ∈ range (n + 1), at0 a i * w (n - i) := by
  rw [sum_range_succ', h0, zero_mul, add_zero, range_eq_Ico, Finset.sum_Ico_add' (fun i => at0 a i * w (n - i)) 0 _ 1]
  rw [show Ico (0 + 1) (n + 1) = Icc 1 n by ext; simp only [mem_Ico, mem_Icc]; omega]

/-- How far the output of a recursion moves when its coefficients do. -/
theorem recursion_perturb (a b a' b' x y z : List ℝ) (h0 : at0 a 0 = 0) (h0' : at0 a' 0 = 0) (hla : a'.length = a.length) (hlb : b'.length = b.length)
    (hy : Recursion a b x y) (hz : Recursion a' b' x z) (G : ℝ) (hG0 : 0 ≤ G) (hG : ∀ n, ∑ k ∈ range n, |PowerSeries.coeff k (recip a)| ≤ G)
    (δ M : ℝ) (hδ : 0 ≤ δ) (hM : 0 ≤ M) (hx : ∀ n, |at0 x n| ≤ M) (hda : ∀ i, |at0 a' i - at0 a i| ≤ δ) (hdb : ∀ i, |at0 b' i - at0 b i| ≤ δ)
    (hsmall : G * (a.length * δ) ≤ 1 / 2) :
    ∀ n < x.length, |at0 z n - at0 y n| ≤ 2 * G * (a.length * (G * ∑ i ∈ range b.length, |at0 b i|) + b.length) * δ * M := by
  set B := ∑ i ∈ range b.length, |at0 b i| with hB
  have hB0 : 0 ≤ B := sum_nonneg fun _ _ => abs_nonneg _
  have hzero : ∀ (l : List ℝ) i, l.length ≤ i → at0 l i = 0 := fun l i h => by simp [at0, h]
  have hY : ∀ n < x.length, |at0 y n| ≤ G * (B * M) := by
    refine recursion_bound a h0 G x.length (fun n _ => hG n) (fun n => at0 y n) (fun n => ∑ i ∈ range (n + 1), at0 b i * at0 x (n - i)) (fun n hn => ?_) (B * M) (fun n _ => ?_)
    · rw [hy.2 n hn, recursion_range a h0 (fun k => at0 y k) n, add_comm]
    · exact window_bound b.length (at0 b) (at0 x) (hzero b) n M (fun i _ _ => hx _) hM
  set C := 2 * G * (a.length * (G * B) + b.length) * δ * M with hC
  have hsa : ∑ i ∈ range a.length, |at0 a' i - at0 a i| ≤ a.length * δ := by
    refine (sum_le_sum fun i _ => hda i).trans ?_
    rw [sum_const, card_range, nsmul_eq_mul]
  have hsb : ∑ i ∈ range b.length, |at0 b' i - at0 b i| ≤ b.length * δ := by
    refine (sum_le_sum fun i _ => hdb i).trans ?_
    rw [sum_const, card_range, nsmul_eq_mul]
  have hC0 : 0 ≤ C := by positivity
  have key : ∀ m ≤ x.length, ∀ n < m, |at0 z n - at0 y n| ≤ C := by
    intro m
    induction m with
    | zero => intro _ n hn; omega
    | succ m ih =>
      intro hm
      have ihm := ih (by omega)
      have step := recursion_bound a h0 G (m + 1) (fun n _ => hG n) (fun n => at0 z n - at0 y n)
        (fun n => ∑ i ∈ range (n + 1), (at0 a' i - at0 a i) * at0 z (n - i) + ∑ i ∈ range (n + 1), (at0 b' i - at0 b i) * at0 x (n - i))
        (fun n hn => by
          rw [hy.2 n (by omega), hz.2 n (by omega), recursion_range a h0 (fun k => at0 y k) n, recursion_range a' h0' (fun k => at0 z k) n]
          rw [← sum_add_distrib, ← sum_add_distrib, ← sum_add_distrib, ← sum_add_distrib, ← sum_sub_distrib]
          apply sum_congr rfl
          intro i _
          ring)
        (a.length * δ * (G * (B * M) + C) + b.length * δ * M)
        (fun n hn => by
          refine (abs_add_le _ _).trans (add_le_add ?_ ?_)
          · refine (window_bound a.length (fun i => at0 a' i - at0 a i) (at0 z) (fun i hi => ?_) n (G * (B * M) + C) (fun i hi hne => ?_) (by positivity)).trans
              (mul_le_mul_of_nonneg_right hsa (by positivity))
            · rw [hzero a i hi, hzero a' i (by omega), sub_zero]
            · have hi0 : i ≠ 0 := by rintro rfl; exact hne (by simp [h0, h0'])
              have h1 := hY (n - i) (by omega)
              have h2 := ihm (n - i) (by omega)
              have h3 : at0 z (n - i) = at0 y (n - i) + (at0 z (n - i) - at0 y (n - i)) := by ring
              rw [h3]
              exact (abs_add_le _ _).trans (add_le_add h1 h2)
          · refine (window_bound b.length (fun i => at0 b' i - at0 b i) (at0 x) (fun i hi => ?_) n M (fun i _ _ => hx _) hM).trans
              (mul_le_mul_of_nonneg_right hsb hM)
            rw [hzero b i hi, hzero b' i (by omega), sub_zero])
      intro n hn
      refine (step n hn).trans ?_
      have e : G * (a.length * δ * (G * (B * M) + C) + b.length * δ * M) = G * (a.length * δ) * C + C / 2 := by rw [hC]; ring
      rw [e]
      have := mul_le_mul_of_nonneg_right hsmall hC0
      linarith
  exact key x.length le_rfl

/-- C162.  Small errors of the coefficients of a stable filter move its output by at most a constant times their size and the size of the input, for inputs of
any length. -/
theorem C162_outputs (a b : List ℝ) (h0 : at0 a 0 = 0) (ha : a ≠ []) (hst : Stable a) :
    ∃ K δ₀ : ℝ, 0 < δ₀ ∧ ∀ (δ : ℝ) (a' b' : List ℝ), δ ≤ δ₀ → a'.length = a.length → b'.length = b.length → at0 a' 0 = 0 →
      (∀ i, |at0 a' i - at0 a i| ≤ δ) → (∀ i, |at0 b' i - at0 b i| ≤ δ) → ∀ (x : List ℝ) (M : ℝ), x ≠ [] → (∀ n, |at0 x n| ≤ M) →
      ∃ f y f' g z g', Iir.new id (some a) (some b) none = .ok f ∧ f.filter x = (.ok y, f') ∧
        Iir.new id (some a') (some b') none = .ok g ∧ g.filter x = (.ok z, g') ∧ y.length = x.length ∧ z.length = x.length ∧
        ∀ n < x.length, |at0 z n - at0 y n| ≤ K * δ * M := by
  obtain ⟨G, hG⟩ := stable_sumBound a h0 ha hst
  have hG0 := hG.nonneg
  have hG' : ∀ n, ∑ k ∈ range n, |PowerSeries.coeff k (recip a)| ≤ G := fun n => by simpa using hG n
  refine ⟨2 * G * (a.length * (G * ∑ i ∈ range b.length, |at0 b i|) + b.length), 1 / (2 * (G * a.length) + 1), by positivity, ?_⟩
  intro δ a' b' hδ hla hlb h0' hda hdb x M hx hM
  have ha' : a' ≠ [] := by intro h; rw [h] at hla; exact ha (List.length_eq_zero_iff.mp hla.symm)
  obtain ⟨f, y, f', p1, p2, p3⟩ := C07_iir_difference_equation a b x (Or.inl ha) h0 hx
  obtain ⟨g, z, g', q1, q2, q3⟩ := C07_iir_difference_equation a' b' x (Or.inl ha') h0' hx
  refine ⟨f, y, f', g, z, g', p1, p2, q1, q2, p3.1, q3.1, ?_⟩
  have hδ0 : 0 ≤ δ := (abs_nonneg _).trans (hda 0)
  refine recursion_perturb a b a' b' x y z h0 h0' hla hlb p3 q3 G hG0 hG' δ M hδ0 ((abs_nonneg _).trans (hM 0)) hM hda hdb ?_
  have hp : 0 < 2 * (G * a.length) + 1 := by positivity
  rw [le_div_iff₀ hp] at hδ
  nlinarith [mul_nonneg hG0 (Nat.cast_nonneg (α := ℝ) a.length)]

/-- C162.  Without recursion the bound needs no stability and has an explicit constant. -/
theorem C162_fir (b b' : List ℝ) (hb : b ≠ []) (hl : b'.length = b.length) (x : List ℝ) (hx : x ≠ []) (M : ℝ) (hM : ∀ n, |at0 x n| ≤ M) :
    ∃ f y f' g z g', Fir.new id b none = .ok f ∧ f.filter x = (.ok y, f') ∧ Fir.new id b' none = .ok g ∧ g.filter x = (.ok z, g') ∧
      y.length = x.length ∧ z.length = x.length ∧ ∀ n < x.length, |at0 z n - at0 y n| ≤ (∑ i ∈ range b.length, |at0 b' i - at0 b i|) * M := by
  have hb' : b' ≠ [] := by intro h; rw [h] at hl; exact hb (List.length_eq_zero_iff.mp hl.symm)
  obtain ⟨f, y, f', p1, p2, p3, p4⟩ := C01_fir_convolution b x hb hx
  obtain ⟨g, z, g', q1, q2, q3, q4⟩ := C01_fir_convolution b' x hb' hx
  refine ⟨f, y, f', g, z, g', p1, p2, q1, q2, p3, q3, fun n hn => ?_⟩
  have e : at0 z n - at0 y n = ∑ i ∈ range (n + 1), (at0 b' i - at0 b i) * at0 x (n - i) := by
    simp only [at0, List.getD_eq_getElem?_getD] at p4 q4 ⊢
    rw [p4 n hn, q4 n hn]
    simp only [Option.getD_some]
    rw [← sum_sub_distrib]
    exact sum_congr rfl fun i _ => by ring
  rw [e]
  refine window_bound b.length (fun i => at0 b' i - at0 b i) (at0 x) (fun i hi => ?_) n M (fun i _ _ => hM _) ((abs_nonneg _).trans (hM 0))
  rw [at0_of_le b i hi, at0_of_le b' i (by omega), sub_zero]

/-- The hypotheses hold: two moving averages, and a signal bounded by two. -/
example := C162_fir [1, 1] [1, 1.1] (by simp) rfl [2, -1] (by simp) 2 (fun n => by rcases n with _ | _ | n <;> norm_num [at0])

theorem at0_map_fl {p : ℕ} {e : ℤ} (ρ : Nearest p e) (l : List ℝ) (i : ℕ) : at0 (l.map ρ.fl) i = ρ.fl (at0 l i) := by
  have h0 : ρ.fl 0 = 0 := ρ.ext_float 0 ⟨0, e, by simp, le_rfl, by simp⟩
  simp only [at0, List.getD_eq_getElem?_getD, List.getElem?_map]
  cases l[i]? <;> simp [h0]

/-- C162.  A stable filter whose coefficients are rounded to sufficiently many bits is stable, and its outputs are within a constant times `2 ^ -p` times the
size of the input of those of the exact coefficients. -/
theorem C162_rounded (a b : List ℝ) (h0 : at0 a 0 = 0) (ha : a ≠ []) (hst : Stable a) :
    ∃ (K : ℝ) (p₀ : ℕ), ∀ (p : ℕ) (e : ℤ) (ρ : Nearest p e), p₀ ≤ p → e ≤ -(p : ℤ) → Stable (a.map ρ.fl) ∧
      ∀ (x : List ℝ) (M : ℝ), x ≠ [] → (∀ n, |at0 x n| ≤ M) →
      ∃ f y f' g z g', Iir.new id (some a) (some b) none = .ok f ∧ f.filter x = (.ok y, f') ∧
        Iir.new id (some (a.map ρ.fl)) (some (b.map ρ.fl)) none = .ok g ∧ g.filter x = (.ok z, g') ∧ y.length = x.length ∧ z.length = x.length ∧
        ∀ n < x.length, |at0 z n - at0 y n| ≤ K * (1 / 2) ^ p * M := by
  obtain ⟨K, δ₀, hδ₀, hK⟩ := C162_outputs a b h0 ha hst
  obtain ⟨δ₁, hδ₁, hs⟩ := C162_stable a h0 hst
  set A := (∑ i ∈ range a.length, |at0 a i|) + (∑ i ∈ range b.length, |at0 b i|) + 1 with hA
  have hsum : ∀ (l : List ℝ) i, |at0 l i| ≤ ∑ i ∈ range l.length, |at0 l i| := by
    intro l i
    by_cases hi : i < l.length
    · exact single_le_sum (f := fun i => |at0 l i|) (fun _ _ => abs_nonneg _) (mem_range.mpr hi)
    · rw [at0_of_le l i (by omega), abs_zero]; exact sum_nonneg fun _ _ => abs_nonneg _
  have hn : ∀ l : List ℝ, 0 ≤ ∑ i ∈ range l.length, |at0 l i| := fun l => sum_nonneg fun _ _ => abs_nonneg _
  have hApos : 0 < A := by have := hn a; have := hn b; linarith
  obtain ⟨p₀, hp₀⟩ := exists_pow_lt_of_lt_one (show 0 < min δ₀ δ₁ / A by positivity) (show (1 / 2 : ℝ) < 1 by norm_num)
  refine ⟨K * A, p₀, fun p e ρ hp he => ?_⟩
  have hε : A * (1 / 2 : ℝ) ^ p ≤ min δ₀ δ₁ := by
    have h1 : (1 / 2 : ℝ) ^ p ≤ (1 / 2) ^ p₀ := pow_le_pow_of_le_one (by norm_num) (by norm_num) hp
    have h2 := (h1.trans hp₀.le)
    rw [le_div_iff₀ hApos] at h2
    linarith
  have hgrid : (2 : ℝ) ^ (e - 1) ≤ (1 / 2) ^ p := by
    rw [one_div, inv_pow, ← zpow_natCast, ← zpow_neg]
    exact zpow_le_zpow_right₀ (by norm_num) (by omega)
  have herr : ∀ v, |v| ≤ A - 1 → |ρ.fl v - v| ≤ A * (1 / 2) ^ p := by
    intro v hv
    have h1 := ρ.error v
    have h2 := mul_le_mul_of_nonneg_left hv (show (0 : ℝ) ≤ (1 / 2) ^ p by positivity)
    linarith
  have da : ∀ i, |at0 (a.map ρ.fl) i - at0 a i| ≤ A * (1 / 2) ^ p := fun i => by
    rw [at0_map_fl]
    exact herr _ (by have := hsum a i; have := hn b; linarith)
  have db : ∀ i, |at0 (b.map ρ.fl) i - at0 b i| ≤ A * (1 / 2) ^ p := fun i => by
    rw [at0_map_fl]
    exact herr _ (by have := hsum b i; have := hn a; linarith)
  have z0 : at0 (a.map ρ.fl) 0 = 0 := by
    rw [at0_map_fl, h0]; exact ρ.ext_float 0 ⟨0, e, by simp, le_rfl, by simp⟩
  refine ⟨hs _ (by simp) z0 fun i => (da i).trans (hε.trans (min_le_right _ _)), fun x M hx hM => ?_⟩
  have := hK (A * (1 / 2) ^ p) (a.map ρ.fl) (b.map ρ.fl) (hε.trans (min_le_left _ _)) (by simp) (by simp) z0 da db x M hx hM
  rwa [← mul_assoc] at this

/-- C162.  Stability is needed: of the accumulator `y_n = y_{n-1} + x_n` an error of the coefficient, however small, moves the outputs without bound. -/
theorem C162_accumulator (δ C : ℝ) (hδ : 0 < δ) :
    ∃ (x : List ℝ) (f : Iir ℝ) (y : List ℝ) (f' g : Iir ℝ) (z : List ℝ) (g' : Iir ℝ), (∀ n, |at0 x n| ≤ 1) ∧
      Iir.new id (some [0, 1]) (some [1]) none = .ok f ∧ f.filter x = (.ok y, f') ∧
      Iir.new id (some [0, 1 + δ]) (some [1]) none = .ok g ∧ g.filter x = (.ok z, g') ∧ ∃ n < x.length, C < |at0 z n - at0 y n| := by
  obtain ⟨N, hN⟩ := exists_nat_gt (C / δ)
  have hxn : ∀ n, at0 ((1 : ℝ) :: List.replicate N 0) n = if n = 0 then 1 else 0 := by
    intro n
    cases n with
    | zero => rfl
    | succ n => simp [at0, List.getD_eq_getElem?_getD, List.getElem?_replicate]; split <;> rfl
  obtain ⟨f, y, f', p1, p2, p3⟩ := C07_iir_difference_equation [0, 1] [1] ((1 : ℝ) :: List.replicate N 0) (Or.inl (by simp)) rfl (by simp)
  obtain ⟨g, z, g', q1, q2, q3⟩ := C07_iir_difference_equation [0, 1 + δ] [1] ((1 : ℝ) :: List.replicate N 0) (Or.inl (by simp)) rfl (by simp)
  have key : ∀ (c : ℝ) (w : List ℝ), Recursion [0, c] [1] ((1 : ℝ) :: List.replicate N 0) w → ∀ n ≤ N, at0 w n = c ^ n := by
    intro c w hw n
    have hb : ∀ n, ∑ i ∈ range (n + 1), at0 [(1 : ℝ)] i * at0 ((1 : ℝ) :: List.replicate N 0) (n - i) = if n = 0 then 1 else 0 := by
      intro n
      rw [sum_range_succ', sum_eq_zero (fun i _ => by rw [at0_cons_succ, at0_nil, zero_mul])]
      rw [Nat.sub_zero, hxn]; simp [at0]
    induction n with
    | zero => intro _; rw [hw.2 0 (by simp), hb]; simp
    | succ n ih =>
      intro hn
      rw [hw.2 (n + 1) (by simp; omega), hb, recursion_range [0, c] rfl (fun k => at0 w k) (n + 1), sum_range_succ', sum_range_succ',
        sum_eq_zero (fun i _ => by rw [at0_cons_succ, at0_cons_succ, at0_nil, zero_mul])]
      simp only [Nat.zero_add, Nat.add_sub_cancel]
      rw [ih (by omega)]
      simp [at0]
      ring
  refine ⟨_, f, y, f', g, z, g', fun n => ?_, p1, p2, q1, q2, N, by simp, ?_⟩
  · rw [hxn]; split <;> simp
  · rw [key 1 y p3 N le_rfl, key (1 + δ) z q3 N le_rfl, one_pow]
    have hb := one_add_mul_le_pow (show (-2 : ℝ) ≤ δ by linarith) N
    rw [div_lt_iff₀ hδ] at hN
    exact lt_of_lt_of_le (by linarith) (le_abs_self _)

/-- The hypotheses of `C162_stable`, `C162_outputs` and `C162_rounded` hold for the recursion `y_n = y_{n-1} / 2 + x_n`. -/
example : at0 [(0 : ℝ), 1 / 2] 0 = 0 ∧ [(0 : ℝ), 1 / 2] ≠ [] ∧ Stable [0, 1 / 2] := by
  refine ⟨rfl, by simp, fun z hz => ?_⟩
  simp [Pole, at0] at hz
  rw [hz]
  norm_num

/-- Coefficients which differ by a tenth. -/
example : ∀ i, |at0 [(0 : ℝ), 3 / 5] i - at0 [0, 1 / 2] i| ≤ 1 / 10 := by
  intro i
  rcases i with _ | _ | i <;> norm_num [at0]

/-- The bound of the filter without recursion is attained. -/
example : (∑ i ∈ range 1, |at0 [(3 : ℝ)] i - at0 [2] i|) * 5 = |3 * 5 - 2 * 5| := by norm_num [at0]

end Verif.Props
