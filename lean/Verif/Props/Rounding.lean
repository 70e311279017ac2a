import Verif.Lemmas.RoundingIir
import Mathlib.Tactic.NormNum
import Mathlib.Analysis.SpecialFunctions.Pow.Real

/-
Properties C78 and C79: rounding errors of FirFilter (diamondback/filters/fir_filter.py) and IirFilter (diamondback/filters/iir_filter.py).
The arithmetic is any arithmetic with the error bounds of `Rounded`; overflow is excluded.
-/

namespace Verif.Props

open Finset Spec

/-- C78.  The rounding error of an output sample of `FirFilter(b=b, s=s).filter(x)` is bounded by the samples in the window alone: it does not accumulate
over the signal, whatever its length. -/
theorem C78_fir_rounding {F : Type*} [Add F] [Mul F] [Dot F] [Zero F] (val : F → ℝ) (u η : ℝ) (b : List F) (s : Option (List F)) (x : List F)
    (hF : Rounded val (max b.length (s.getD []).length) u η) (hb : b ≠ []) (hx : x ≠ []) :
    ∃ f y f', Fir.new id b s = .ok f ∧ f.filter x = (.ok y, f') ∧ y.length = x.length ∧ ∀ n < x.length,
      |val (at0 y n) - (conv (b.map val) (x.map val) n + tail (b.map val) ((s.getD []).map val) n)| ≤
        u * (conv (b.map (|val ·|)) (x.map (|val ·|)) n + tail (b.map (|val ·|)) ((s.getD []).map (|val ·|)) n) + η := by
  obtain ⟨f, h1, hwf, hc, hfb, hfs⟩ := Fir.new_spec id b s hb
  obtain ⟨y, h2, h3, h4⟩ := Fir.filter_wf f hwf x hx
  refine ⟨f, y, _, h1, h2, h3, fun n hn => ?_⟩
  have hy : at0 y n = dot f.b (((x.take (n + 1)).reverse ++ f.s).take f.b.length) := by
    have := h4 n hn
    rw [hc] at this
    simp only [List.map_id, id] at this
    unfold at0
    rw [List.getD_eq_getElem?_getD, this]; rfl
  set L := max b.length (s.getD []).length with hL
  have hbl : f.b.length = L := by rw [hfb]; simp [padTo]; omega
  have hsl : f.s.length = L := by rw [← hwf.1, hbl]
  have hwl : ((((x.take (n + 1)).reverse ++ f.s).take f.b.length)).length = L := by simp [hbl, hsl]
  have hd := hF.dot f.b _ hbl hwl
  have hval0 : |val 0| = 0 := by rw [hF.zero, abs_zero]
  -- the sums over the window, for `val` and for `|val|`
  have key : ∀ g : F → ℝ, g 0 = 0 → ∑ i ∈ range L, g (at0 f.b i) * g (at0 (((x.take (n + 1)).reverse ++ f.s).take f.b.length) i) =
      conv (b.map g) (x.map g) n + tail (b.map g) ((s.getD []).map g) n := by
    intro g hg
    have e1 : ∑ i ∈ range L, g (at0 f.b i) * g (at0 (((x.take (n + 1)).reverse ++ f.s).take f.b.length) i) =
        dot (f.b.map g) ((((x.map g).take (n + 1)).reverse ++ f.s.map g).take L) := by
      rw [dot_eq_sum, List.length_map, hbl]
      apply sum_congr rfl
      intro i _
      rw [at0_map_val g hg, ← at0_map_val g hg (((x.take (n + 1)).reverse ++ f.s).take L), List.map_take, List.map_append, List.map_reverse, List.map_take]
    rw [e1, dot_window _ _ _ _ _ (by simp [hbl]) (by simpa using hn)]
    congr 1
    · simp only [conv]
      apply sum_congr rfl
      intro i _
      simp only [at0_map_val g hg, hfb, at0_padTo]
    · simp only [tail, List.length_map, hbl]
      symm
      rw [← sum_subset (s₁ := range b.length) (s₂ := range L)]
      · apply sum_congr rfl
        intro i _
        simp only [at0_map_val g hg, hfb, hfs, at0_padTo, List.map_id]
      · intro i; simp; omega
      · intro i _ hi
        rw [at0_map_val g hg, hfb, at0_padTo, at0_of_le b i (by simpa using hi), hg]
        simp
  have k1 := key val hF.zero
  have k2 := key (fun v => |val v|) hval0
  rw [hy, ← k1]
  refine hd.trans (le_of_eq ?_)
  rw [← k2]
  simp only [abs_mul]

/-- C78, the hypothesis on `dot`: a dot product of `n` terms with rounded products, summed in any order with every partial sum rounded, has a relative
error of at most `(1 + ε)^n - 1`.  The orders include left to right, pairwise and blocked summation. -/
theorem C78_dot_any_order (fl : ℝ → ℝ) (ε : ℝ) (hε : 0 ≤ ε) (hfl : ∀ x, |fl x - x| ≤ ε * |x|) (a b : ℕ → ℝ) (n : ℕ) (t : SumTree)
    (ht : t.leaves.Perm (List.range n)) :
    |t.eval fl (fun i => fl (a i * b i)) - ∑ i ∈ range n, a i * b i| ≤ ((1 + ε) ^ n - 1) * ∑ i ∈ range n, |a i * b i| := by
  have hn : t.leaves.length = n := by simpa using ht.length_eq
  have hpos := SumTree.leaves_pos t
  have h := SumTree.error fl ε hε hfl (fun i => fl (a i * b i)) t
  have hsum : ∀ g : ℕ → ℝ, (t.leaves.map g).sum = ∑ i ∈ range n, g i := by
    intro g
    rw [(ht.map g).sum_eq]; rfl
  rw [hsum, hsum, hn] at h
  set T := ∑ i ∈ range n, |a i * b i| with hT
  have hT0 : 0 ≤ T := sum_nonneg fun i _ => abs_nonneg _
  have h1 : |∑ i ∈ range n, fl (a i * b i) - ∑ i ∈ range n, a i * b i| ≤ ε * T := by
    rw [← sum_sub_distrib, hT, mul_sum]
    exact (abs_sum_le_sum_abs _ _).trans (sum_le_sum fun i _ => hfl _)
  have h2 : ∑ i ∈ range n, |fl (a i * b i)| ≤ (1 + ε) * T := by
    rw [hT, mul_sum]
    refine sum_le_sum fun i _ => ?_
    have := hfl (a i * b i)
    have h' := abs_sub_abs_le_abs_sub (fl (a i * b i)) (a i * b i)
    linarith
  have hp : (1 : ℝ) ≤ (1 + ε) ^ (n - 1) := one_le_pow₀ (by linarith)
  have h3 := mul_le_mul_of_nonneg_left h2 (sub_nonneg.mpr hp)
  have h4 : (1 + ε) ^ n = (1 + ε) ^ (n - 1) * (1 + ε) := by rw [← pow_succ]; congr 1; omega
  have h5 := abs_add_le (t.eval fl (fun i => fl (a i * b i)) - ∑ i ∈ range n, fl (a i * b i)) (∑ i ∈ range n, fl (a i * b i) - ∑ i ∈ range n, a i * b i)
  rw [sub_add_sub_cancel] at h5
  rw [h4]
  nlinarith

/-- Three terms summed from the left. -/
example : (SumTree.node (.node (.leaf 0) (.leaf 1)) (.leaf 2)).leaves.Perm (List.range 3) := by decide

/-- A relative rounding that is not exact: truncation of the last bits can be modelled by scaling. -/
example : ∀ x : ℝ, |x * (1 - 1 / 1024) - x| ≤ 1 / 1024 * |x| := by
  intro x
  rw [show x * (1 - 1 / 1024) - x = -(1 / 1024) * x by ring, abs_mul]
  norm_num

/-- Fixed point numbers with step `1/256`; products and dot products are rounded down. -/
structure Fixed where
  raw : ℤ
  deriving DecidableEq

instance : Zero Fixed := ⟨⟨0⟩⟩
instance : Add Fixed := ⟨fun x y => ⟨x.raw + y.raw⟩⟩
instance : Mul Fixed := ⟨fun x y => ⟨x.raw * y.raw / 256⟩⟩
instance : Dot Fixed := ⟨fun a b => ⟨dot (a.map Fixed.raw) (b.map Fixed.raw) / 256⟩⟩

/-- The value of a fixed point number. -/
noncomputable def Fixed.val (x : Fixed) : ℝ := (x.raw : ℝ) / 256

/-- Fixed point arithmetic satisfies the hypotheses with `u = 0` and `η = 1/256`, for every length. -/
theorem fixed_rounded (n : ℕ) : Rounded Fixed.val n 0 (1 / 256) := by
  have hdiv : ∀ z : ℤ, |((z / 256 : ℤ) : ℝ) / 256 - (z : ℝ) / 65536| ≤ 1 / 256 := by
    intro z
    have h1 := Int.emod_add_mul_ediv z 256
    have h2 := Int.emod_nonneg z (show (256 : ℤ) ≠ 0 by norm_num)
    have h3 := Int.emod_lt_of_pos z (show (0 : ℤ) < 256 by norm_num)
    have e : (z : ℝ) = ((z % 256 : ℤ) : ℝ) + 256 * ((z / 256 : ℤ) : ℝ) := by exact_mod_cast h1.symm
    have h2' : (0 : ℝ) ≤ ((z % 256 : ℤ) : ℝ) := by exact_mod_cast h2
    have h3' : ((z % 256 : ℤ) : ℝ) < 256 := by exact_mod_cast h3
    rw [abs_le]
    constructor <;> rw [e] <;> nlinarith
  refine ⟨?_, ?_, ?_, ?_⟩
  · show ((0 : ℤ) : ℝ) / 256 = 0
    simp
  · intro x y
    show |((x.raw + y.raw : ℤ) : ℝ) / 256 - ((x.raw : ℝ) / 256 + (y.raw : ℝ) / 256)| ≤ _
    rw [show (((x.raw + y.raw : ℤ) : ℝ) / 256 - ((x.raw : ℝ) / 256 + (y.raw : ℝ) / 256)) = 0 by push_cast; ring]
    norm_num
  · intro x y
    have := hdiv (x.raw * y.raw)
    show |((x.raw * y.raw / 256 : ℤ) : ℝ) / 256 - (x.raw : ℝ) / 256 * ((y.raw : ℝ) / 256)| ≤ _
    rw [show (x.raw : ℝ) / 256 * ((y.raw : ℝ) / 256) = ((x.raw * y.raw : ℤ) : ℝ) / 65536 by push_cast; ring]
    linarith
  · intro a b ha hb
    have := hdiv (dot (a.map Fixed.raw) (b.map Fixed.raw))
    have hr : ∀ (l : List Fixed) (i : ℕ), Fixed.val (at0 l i) = ((at0 (l.map Fixed.raw) i : ℤ) : ℝ) / 256 := by
      intro l i
      by_cases hi : i < l.length
      · rw [at0_of_lt _ _ hi, at0_of_lt _ _ (by simpa using hi)]; simp [Fixed.val]
      · rw [at0_of_le _ _ (by omega), at0_of_le _ _ (by simpa using hi)]
        show ((0 : ℤ) : ℝ) / 256 = _
        simp
    show |((dot (a.map Fixed.raw) (b.map Fixed.raw) / 256 : ℤ) : ℝ) / 256 - _| ≤ _
    have e : ∑ i ∈ range n, Fixed.val (at0 a i) * Fixed.val (at0 b i) = ((dot (a.map Fixed.raw) (b.map Fixed.raw) : ℤ) : ℝ) / 65536 := by
      rw [dot_eq_sum, List.length_map, ha]
      push_cast
      rw [sum_div]
      apply sum_congr rfl
      intro i _
      rw [hr, hr]; ring
    rw [e]
    linarith

/-- `C78_fir_rounding` for fixed point: the mean of two samples on `[1, 1/256]`; the second output is `257/512` exactly and is rounded down to `256/512`. -/
example : ∃ f y f', Fir.new id [(⟨128⟩ : Fixed), ⟨128⟩] none = .ok f ∧ f.filter [⟨256⟩, ⟨1⟩] = (.ok y, f') ∧ y = [⟨128⟩, ⟨128⟩] :=
  ⟨_, _, _, rfl, rfl, by decide⟩

/-- The rounding error of IirFilter grows at most with the square of `G`, the sum of the magnitudes of the impulse response of `1 / (1 - a)` over the length of the
signal. -/
theorem iir_rounding (a b : List ℝ) (hab : a.length = b.length) (ha : a ≠ []) (h0 : at0 a 0 = 0) :
    ∃ K c : ℝ, 0 ≤ K ∧ 0 < c ∧ ∀ G : ℝ, 1 ≤ G → ∀ (F : Type) [Add F] [Mul F] [Dot F] [Zero F] (val : F → ℝ) (u η : ℝ), Rounded val a.length u η → 0 ≤ u →
      u * G ≤ c → 0 ≤ η → η ≤ 1 →
      ∀ f : Iir F, f.cast = id → f.a.map val = a → f.b.map val = b → f.s.length = a.length →
      ∀ (x : List F) (M : ℝ), x ≠ [] → (∀ n ≤ x.length, ∑ k ∈ range n, |PowerSeries.coeff k (recip a)| ≤ G) → (∀ v ∈ x, |val v| ≤ M) → (∀ v ∈ f.s, |val v| ≤ M) →
        ∃ y f' z g', f.filter x = (.ok y, f') ∧ (Iir.mk id a b (f.s.map val)).filter (x.map val) = (.ok z, g') ∧
          y.length = x.length ∧ z.length = x.length ∧ ∀ n < x.length, |val (at0 y n) - at0 z n| ≤ K * G ^ 2 * (u * M + η * (1 + M)) := by
  set A := ∑ i ∈ range a.length, |at0 a i| with hA
  have hA0 : 0 ≤ A := sum_nonneg fun i _ => abs_nonneg _
  set B : ℕ → ℝ := fun i => |at0 a i * at0 b 0| + |at0 b i| with hB
  have hB0 : ∀ i, 0 ≤ B i := fun i => by positivity
  set Q := ∑ i ∈ range a.length, B i with hQ
  have hQ0 : 0 ≤ Q := sum_nonneg fun i _ => hB0 i
  set L : ℝ := (a.length : ℝ) with hL
  have hL0 : 0 ≤ L := Nat.cast_nonneg _
  set k2 := 2 * ((1 + 3 * A) * (1 + A) + 3) with hk2
  have hk20 : 0 ≤ k2 := by positivity
  refine ⟨7 * Q * (1 + A + k2) + 7 * Q * k2 + 6 * L * (1 + A + k2) + 6 * L * k2 + 1 + Q * k2, min 1 (1 / (6 * A + 1)), by positivity, by positivity, ?_⟩
  intro G hG1 F _ _ _ _ val u η hF hu hu0 hη hη1 f hc hfa hfb hfs x M hx hG hxM hsM
  set K1 := G * (1 + A) with hK1
  have hK10 : 0 ≤ K1 := by positivity
  set K2 := 2 * G * ((1 + 3 * A) * K1 + 3) with hK2
  have hK20 : 0 ≤ K2 := by positivity
  have hu1 : u ≤ 1 := (le_mul_of_one_le_right hu hG1).trans (hu0.trans (min_le_left _ _))
  have hsmall : 6 * u * A * G ≤ 1 := by
    have h := hu0.trans (min_le_right _ _)
    rw [le_div_iff₀ (by positivity)] at h
    nlinarith [mul_nonneg hu (zero_le_one.trans hG1)]
  have hM : 0 ≤ M := by
    obtain ⟨v, hv⟩ := List.exists_mem_of_ne_nil x hx
    exact (abs_nonneg _).trans (hxM v hv)
  have hal : f.a.length = a.length := by rw [← hfa]; simp
  have hbl : f.b.length = a.length := by rw [hab, ← hfb]; simp
  have hpos : 0 < a.length := List.length_pos_of_ne_nil ha
  have hwf : f.WF := ⟨by rw [hal, hbl], by rw [hbl, hfs], by omega⟩
  set g : Iir ℝ := Iir.mk id a b (f.s.map val) with hg
  have hgwf : g.WF := ⟨hab, by simp [hg, hfs, hab], by simp [hg]; omega⟩
  have hxl : x.length ≠ 0 := by simpa using hx
  obtain ⟨y, f', r1, r2, r3⟩ := Iir.run_iter x f hwf
  obtain ⟨z, g', t1, t2, t3⟩ := Iir.run_iter (x.map val) g hgwf
  refine ⟨y, f', z, g', by simp [Iir.filter, hxl, r1], by simp [Iir.filter, hxl, t1], r2, by simpa using t2, ?_⟩
  have hz := hF.zero
  set p : ℕ → ℕ → ℝ := fun k i => at0 (g.iter (x.map val) k).s i with hp
  set q : ℕ → ℕ → ℝ := fun k i => val (at0 (f.iter x k).s i) with hq
  have hav : ∀ i, val (at0 f.a i) = at0 a i := fun i => by rw [← hfa, at0_map_val val hz]
  have hbv : ∀ i, val (at0 f.b i) = at0 b i := fun i => by rw [← hfb, at0_map_val val hz]
  have hmem : ∀ (l : List F), (∀ v ∈ l, |val v| ≤ M) → ∀ i, |val (at0 l i)| ≤ M := by
    intro l hl i
    by_cases hi : i < l.length
    · rw [at0_of_lt _ _ hi]; exact hl _ (List.getElem_mem hi)
    · rw [at0_of_le _ _ (by omega), hz, abs_zero]; exact hM
  have ent := fun k hk => Iir.iter_entries f hwf hc x k hk
  have ent' := fun k (hk : k < x.length) => Iir.iter_entries g hgwf rfl (x.map val) k (by simpa using hk)
  have hlen : ∀ k, (f.iter x k).s.length = a.length := by
    intro k
    obtain ⟨w1, w2, w3, w4⟩ := Iir.iter_wf f hwf x k
    rw [← w1.2.1, w3, hbl]
  have hcore := perturbed_recursion a h0 G hG1 A hA x.length hG (fun k => val (at0 x k)) p q
    (fun k => val (at0 (f.iter x k).s 0 + dot f.a (f.iter x k).s)) M u η hM hu hη hsmall (fun k _ => hmem x hxM k)
    (fun i _ => by
      show |at0 (f.s.map val) i| ≤ M
      rw [at0_map_val val hz]; exact hmem _ hsM i)
    (fun i => by
      show val (at0 f.s i) = at0 (f.s.map val) i
      rw [at0_map_val val hz])
    (fun k hk => by
      show at0 (g.iter (x.map val) (k + 1)).s 0 = _
      rw [(ent' k hk).1, at0_map_val val hz])
    (fun k hk hl => by
      show at0 (g.iter (x.map val) (k + 1)).s 1 = _
      rw [(ent' k hk).2.1 hl, dot_eq_sum]; rfl)
    (fun k hk i hi => (ent' k hk).2.2 i hi)
    (fun k hk => by
      show val (at0 (f.iter x (k + 1)).s 0) = _
      rw [(ent k hk).1])
    (fun k hk hl => by
      show val (at0 (f.iter x (k + 1)).s 1) = _
      rw [(ent k hk).2.1 (by rw [hal]; exact hl)])
    (fun k hk i hi => by
      show val (at0 (f.iter x (k + 1)).s (i + 2)) = _
      rw [(ent k hk).2.2 i (by rw [hal]; exact hi)])
    (fun k hk => by
      have hd := hF.dot f.a (f.iter x k).s hal (hlen k)
      have hadd := hF.add (at0 (f.iter x k).s 0) (dot f.a (f.iter x k).s)
      simp only [hav] at hd
      set d := val (dot f.a (f.iter x k).s)
      set S := ∑ i ∈ range a.length, at0 a i * val (at0 (f.iter x k).s i) with hS
      set T := ∑ i ∈ range a.length, |at0 a i * val (at0 (f.iter x k).s i)| with hT
      exact two_roundings _ _ _ S T u η hu hu1 hη (abs_sum_le_sum_abs _ _) hadd hd)
  set W := G * (1 + A) * M with hW
  set E := 2 * G * (u * (1 + 3 * A) * W + 3 * η) with hE
  have hW0 : 0 ≤ W := by positivity
  have hE0 : 0 ≤ E := by positivity
  intro n hn
  obtain ⟨w1, w2, w3, w4⟩ := Iir.iter_wf f hwf x (n + 1)
  have hy : at0 y n = dot f.comb (f.iter x (n + 1)).s := by
    unfold at0
    rw [List.getD_eq_getElem?_getD, r3 n hn, hc]; rfl
  have hzz : at0 z n = dot g.comb (g.iter (x.map val) (n + 1)).s := by
    unfold at0
    rw [List.getD_eq_getElem?_getD, t3 n (by simpa using hn)]; rfl
  -- combined coefficients
  have hcl : f.comb.length = a.length := by rw [Iir.comb_length f hwf, hbl]
  have hgc : ∀ i, at0 g.comb i = at0 a i * at0 b 0 + at0 b i := by
    intro i
    rcases hb : b with _ | ⟨b0, bt⟩
    · rw [hb] at hab; simp at hab; exact absurd hab ha
    · simp only [hg, Iir.comb, hb]
      rw [at0_zipWith_add _ _ (by rw [← hb, ← hab]; simp), at0_map_mul]; rfl
  have hcomb : ∀ i < a.length, |val (at0 f.comb i) - at0 g.comb i| ≤ 3 * u * B i + 3 * η := by
    intro i hi
    have hfc : at0 f.comb i = at0 f.a i * at0 f.b 0 + at0 f.b i := by
      rcases hb : f.b with _ | ⟨b0, bt⟩
      · rw [hb] at hbl; simp at hbl; omega
      · have hbt : (b0 :: bt).length = a.length := by rw [← hb, hbl]
        simp only [Iir.comb, hb]
        rw [at0_of_lt _ _ (by simp only [List.length_zipWith, List.length_map, hal, hbt]; omega), at0_of_lt f.a _ (by omega),
          at0_of_lt (b0 :: bt) i (by omega)]
        simp only [List.getElem_zipWith, List.getElem_map]
        rfl
    rw [hgc, hfc]
    have hm := hF.mul (at0 f.a i) (at0 f.b 0)
    have had := hF.add (at0 f.a i * at0 f.b 0) (at0 f.b i)
    rw [hav, hbv] at hm
    rw [hbv] at had
    set m := val (at0 f.a i * at0 f.b 0)
    set P := at0 a i * at0 b 0
    rw [add_comm m, abs_sub_comm, abs_sub_comm, add_comm |m|] at had
    have h := two_roundings _ _ _ P |P| u η hu hu1 hη le_rfl had hm
    rw [add_comm P]
    have hb0 : 0 ≤ u * |at0 b i| := mul_nonneg hu (abs_nonneg _)
    simp only [hB]
    linarith
  -- the output
  have hdot := hF.dot f.comb (f.iter x (n + 1)).s hcl (hlen _)
  rw [hy, hzz, dot_eq_sum, Iir.comb_length g hgwf, show g.b.length = a.length from hab.symm]
  have hcs := fun i hi => hcore (n + 1) (by omega) i hi
  have hqb : ∀ i < a.length, |val (at0 (f.iter x (n + 1)).s i)| ≤ W + E := by
    intro i hi
    have h1 := (hcs i hi).1
    have h2 := (hcs i hi).2
    have h3 := abs_sub_abs_le_abs_sub (val (at0 (f.iter x (n + 1)).s i)) (at0 (g.iter (x.map val) (n + 1)).s i)
    simp only [hp, hq] at h1 h2
    linarith
  have hcb : ∀ i < a.length, |at0 g.comb i| ≤ B i := fun i _ => by rw [hgc]; exact abs_add_le _ _
  have hcb' : ∀ i < a.length, |val (at0 f.comb i)| ≤ 4 * B i + 3 * η := by
    intro i hi
    have h1 := hcomb i hi
    have h2 := hcb i hi
    have h3 := abs_sub_abs_le_abs_sub (val (at0 f.comb i)) (at0 g.comb i)
    have h4 : u * B i ≤ B i := mul_le_of_le_one_left (hB0 i) hu1
    linarith
  have hsumη : ∀ c d : ℝ, ∑ i ∈ range a.length, (c * B i + d) = c * Q + L * d := by
    intro c d
    rw [sum_add_distrib, ← mul_sum]; simp [hQ, hL]
  have s1 : ∑ i ∈ range a.length, |val (at0 f.comb i) * val (at0 (f.iter x (n + 1)).s i)| ≤ (4 * Q + L * (3 * η)) * (W + E) := by
    rw [← hsumη, sum_mul]
    refine sum_le_sum fun i hi => ?_
    rw [abs_mul]
    exact mul_le_mul (hcb' i (mem_range.mp hi)) (hqb i (mem_range.mp hi)) (abs_nonneg _) (by have := hB0 i; positivity)
  have s2 : |∑ i ∈ range a.length, val (at0 f.comb i) * val (at0 (f.iter x (n + 1)).s i) -
      ∑ i ∈ range a.length, at0 g.comb i * at0 (g.iter (x.map val) (n + 1)).s i| ≤ (3 * u * Q + L * (3 * η)) * (W + E) + Q * E := by
    rw [← hsumη, sum_mul, hQ, sum_mul, ← sum_add_distrib, ← sum_sub_distrib]
    refine (abs_sum_le_sum_abs _ _).trans (sum_le_sum fun i hi => ?_)
    have hi' := mem_range.mp hi
    rw [show val (at0 f.comb i) * val (at0 (f.iter x (n + 1)).s i) - at0 g.comb i * at0 (g.iter (x.map val) (n + 1)).s i =
      (val (at0 f.comb i) - at0 g.comb i) * val (at0 (f.iter x (n + 1)).s i) +
      at0 g.comb i * (val (at0 (f.iter x (n + 1)).s i) - at0 (g.iter (x.map val) (n + 1)).s i) by ring]
    refine (abs_add_le _ _).trans ?_
    rw [abs_mul, abs_mul]
    exact add_le_add (mul_le_mul (hcomb i hi') (hqb i hi') (abs_nonneg _) (by have := hB0 i; positivity))
      (mul_le_mul (hcb i hi') (hcs i hi').2 (abs_nonneg _) (hB0 i))
  have s3 := abs_add_le (val (dot f.comb (f.iter x (n + 1)).s) - ∑ i ∈ range a.length, val (at0 f.comb i) * val (at0 (f.iter x (n + 1)).s i))
    (∑ i ∈ range a.length, val (at0 f.comb i) * val (at0 (f.iter x (n + 1)).s i) -
      ∑ i ∈ range a.length, at0 g.comb i * at0 (g.iter (x.map val) (n + 1)).s i)
  rw [sub_add_sub_cancel] at s3
  have s4 := mul_le_mul_of_nonneg_left s1 hu
  have hc := output_constants K1 K2 Q L M u η E hK10 hK20 hQ0 hL0 hM hu hu1 hη hη1 hE0 (first_order G A M u η (by linarith) hA0 hM hu hη)
  rw [show K1 * M = W from rfl] at hc
  have hfin := growth_constants G A Q L hG1 hA0 hQ0 hL0
  have := mul_le_mul_of_nonneg_right hfin (show 0 ≤ u * M + η * (1 + M) by positivity)
  linarith

/-- C79.  A stable IirFilter does not accumulate rounding errors: there are `K` and `u₀ > 0`, depending on the coefficients alone, such that in every
arithmetic with relative error `u ≤ u₀` and absolute error `η ≤ 1`, on every signal bounded by `M` and from every state bounded by `M`, every output sample
differs from the exact one by at most `K (u M + η (1 + M))`, however long the signal. -/
theorem C79_iir_rounding (a b : List ℝ) (hab : a.length = b.length) (ha : a ≠ []) (h0 : at0 a 0 = 0) (hst : Stable a) :
    ∃ K u₀ : ℝ, 0 < u₀ ∧ ∀ (F : Type) [Add F] [Mul F] [Dot F] [Zero F] (val : F → ℝ) (u η : ℝ), Rounded val a.length u η → 0 ≤ u → u ≤ u₀ → 0 ≤ η → η ≤ 1 →
      ∀ f : Iir F, f.cast = id → f.a.map val = a → f.b.map val = b → f.s.length = a.length →
      ∀ (x : List F) (M : ℝ), x ≠ [] → (∀ v ∈ x, |val v| ≤ M) → (∀ v ∈ f.s, |val v| ≤ M) →
        ∃ y f' z g', f.filter x = (.ok y, f') ∧ (Iir.mk id a b (f.s.map val)).filter (x.map val) = (.ok z, g') ∧
          y.length = x.length ∧ z.length = x.length ∧ ∀ n < x.length, |val (at0 y n) - at0 z n| ≤ K * (u * M + η * (1 + M)) := by
  obtain ⟨K, c, -, hc, h⟩ := iir_rounding a b hab ha h0
  obtain ⟨G', hG'⟩ := stable_sumBound a h0 ha hst
  set G := max G' 1 with hGd
  have hG1 : 1 ≤ G := le_max_right _ _
  have hG : ∀ n, ∑ k ∈ range n, |PowerSeries.coeff k (recip a)| ≤ G := by
    intro n
    refine le_trans (le_of_eq ?_) ((hG' n).trans (le_max_left _ _))
    apply sum_congr rfl
    intro i _
    rw [PowerSeries.coeff_map]; simp
  refine ⟨K * G ^ 2, c / G, by positivity, ?_⟩
  intro F _ _ _ _ val u η hF hu hu0 hη hη1 f hc hfa hfb hfs x M hx hxM hsM
  exact h G hG1 F val u η hF hu (by rwa [le_div_iff₀ (by linarith)] at hu0) hη hη1 f hc hfa hfb hfs x M hx (fun n _ => hG n) hxM hsM

/-- C79 for fixed point numbers and `y_n = y_{n-1}/2 + x_n`: the error stays below one bound for all signals of every length. -/
example : ∃ K : ℝ, ∀ (x : List Fixed), x ≠ [] → (∀ v ∈ x, |v.val| ≤ 1) → ∃ y f' z g',
    (Iir.mk id [⟨0⟩, ⟨128⟩] [⟨256⟩, ⟨0⟩] [⟨0⟩, ⟨0⟩] : Iir Fixed).filter x = (.ok y, f') ∧
    (Iir.mk id [0, 1 / 2] [1, 0] [0, 0] : Iir ℝ).filter (x.map Fixed.val) = (.ok z, g') ∧ ∀ n < x.length, |(at0 y n).val - at0 z n| ≤ K := by
  obtain ⟨K, u₀, hu₀, h⟩ := C79_iir_rounding [0, 1 / 2] [1, 0] rfl (by simp) rfl (by
    intro z hz
    simp [Pole, at0] at hz
    rw [hz]
    norm_num)
  refine ⟨K * (0 * 1 + 1 / 256 * (1 + 1)), fun x hx hx1 => ?_⟩
  obtain ⟨y, f', z, g', h1, h2, -, -, h5⟩ := h Fixed Fixed.val 0 (1 / 256) (fixed_rounded 2) le_rfl hu₀.le (by norm_num) (by norm_num)
    (Iir.mk id [⟨0⟩, ⟨128⟩] [⟨256⟩, ⟨0⟩] [⟨0⟩, ⟨0⟩]) rfl (by simp [Fixed.val]; norm_num) (by simp [Fixed.val]) rfl x 1 hx hx1 (by simp [Fixed.val])
  exact ⟨y, f', z, g', h1, by simpa [Fixed.val] using h2, h5⟩

/-- C79 needs the stability: an accumulator whose dot products are off by `η` drifts without bound, here on the zero signal. -/
theorem C79_accumulator_drifts (η : ℝ) (hη : 0 < η) (K : ℝ) :
    ∃ D : Dot ℝ, @Rounded ℝ _ _ D _ id 2 0 η ∧ ∃ x : List ℝ, (∀ v ∈ x, v = 0) ∧ ∃ y f' z g',
      @Iir.filter ℝ _ _ D (Iir.mk id [0, 1] [1, 0] [0, 0]) x = (.ok y, f') ∧ @Iir.filter ℝ _ _ ringDot (Iir.mk id [0, 1] [1, 0] [0, 0]) x = (.ok z, g') ∧
      ∃ n < x.length, K < |at0 y n - at0 z n| := by
  refine ⟨⟨fun a b => dot a b + η⟩, ?_, ?_⟩
  · refine @Rounded.mk ℝ _ _ ⟨fun a b => dot a b + η⟩ _ id 2 0 η rfl (fun x y => by simp [hη.le]) (fun x y => by simp [hη.le]) ?_
    intro a b ha _
    show |dot a b + η - _| ≤ _
    rw [dot_eq_sum, ha]
    simp [abs_of_pos hη]
  · -- the state after `k` samples holds `k η`
    have run : ∀ (k : ℕ) (c : ℝ), ∃ y f', @runLoop (Iir ℝ) ℝ ℝ (@Iir.step ℝ _ _ ⟨fun a b => dot a b + η⟩) (Iir.mk id [0, 1] [1, 0] [0, c]) (List.replicate k 0) = (.ok y, f') ∧
        y.length = k ∧ ∀ n < k, at0 y n = c + (n + 2) * η := by
      intro k
      induction k with
      | zero => intro c; exact ⟨[], _, rfl, rfl, by simp⟩
      | succ k ih =>
        intro c
        have hst : @Iir.step ℝ _ _ ⟨fun a b => dot a b + η⟩ (Iir.mk id [0, 1] [1, 0] [0, c]) 0 = (.ok (c + 2 * η), Iir.mk id [0, 1] [1, 0] [0, c + η]) := by
          have h := @Iir.step_wf ℝ _ _ ⟨fun a b => dot a b + η⟩ (Iir.mk id [0, 1] [1, 0] [0, c]) ⟨rfl, rfl, by simp⟩ 0
          rw [h]
          simp [Iir.mem, Iir.comb, dot, List.zipWith]
          ring
        obtain ⟨y, f', h1, h2, h3⟩ := ih (c + η)
        refine ⟨(c + 2 * η) :: y, f', ?_, by simp [h2], ?_⟩
        · rw [List.replicate_succ, runLoop_cons_ok _ _ _ _ _ _ hst]
          simp [thenRun, h1]
        · intro n hn
          rcases n with _ | n
          · simp [at0_cons_zero]
          · rw [at0_cons_succ, h3 n (by omega)]; push_cast; ring
    have run0 : ∀ k : ℕ, ∃ z g', runLoop Iir.step (Iir.mk id [0, 1] [1, 0] [0, 0] : Iir ℝ) (List.replicate k 0) = (.ok z, g') ∧ ∀ n, at0 z n = 0 := by
      intro k
      induction k with
      | zero => exact ⟨[], _, rfl, fun n => at0_nil n⟩
      | succ k ih =>
        have hst : Iir.step (Iir.mk id [0, 1] [1, 0] [0, 0] : Iir ℝ) 0 = (.ok 0, Iir.mk id [0, 1] [1, 0] [0, 0]) := by
          rw [Iir.step_wf _ ⟨rfl, rfl, by simp⟩]
          simp [Iir.mem, Iir.comb, dot]
        obtain ⟨z, g', h1, h3⟩ := ih
        refine ⟨0 :: z, g', ?_, ?_⟩
        · rw [List.replicate_succ, runLoop_cons_ok _ _ _ _ _ _ hst]
          simp [thenRun, h1]
        · intro n
          rcases n with _ | n
          · rfl
          · rw [at0_cons_succ, h3 n]
    obtain ⟨N, hN⟩ := exists_nat_gt (K / η)
    obtain ⟨y, f', y1, y2, y3⟩ := run (N + 1) 0
    obtain ⟨z, g', z1, z3⟩ := run0 (N + 1)
    refine ⟨List.replicate (N + 1) 0, fun v hv => List.eq_of_mem_replicate hv, y, f', z, g', ?_, ?_, N, by simp, ?_⟩
    · simp [Iir.filter, y1]
    · simp only [Iir.filter, List.length_replicate, Nat.succ_ne_zero, if_false]; exact z1
    · rw [y3 N (by omega), z3]
      rw [div_lt_iff₀ hη] at hN
      have : 0 ≤ (N : ℝ) := Nat.cast_nonneg _
      rw [zero_add, sub_zero, abs_of_nonneg (by positivity)]
      nlinarith

/-- A rounding of a thousandth. -/
example := C79_accumulator_drifts (1 / 1000) (by norm_num) 1000000

end Verif.Props
