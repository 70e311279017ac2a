import Verif.Props.Diversity
import Mathlib.Analysis.InnerProductSpace.PiL2
import Mathlib.Tactic.Linarith
import Mathlib.Tactic.Positivity
import Mathlib.Tactic.FieldSimp

/- How far the diversity of a model falls short of that of the best choice among its observations (C132). -/

namespace Verif.Props

open Spec

/-- Rows which are far from each other and from the last two have the distance of the last two as their minimum. -/
private theorem isMin_far (d : List ℝ → List ℝ → WithTop ℝ) (far : List (List ℝ)) (a b : List ℝ) (hp : far.Pairwise fun x y => d a b ≤ d x y)
    (hf : ∀ f ∈ far, d a b ≤ d f a ∧ d a b ≤ d f b) : IsMinDistance d (far ++ [a, b]) (d a b) := by
  have hpw : (far ++ [a, b]).Pairwise fun x y => d a b ≤ d x y := by
    rw [List.pairwise_append]
    refine ⟨hp, by simp, ?_⟩
    intro f hfm r hr
    simp only [List.mem_cons, List.not_mem_nil, or_false] at hr
    rcases hr with rfl | rfl
    · exact (hf f hfm).1
    · exact (hf f hfm).2
  refine ⟨?_, Or.inr ⟨far.length, far.length + 1, a, b, by omega, by simp, by simp, rfl⟩⟩
  intro i j x y hij hx hy
  obtain ⟨hi, rfl⟩ := List.getElem?_eq_some_iff.mp hx
  obtain ⟨hj, rfl⟩ := List.getElem?_eq_some_iff.mp hy
  exact List.pairwise_iff_getElem.mp hpw i j hi hj hij

private theorem loop_cols (xs : List (List ℝ)) : ∀ (m : Diversity) (cc : ℕ), (div.loop xs (m, cc)).2.1.cols = m.cols := by
  induction xs with
  | nil => intro m cc; rfl
  | cons x xs ih =>
    intro m cc
    rw [div.loop_cons]
    rcases hst : div.step m cc x with ⟨m', cc'⟩
    simp only
    rw [ih]
    have := congrArg (fun r => r.1.cols) hst
    simp only at this
    rw [← this]
    unfold div.step
    simp only
    split_ifs <;> rfl

private theorem fit_cols (m m' : Diversity) (x : List (List ℝ)) (cols : ℕ) (y : List (WithTop ℝ)) (h : m.fit x cols = (.ok y, m')) : m'.cols = cols := by
  unfold Diversity.fit at h
  split at h
  · simp at h
  · simp only at h
    split at h
    · simp at h
    · rename_i hne
      rw [← (Prod.mk.inj h).2, loop_cols]
      exact (not_not.mp hne).symm

/-- The rows held after the first `k + 2` points of the drift. -/
private def driftRows (far : List (List ℝ)) (p : ℕ → List ℝ) (k : ℕ) : List (List ℝ) :=
  far ++ if k % 2 = 0 then [p k, p (k + 1)] else [p (k + 1), p k]

/-- A sequence of points at increasing distances from one to the next, each no farther from the next but one, leads a model along: it keeps the
last two. -/
private theorem drift (d : List ℝ → List ℝ → WithTop ℝ) (cols : ℕ) (hc : cols ≠ 0) (far : List (List ℝ)) (p : ℕ → List ℝ) (B : WithTop ℝ)
    (hsym : ∀ j k, d (p j) (p k) = d (p k) (p j)) (hpos : 0 ≤ d (p 0) (p 1))
    (h1 : ∀ k, d (p k) (p (k + 1)) < d (p (k + 1)) (p (k + 2))) (h2 : ∀ k, d (p k) (p (k + 2)) ≤ d (p k) (p (k + 1))) (hB : ∀ k, d (p k) (p (k + 1)) ≤ B)
    (hf : far.Pairwise fun x y => B ≤ d x y) (hfp : ∀ f ∈ far, ∀ k, B ≤ d f (p k)) (hof : ∀ f ∈ far, Observation cols f) (hop : ∀ k, Observation cols (p k)) (n : ℕ) :
    ∃ m0 y m, Diversity.new (some d) ((far.length + 1 : ℕ) : ℤ) = .ok m0 ∧ m0.fit (far ++ (List.range (n + 2)).map p) cols = (.ok y, m) ∧
      DivReach d (far.length + 1) (far ++ (List.range (n + 2)).map p) m ∧ m.cols = cols ∧ m.s = driftRows far p n ∧
      m.diversity ≤ d (p n) (p (n + 1)) ∧ (0 < n → m.diversity = d (p n) (p (n + 1))) := by
  have hobs : ∀ n, ∀ r ∈ far ++ (List.range n).map p, Observation cols r := by
    intro n r hr
    rcases List.mem_append.mp hr with hr | hr
    · exact hof r hr
    · obtain ⟨k, -, rfl⟩ := List.mem_map.mp hr
      exact hop k
  induction n with
  | zero =>
    obtain ⟨m0, y, m, e1, e2, hr, hcols⟩ := div_fit_ok d (far.length + 1) (far ++ (List.range 2).map p) cols (by simp) hc (hobs 2)
    obtain ⟨r1, -, r3⟩ := C51_rows _ _ _ _ hr
    have hs := r3 (by simp)
    rw [List.take_of_length_le (by simp [r1])] at hs
    have hd := C50_filling _ _ _ _ hr (by simp)
    refine ⟨m0, y, m, e1, e2, hr, hcols, ?_, by rw [hd]; exact hpos, by omega⟩
    rw [hs]
    simp [driftRows, List.range_succ]
  | succ n ih =>
    obtain ⟨m0, y, m, e1, e2, hr, hcols, hs, hle, -⟩ := ih
    obtain ⟨m', f1, g⟩ := C51_greedy_partial d _ _ m hr (by simp) (p (n + 2)) cols hcols.symm
    have hlist : far ++ (List.range (n + 1 + 2)).map p = (far ++ (List.range (n + 2)).map p) ++ [p (n + 2)] := by
      rw [show n + 1 + 2 = n + 2 + 1 by omega, List.range_succ, List.map_append, List.append_assoc]; rfl
    have hreach := DivReach.fit _ [p (n + 2)] cols m m' _ hr (by simpa using hop (n + 2)) f1
    have hbatch := C51_batches d _ [] m0 (DivReach.new m0 e1) _ [p (n + 2)] cols (hobs _) (by simp) m m' y _ e2 f1
    have hcols' : m'.cols = cols := fit_cols m m' _ cols _ f1
    -- the minimum after the older of the two last points is replaced
    have hnew : ∀ a b, (a = p (n + 1) ∧ b = p (n + 2)) ∨ (a = p (n + 2) ∧ b = p (n + 1)) → IsMinDistance d (far ++ [a, b]) (d (p (n + 1)) (p (n + 2))) := by
      intro a b hab
      have e : d a b = d (p (n + 1)) (p (n + 2)) := by
        rcases hab with ⟨rfl, rfl⟩ | ⟨rfl, rfl⟩
        · rfl
        · exact hsym _ _
      rw [← e]
      have hb : d a b ≤ B := by rw [e]; exact hB (n + 1)
      apply isMin_far
      · exact hf.imp fun h => hb.trans h
      · intro f hfm
        rcases hab with ⟨rfl, rfl⟩ | ⟨rfl, rfl⟩ <;> exact ⟨hb.trans (hfp f hfm _), hb.trans (hfp f hfm _)⟩
    rw [hlist]
    refine ⟨m0, _, m', e1, hbatch, hreach, hcols', ?_⟩
    suffices h : m'.s = driftRows far p (n + 1) ∧ m'.diversity = d (p (n + 1)) (p (n + 1 + 1)) by
      exact ⟨h.1, h.2.le, fun _ => h.2⟩
    rw [hs] at g
    unfold driftRows at g ⊢
    by_cases hpar : n % 2 = 0
    · rw [if_pos hpar] at g
      rw [if_neg (by omega)]
      have hset : (far ++ [p n, p (n + 1)]).set far.length (p (n + 2)) = far ++ [p (n + 2), p (n + 1)] := by simp
      have hbest := hnew (p (n + 2)) (p (n + 1)) (Or.inr ⟨rfl, rfl⟩)
      rcases g with ⟨-, g⟩ | ⟨k, hk, g1, -, g2, g3, -⟩
      · have := g far.length (by omega) _ (by rw [hset]; exact hbest)
        exact absurd (this.trans hle) (not_le.mpr (h1 n))
      · have hge := g3 far.length (by omega) _ (by rw [hset]; exact hbest)
        have hkk : k = far.length := by
          rcases Nat.lt_trichotomy k far.length with hlt | heq | hgt
          · have hs' : m'.s = far.set k (p (n + 2)) ++ [p n, p (n + 1)] := by rw [g1, List.set_append_left _ _ hlt]
            have := g2.1 far.length (far.length + 1) (p n) (p (n + 1)) (by omega) (by rw [hs', List.getElem?_append_right (by simp)]; simp)
              (by rw [hs', List.getElem?_append_right (by simp)]; simp)
            exact absurd (hge.trans this) (not_le.mpr (h1 n))
          · exact heq
          · have hk1 : k = far.length + 1 := by omega
            have hs' : m'.s = far ++ [p n, p (n + 2)] := by rw [g1, hk1]; simp
            have := g2.1 far.length (far.length + 1) (p n) (p (n + 2)) (by omega) (by rw [hs']; simp) (by rw [hs']; simp)
            exact absurd ((hge.trans this).trans (h2 n)) (not_le.mpr (h1 n))
        rw [g1, hkk, hset] at g2
        exact ⟨by rw [g1, hkk, hset], g2.unique hbest⟩
    · rw [if_neg hpar] at g
      rw [if_pos (by omega)]
      have hset : (far ++ [p (n + 1), p n]).set (far.length + 1) (p (n + 2)) = far ++ [p (n + 1), p (n + 2)] := by simp
      have hbest := hnew (p (n + 1)) (p (n + 2)) (Or.inl ⟨rfl, rfl⟩)
      rcases g with ⟨-, g⟩ | ⟨k, hk, g1, -, g2, g3, -⟩
      · have := g (far.length + 1) (by omega) _ (by rw [hset]; exact hbest)
        exact absurd (this.trans hle) (not_le.mpr (h1 n))
      · have hge := g3 (far.length + 1) (by omega) _ (by rw [hset]; exact hbest)
        have hkk : k = far.length + 1 := by
          rcases Nat.lt_trichotomy k far.length with hlt | heq | hgt
          · have hs' : m'.s = far.set k (p (n + 2)) ++ [p (n + 1), p n] := by rw [g1, List.set_append_left _ _ hlt]
            have := g2.1 far.length (far.length + 1) (p (n + 1)) (p n) (by omega) (by rw [hs', List.getElem?_append_right (by simp)]; simp)
              (by rw [hs', List.getElem?_append_right (by simp)]; simp)
            rw [hsym] at this
            exact absurd (hge.trans this) (not_le.mpr (h1 n))
          · have hs' : m'.s = far ++ [p (n + 2), p n] := by rw [g1, heq]; simp
            have := g2.1 far.length (far.length + 1) (p (n + 2)) (p n) (by omega) (by rw [hs']; simp) (by rw [hs']; simp)
            rw [hsym] at this
            exact absurd ((hge.trans this).trans (h2 n)) (not_le.mpr (h1 n))
          · omega
        rw [g1, hkk, hset] at g2
        exact ⟨by rw [g1, hkk, hset], g2.unique hbest⟩

/-- The distance of rows of two numbers. -/
private noncomputable def style2 : DivStyle → ℝ → ℝ → ℝ
  | .chebyshev, u, v => max u v
  | .euclidean, u, v => Real.sqrt (u ^ 2 + v ^ 2)
  | .geometric, u, v => Real.sqrt (u * v)
  | .manhattan, u, v => u + v

private theorem distance_two (style : DivStyle) (a b c e : ℝ) : style.distance [a, b] [c, e] = ((style2 style |a - c| |b - e| : ℝ) : WithTop ℝ) := by
  cases style
  · simp only [DivStyle.distance, div.gap, style2, List.zipWith_cons_cons, List.zipWith_nil_left, List.foldl_cons, List.foldl_nil]
    rw [max_eq_right (abs_nonneg (a - c))]
  · simp [DivStyle.distance, div.gap, style2]
  · simp [DivStyle.distance, div.gap, style2, Real.sqrt_eq_rpow]
  · simp [DivStyle.distance, div.gap, style2]

private theorem style2_bounds (style : DivStyle) (u v : ℝ) (hu : 0 ≤ u) (hv : 0 ≤ v) : Real.sqrt (u * v) ≤ style2 style u v ∧ style2 style u v ≤ u + v := by
  have hg : Real.sqrt (u * v) ≤ max u v := by
    rw [Real.sqrt_le_left (le_max_of_le_left hu)]
    nlinarith [le_max_left u v, le_max_right u v]
  have hm : max u v ≤ u + v := max_le (by linarith) (by linarith)
  cases style
  · exact ⟨hg, hm⟩
  · refine ⟨Real.sqrt_le_sqrt (by nlinarith [sq_nonneg (u - v)]), ?_⟩
    rw [style2, Real.sqrt_le_left (by linarith)]
    nlinarith
  · exact ⟨le_refl _, hg.trans hm⟩
  · exact ⟨hg.trans hm, le_refl _⟩

/-- The points of the drift: they go up by one each time, from side to side. -/
noncomputable def zigzag (k : ℕ) : List ℝ := [(-1) ^ k * (3 - 1 / ((k : ℝ) + 1)), k]

/-- The rows which do not take part in the drift. -/
def outlier (L : ℝ) (j : ℕ) : List ℝ := [-(L * ((j : ℝ) + 1)), -(L * ((j : ℝ) + 1))]

private theorem zig_step (style : DivStyle) (k : ℕ) :
    style.distance (zigzag k) (zigzag (k + 1)) = ((style2 style (6 - 1 / ((k : ℝ) + 1) - 1 / ((k : ℝ) + 2)) 1 : ℝ) : WithTop ℝ) := by
  have h1 : (0 : ℝ) < 1 / ((k : ℝ) + 1) ∧ 1 / ((k : ℝ) + 1) ≤ 1 := ⟨by positivity, by rw [div_le_one (by positivity)]; linarith [k.cast_nonneg (α := ℝ)]⟩
  have h2 : (0 : ℝ) < 1 / ((k : ℝ) + 2) ∧ 1 / ((k : ℝ) + 2) ≤ 1 := ⟨by positivity, by rw [div_le_one (by positivity)]; linarith [k.cast_nonneg (α := ℝ)]⟩
  rw [zigzag, zigzag, distance_two]
  push_cast
  rw [show (k : ℝ) + 1 + 1 = k + 2 by ring, show (k : ℝ) - (k + 1) = -1 by ring, abs_neg, abs_one, pow_succ,
    show (-1 : ℝ) ^ k * (3 - 1 / (k + 1)) - (-1) ^ k * -1 * (3 - 1 / (k + 2)) = (-1) ^ k * (6 - 1 / (k + 1) - 1 / (k + 2)) by ring,
    abs_mul, abs_pow, abs_neg, abs_one, one_pow, one_mul, abs_of_nonneg (by linarith [h1.2, h2.2])]

private theorem style2_strict (style : DivStyle) (u v : ℝ) (hu : 1 ≤ u) (h : u < v) : style2 style u 1 < style2 style v 1 := by
  cases style
  · simp only [style2]
    rw [max_eq_left hu, max_eq_left (hu.trans h.le)]
    exact h
  · exact Real.sqrt_lt_sqrt (by positivity) (by nlinarith)
  · exact Real.sqrt_lt_sqrt (by linarith) (by linarith)
  · simp only [style2]; linarith

private theorem zig_next (style : DivStyle) (k : ℕ) : style.distance (zigzag k) (zigzag (k + 1)) < style.distance (zigzag (k + 1)) (zigzag (k + 2)) := by
  rw [zig_step, zig_step, WithTop.coe_lt_coe]
  have h1 : 1 / ((k : ℝ) + 1) ≤ 1 := by rw [div_le_one (by positivity)]; linarith [k.cast_nonneg (α := ℝ)]
  have h2 : 1 / ((k : ℝ) + 2) ≤ 1 := by rw [div_le_one (by positivity)]; linarith [k.cast_nonneg (α := ℝ)]
  have h3 : 1 / ((k : ℝ) + 3) < 1 / ((k : ℝ) + 1) := one_div_lt_one_div_of_lt (by positivity) (by linarith)
  push_cast
  rw [show (k : ℝ) + 1 + 1 = k + 2 by ring, show (k : ℝ) + 1 + 2 = k + 3 by ring]
  exact style2_strict style _ _ (by linarith) (by linarith)

private theorem zig_second (style : DivStyle) (k : ℕ) : style.distance (zigzag k) (zigzag (k + 2)) ≤ style.distance (zigzag k) (zigzag (k + 1)) := by
  rw [zig_step, zigzag, zigzag, distance_two, WithTop.coe_le_coe]
  have h1 : 1 / ((k : ℝ) + 1) ≤ 1 := by rw [div_le_one (by positivity)]; linarith [k.cast_nonneg (α := ℝ)]
  have h2 : 1 / ((k : ℝ) + 2) ≤ 1 / 2 := one_div_le_one_div_of_le (by norm_num) (by linarith [k.cast_nonneg (α := ℝ)])
  have h3 : 1 / ((k : ℝ) + 3) < 1 / ((k : ℝ) + 1) := one_div_lt_one_div_of_lt (by positivity) (by linarith)
  have h4 : 1 / ((k : ℝ) + 1) - 1 / ((k : ℝ) + 3) ≤ 2 / 3 := by
    rw [div_sub_div _ _ (by positivity) (by positivity), div_le_div_iff₀ (by positivity) (by norm_num)]
    nlinarith [k.cast_nonneg (α := ℝ), sq_nonneg (k : ℝ)]
  push_cast
  rw [show (k : ℝ) + 2 + 1 = k + 3 by ring, show (k : ℝ) - (k + 2) = -2 by ring, abs_neg, abs_two,
    show (-1 : ℝ) ^ (k + 2) = (-1) ^ k by rw [pow_add]; norm_num,
    show (-1 : ℝ) ^ k * (3 - 1 / (k + 1)) - (-1) ^ k * (3 - 1 / (k + 3)) = (-1) ^ k * -(1 / (k + 1) - 1 / (k + 3)) by ring,
    abs_mul, abs_pow, abs_neg, abs_neg, abs_one, one_pow, one_mul, abs_of_pos (by linarith)]
  set w := 1 / ((k : ℝ) + 1) - 1 / ((k : ℝ) + 3) with hw
  have hw0 : 0 < w := by linarith
  have hz : (4 : ℝ) ≤ 6 - 1 / ((k : ℝ) + 1) - 1 / ((k : ℝ) + 2) := by linarith
  set z := 6 - 1 / ((k : ℝ) + 1) - 1 / ((k : ℝ) + 2) with hzz
  cases style
  · simp only [style2]
    exact max_le (by rw [le_max_iff]; left; linarith) (by rw [le_max_iff]; left; linarith)
  · exact Real.sqrt_le_sqrt (by nlinarith)
  · exact Real.sqrt_le_sqrt (by nlinarith)
  · simp only [style2]; linarith

private theorem zig_bound (style : DivStyle) (k : ℕ) : 0 < style.distance (zigzag k) (zigzag (k + 1)) ∧ style.distance (zigzag k) (zigzag (k + 1)) ≤ (7 : ℝ) := by
  rw [zig_step]
  have h1 : 1 / ((k : ℝ) + 1) ≤ 1 := by rw [div_le_one (by positivity)]; linarith [k.cast_nonneg (α := ℝ)]
  have h2 : 1 / ((k : ℝ) + 2) ≤ 1 := by rw [div_le_one (by positivity)]; linarith [k.cast_nonneg (α := ℝ)]
  have p1 : 0 < 1 / ((k : ℝ) + 1) := by positivity
  have p2 : 0 < 1 / ((k : ℝ) + 2) := by positivity
  obtain ⟨b1, b2⟩ := style2_bounds style (6 - 1 / ((k : ℝ) + 1) - 1 / ((k : ℝ) + 2)) 1 (by linarith) (by norm_num)
  refine ⟨WithTop.coe_pos.mpr (lt_of_lt_of_le (Real.sqrt_pos.mpr (by linarith)) b1), WithTop.coe_le_coe.mpr (by linarith)⟩

private theorem zig_symm (style : DivStyle) (j k : ℕ) : style.distance (zigzag j) (zigzag k) = style.distance (zigzag k) (zigzag j) :=
  (C50_distances style (zigzag j) (zigzag k) rfl (by simp [zigzag])).1

private theorem negative_not_vacant (v : ℝ) (h : v ≤ 1000) : ¬ NearLargest v := by
  rw [← div.vacant_iff]
  unfold div.vacant
  have hf : (2 : ℝ) ^ 20 ≤ div.fmax := by
    unfold div.fmax
    have h1 : (1 : ℝ) ≤ 2 - 1 / 2 ^ 52 := by norm_num
    have h2 : (2 : ℝ) ^ 20 ≤ 2 ^ 1023 := pow_le_pow_right₀ (by norm_num) (by norm_num)
    calc (2 : ℝ) ^ 20 ≤ 2 ^ 1023 := h2
      _ = 1 * 2 ^ 1023 := (one_mul _).symm
      _ ≤ _ := mul_le_mul_of_nonneg_right h1 (by positivity)
  generalize div.fmax = f at hf
  have hf' : (1048576 : ℝ) ≤ f := by norm_num at hf; exact hf
  rw [abs_of_neg (by linarith), abs_of_pos (by linarith)]
  norm_num
  linarith

private theorem zig_side (k : ℕ) : |(-1 : ℝ) ^ k * (3 - 1 / ((k : ℝ) + 1))| ≤ 3 := by
  have h1 : 1 / ((k : ℝ) + 1) ≤ 1 := by rw [div_le_one (by positivity)]; linarith [k.cast_nonneg (α := ℝ)]
  have p1 : 0 < 1 / ((k : ℝ) + 1) := by positivity
  rw [abs_mul, abs_pow, abs_neg, abs_one, one_pow, one_mul, abs_of_pos (by linarith)]
  linarith

private theorem zig_observation (k : ℕ) : Observation 2 (zigzag k) :=
  ⟨rfl, negative_not_vacant _ (by have := abs_le.mp (zig_side k); simp only [zigzag, List.getD_cons_zero]; linarith [this.2])⟩

private theorem outlier_observation (L : ℝ) (hL : 0 ≤ L) (j : ℕ) : Observation 2 (outlier L j) :=
  ⟨rfl, negative_not_vacant _ (by simp only [outlier, List.getD_cons_zero]; have : 0 ≤ L * ((j : ℝ) + 1) := by positivity
                                  linarith)⟩

private theorem square_le_style2 (style : DivStyle) (B u v : ℝ) (hB : 0 ≤ B) (hu : B ≤ u) (hv : B ≤ v) : B ≤ style2 style u v := by
  refine le_trans ?_ (style2_bounds style u v (hB.trans hu) (hB.trans hv)).1
  rw [Real.le_sqrt hB (by nlinarith)]
  nlinarith

private theorem outlier_zig (style : DivStyle) (B : ℝ) (hB : 0 ≤ B) (j k : ℕ) : (B : WithTop ℝ) ≤ style.distance (outlier (B + 3) j) (zigzag k) := by
  rw [outlier, zigzag, distance_two, WithTop.coe_le_coe]
  have hj : B + 3 ≤ (B + 3) * ((j : ℝ) + 1) := by nlinarith [j.cast_nonneg (α := ℝ)]
  have hs := abs_le.mp (zig_side k)
  apply square_le_style2 style B _ _ hB
  · rw [le_abs]; right; linarith [hs.1]
  · rw [le_abs]; right; linarith [k.cast_nonneg (α := ℝ)]

private theorem outlier_outlier (style : DivStyle) (B : ℝ) (hB : 0 ≤ B) (i j : ℕ) (hij : i < j) :
    (B : WithTop ℝ) ≤ style.distance (outlier (B + 3) i) (outlier (B + 3) j) := by
  rw [outlier, outlier, distance_two, WithTop.coe_le_coe]
  have hj : (i : ℝ) + 1 ≤ j := by exact_mod_cast hij
  have : B ≤ |-((B + 3) * ((i : ℝ) + 1)) - -((B + 3) * ((j : ℝ) + 1))| := by
    rw [le_abs]; left; nlinarith
  exact square_le_style2 style B _ _ hB this this

/-- C132: the diversity which a model ends with is no fixed fraction of the diversity which its observations admit: for each style, each order from
one up and each factor there are observations of which as many as the model has rows are more than that factor farther apart. -/
theorem C132_unbounded (style : DivStyle) (order : ℕ) (ho : 1 ≤ order) (R : ℝ) :
    ∃ (xs best : List (List ℝ)) (m0 m : Diversity) (y : List (WithTop ℝ)) (D : ℝ) (w : WithTop ℝ), Diversity.new (some style.distance) order = .ok m0 ∧
      (∀ r ∈ xs, Observation 2 r) ∧ m0.fit xs 2 = (.ok y, m) ∧ m.diversity = D ∧ 0 < D ∧
      best.Sublist xs ∧ best.length = m.s.length ∧ IsMinDistance style.distance best w ∧ ((R * D : ℝ) : WithTop ℝ) < w := by
  obtain ⟨N, rfl⟩ : ∃ N, order = N + 1 := ⟨order - 1, by omega⟩
  set B : ℝ := 7 * |R| + 8 with hB
  have hB0 : 0 ≤ B := by positivity
  set far := (List.range N).map (outlier (B + 3)) with hfar
  have hflen : far.length = N := by simp [hfar]
  have hfp : ∀ f ∈ far, ∀ k, (B : WithTop ℝ) ≤ style.distance f (zigzag k) := by
    intro f hf k
    obtain ⟨j, -, rfl⟩ := List.mem_map.mp hf
    exact outlier_zig style B hB0 j k
  have hff : far.Pairwise fun x y => (B : WithTop ℝ) ≤ style.distance x y := by
    rw [hfar, List.pairwise_map]
    exact List.pairwise_lt_range.imp fun {i j} hij => outlier_outlier style B hB0 i j hij
  have hof : ∀ f ∈ far, Observation 2 f := by
    intro f hf
    obtain ⟨j, -, rfl⟩ := List.mem_map.mp hf
    exact outlier_observation _ (by linarith) j
  obtain ⟨n, hn⟩ := exists_nat_ge (B ^ 2)
  obtain ⟨m0, y, m, e1, e2, hr, -, hs, -, hd⟩ := drift style.distance 2 (by norm_num) far zigzag (B : WithTop ℝ) (zig_symm style) (zig_bound style 0).1.le (zig_next style)
    (zig_second style) (fun k => (zig_bound style k).2.trans (WithTop.coe_le_coe.mpr (by linarith [abs_nonneg R]))) hff hfp hof zig_observation (2 * n + 1)
  have hd := hd (by omega)
  obtain ⟨z1, z2⟩ := zig_bound style (2 * n + 1)
  rw [← hd] at z1 z2
  obtain ⟨D, hD⟩ := WithTop.ne_top_iff_exists.mp (ne_top_of_le_ne_top WithTop.coe_ne_top z2)
  rw [← hD] at z1 z2
  have hD0 : 0 < D := WithTop.coe_pos.mp z1
  have hD7 : D ≤ 7 := WithTop.coe_le_coe.mp z2
  have hRD : R * D < B := by nlinarith [le_abs_self R, abs_nonneg R]
  have hend : (B : WithTop ℝ) ≤ style.distance (zigzag 0) (zigzag (2 * n + 1)) := by
    rw [zigzag, zigzag, distance_two, WithTop.coe_le_coe]
    refine le_trans ?_ (style2_bounds style _ _ (abs_nonneg _) (abs_nonneg _)).1
    have hp : 0 < 1 / (((2 * n + 1 : ℕ) : ℝ) + 1) ∧ 1 / (((2 * n + 1 : ℕ) : ℝ) + 1) ≤ 1 :=
      ⟨by positivity, by rw [div_le_one (by positivity)]; linarith [(2 * n + 1 : ℕ).cast_nonneg (α := ℝ)]⟩
    have hodd : (-1 : ℝ) ^ (2 * n + 1) = -1 := by rw [pow_succ, pow_mul]; norm_num
    have hx : (1 : ℝ) ≤ |(-1) ^ 0 * (3 - 1 / (((0 : ℕ) : ℝ) + 1)) - (-1) ^ (2 * n + 1) * (3 - 1 / (((2 * n + 1 : ℕ) : ℝ) + 1))| := by
      rw [hodd, le_abs]; left; norm_num only [Nat.cast_zero, pow_zero, zero_add, div_one]; linarith [hp.2]
    have hy : B ^ 2 ≤ |(((0 : ℕ) : ℝ)) - ((2 * n + 1 : ℕ) : ℝ)| := by
      rw [le_abs]; right; push_cast; linarith [n.cast_nonneg (α := ℝ)]
    rw [Real.le_sqrt hB0 (by positivity)]
    calc B ^ 2 = 1 * B ^ 2 := (one_mul _).symm
      _ ≤ _ := mul_le_mul hx hy (sq_nonneg B) (abs_nonneg _)
  have hmin : ∃ w, IsMinDistance style.distance (far ++ [zigzag 0, zigzag (2 * n + 1)]) w := ⟨_, div.least_spec _ _⟩
  obtain ⟨w, hw⟩ := hmin
  refine ⟨_, far ++ [zigzag 0, zigzag (2 * n + 1)], m0, m, y, D, w, by rw [hflen] at e1; exact e1, ?_, e2, hD.symm, hD0, ?_, ?_, hw, ?_⟩
  · intro r hr
    rcases List.mem_append.mp hr with hr | hr
    · exact hof r hr
    · obtain ⟨k, -, rfl⟩ := List.mem_map.mp hr
      exact zig_observation k
  · apply List.Sublist.append (List.Sublist.refl _)
    have : ([0, 2 * n + 1] : List ℕ).Sublist (List.range (2 * n + 1 + 2)) := by
      rw [List.range_succ, List.range_succ, List.append_assoc]
      have h0 : ([0] : List ℕ).Sublist (List.range (2 * n + 1)) := List.singleton_sublist.mpr (by simp)
      exact h0.append (List.Sublist.cons_cons _ (by simp))
    simpa using this.map zigzag
  · rw [hs]; unfold driftRows; split_ifs <;> simp
  · rcases hw.2 with rfl | ⟨i, j, a, b, hij, ha, hb, rfl⟩
    · exact WithTop.coe_lt_top _
    · refine lt_of_lt_of_le (WithTop.coe_lt_coe.mpr hRD) ?_
      have hpw : (far ++ [zigzag 0, zigzag (2 * n + 1)]).Pairwise fun x y => (B : WithTop ℝ) ≤ style.distance x y := by
        rw [List.pairwise_append]
        refine ⟨hff, by simpa using hend, ?_⟩
        intro f hfm r hr
        simp only [List.mem_cons, List.not_mem_nil, or_false] at hr
        rcases hr with rfl | rfl <;> exact hfp f hfm _
      obtain ⟨hi, rfl⟩ := List.getElem?_eq_some_iff.mp ha
      obtain ⟨hj, rfl⟩ := List.getElem?_eq_some_iff.mp hb
      exact List.pairwise_iff_getElem.mp hpw i j hi hj hij

/-- Five rows, as in the example of the documentation: there are observations of which five are more than a hundred times farther apart. -/
example : ∃ (xs best : List (List ℝ)) (m0 m : Diversity) (y : List (WithTop ℝ)) (D : ℝ) (w : WithTop ℝ), Diversity.new (some DivStyle.euclidean.distance) 4 = .ok m0 ∧
    (∀ r ∈ xs, Observation 2 r) ∧ m0.fit xs 2 = (.ok y, m) ∧ m.diversity = D ∧ 0 < D ∧
    best.Sublist xs ∧ best.length = m.s.length ∧ IsMinDistance DivStyle.euclidean.distance best w ∧ ((100 * D : ℝ) : WithTop ℝ) < w :=
  C132_unbounded .euclidean 4 (by norm_num) 100

/-- Two rows: what holds of the first two observations, and is kept by each of the three things which may happen to a further one, holds at the end. -/
private theorem two_rows (d : List ℝ → List ℝ → WithTop ℝ) (cols : ℕ) (hc : cols ≠ 0) (a b : List ℝ) (I : List (List ℝ) → List ℝ → List ℝ → WithTop ℝ → Prop)
    (h0 : I [a, b] a b 0) (hstep : ∀ obs u v D x, I obs u v D → Observation cols x → (d u x ≤ D → d x v ≤ D → I (obs ++ [x]) u v D) ∧
      (D < d x v → d u x ≤ d x v → I (obs ++ [x]) x v (d x v)) ∧ (D < d u x → d x v ≤ d u x → I (obs ++ [x]) u x (d u x)))
    (xs : List (List ℝ)) (ho : ∀ r ∈ a :: b :: xs, Observation cols r) :
    ∃ m0 y m u v, Diversity.new (some d) 1 = .ok m0 ∧ m0.fit (a :: b :: xs) cols = (.ok y, m) ∧ DivReach d 1 (a :: b :: xs) m ∧ m.s = [u, v] ∧
      I (a :: b :: xs) u v m.diversity := by
  induction xs using List.reverseRecOn with
  | nil =>
    obtain ⟨m0, y, m, e1, e2, hr, hcols⟩ := div_fit_ok d 1 [a, b] cols (by simp) hc ho
    obtain ⟨r1, -, r3⟩ := C51_rows _ _ _ _ hr
    have hs := r3 (by simp)
    rw [List.take_of_length_le (by simp [r1])] at hs
    have hd := C50_filling _ _ _ _ hr (by simp)
    exact ⟨m0, y, m, a, b, e1, e2, hr, hs, by rw [hd]; exact h0⟩
  | append_singleton xs x ih =>
    have hx : Observation cols x := ho x (by simp)
    have ho' : ∀ r ∈ a :: b :: xs, Observation cols r := fun r hr => ho r (by rw [← List.cons_append, ← List.cons_append]; exact List.mem_append_left _ hr)
    obtain ⟨m0, y, m, u, v, e1, e2, hr, hs, hI⟩ := ih ho'
    have hcols := fit_cols _ _ _ _ _ e2
    obtain ⟨m', f1, g⟩ := C51_greedy_partial d _ _ m hr (by simp) x cols hcols.symm
    have hreach := DivReach.fit _ [x] cols m m' _ hr (by simpa using hx) f1
    have hbatch := C51_batches d _ [] m0 (DivReach.new m0 e1) _ [x] cols ho' (by simp) m m' y _ e2 f1
    obtain ⟨s1, s2, s3⟩ := hstep _ _ _ _ x hI hx
    have p0 : IsMinDistance d ([u, v].set 0 x) (d x v) := isMinDistance_pair d x v
    have p1 : IsMinDistance d ([u, v].set 1 x) (d u x) := isMinDistance_pair d u x
    rw [hs] at g
    rcases g with ⟨rfl, g⟩ | ⟨k, hk, g1, g2, g3, g4, -⟩
    · exact ⟨m0, _, m', u, v, e1, hbatch, hreach, hs, s1 (g 1 (by omega) _ p1) (g 0 (by omega) _ p0)⟩
    · interval_cases k
      · rw [g1] at g3
        have e := g3.unique p0
        rw [e] at g2
        refine ⟨m0, _, m', x, v, e1, hbatch, hreach, g1, ?_⟩
        rw [e]
        exact s2 g2 (by rw [← e]; exact g4 1 (by omega) _ p1)
      · rw [g1] at g3
        have e := g3.unique p1
        rw [e] at g2
        refine ⟨m0, _, m', u, x, e1, hbatch, hreach, g1, ?_⟩
        rw [e]
        exact s3 g2 (by rw [← e]; exact g4 0 (by omega) _ p0)

/-- Of single numbers the distance is the absolute difference, in each style. -/
theorem distance_one (style : DivStyle) (a b : ℝ) : style.distance [a] [b] = ((|a - b| : ℝ) : WithTop ℝ) := by
  cases style <;> simp [DivStyle.distance, div.gap, Real.sqrt_sq_eq_abs]

/-- How far inside the interval of the first two numbers the third lies: its distance from the nearer one, or zero outside. -/
noncomputable def inset (a b c : ℝ) : ℝ := max 0 (min (c - min a b) (max a b - c))

private theorem line_base (a b c : ℝ) (h : |a - c| ≤ |c - b|) :
    max (max a b) c - min (min a b) c ≤ |c - b| + inset a b c ∧ inset a b c ≤ |c - b| := by
  unfold inset
  rcases abs_cases (a - c) with ⟨e1, _⟩ | ⟨e1, _⟩ <;> rcases abs_cases (c - b) with ⟨e2, _⟩ | ⟨e2, _⟩ <;> rw [e1, e2] at h <;> rw [e2] <;>
    rcases le_total a b with hab | hab <;> simp only [max_eq_right hab, max_eq_left hab, min_eq_left hab, min_eq_right hab] <;>
    simp only [max_def, min_def] <;> split_ifs <;> constructor <;> linarith

private theorem line_step (p q L H x σ : ℝ) (hL : L ≤ p ∧ L ≤ q) (hH : p ≤ H ∧ q ≤ H) (h : H - L ≤ |p - q| + σ) (h1 : |p - q| < |x - q|) (h2 : |p - x| ≤ |x - q|) :
    max H x - min L x ≤ |x - q| + σ := by
  obtain ⟨a1, a2⟩ := hL
  obtain ⟨b1, b2⟩ := hH
  rcases abs_cases (p - q) with ⟨e1, _⟩ | ⟨e1, _⟩ <;> rcases abs_cases (x - q) with ⟨e2, _⟩ | ⟨e2, _⟩ <;> rcases abs_cases (p - x) with ⟨e3, _⟩ | ⟨e3, _⟩ <;>
    rw [e1] at h h1 <;> rw [e2] at h1 h2 ⊢ <;> rw [e3] at h2 <;> simp only [max_def, min_def] <;> split_ifs <;> linarith

/-- What holds of two rows of single numbers: before the third observation, and after it. -/
private def LineInv (a b : ℝ) (obs : List (List ℝ)) (u v : List ℝ) (D : WithTop ℝ) : Prop :=
  (obs = [[a], [b]] ∧ u = [a] ∧ v = [b] ∧ D = 0) ∨ ∃ t rest, obs = [a] :: [b] :: [t] :: rest ∧ ∃ p q L H : ℝ, u = [p] ∧ v = [q] ∧ D = ((|p - q| : ℝ) : WithTop ℝ) ∧
    (L ≤ p ∧ L ≤ q) ∧ (p ≤ H ∧ q ≤ H) ∧ H - L ≤ |p - q| + inset a b t ∧ inset a b t ≤ |p - q| ∧ [p] ∈ obs ∧ [q] ∈ obs ∧ ∀ z, [z] ∈ obs → L ≤ z ∧ z ≤ H

private theorem inset_comm (a b c : ℝ) : inset a b c = inset b a c := by
  unfold inset; rw [min_comm a b, max_comm a b]

private theorem line_inv (style : DivStyle) (a b : ℝ) (obs : List (List ℝ)) (u v : List ℝ) (D : WithTop ℝ) (x : List ℝ) (hI : LineInv a b obs u v D) (hx : Observation 1 x) :
    (style.distance u x ≤ D → style.distance x v ≤ D → LineInv a b (obs ++ [x]) u v D) ∧
      (D < style.distance x v → style.distance u x ≤ style.distance x v → LineInv a b (obs ++ [x]) x v (style.distance x v)) ∧
      (D < style.distance u x → style.distance x v ≤ style.distance u x → LineInv a b (obs ++ [x]) u x (style.distance u x)) := by
  obtain ⟨x, rfl⟩ := List.length_eq_one_iff.mp hx.1
  rcases hI with ⟨rfl, rfl, rfl, rfl⟩ | ⟨t, rest, ho, p, q, L, H, rfl, rfl, rfl, hL, hH, hr, hi, hp, hq, hz⟩
  · simp only [distance_one, WithTop.coe_le_coe]
    have hall : ∀ z : ℝ, [z] ∈ [[a], [b]] ++ [[x]] → min (min a b) x ≤ z ∧ z ≤ max (max a b) x := by
      intro z hz
      simp only [List.cons_append, List.nil_append, List.mem_cons, List.cons.injEq, and_true, List.not_mem_nil, or_false] at hz
      rcases hz with rfl | rfl | rfl <;> simp
    refine ⟨fun h1 h2 => ?_, fun _ h2 => ?_, fun _ h2 => ?_⟩
    · have h1 : |a - x| ≤ 0 := by exact_mod_cast h1
      have h2 : |x - b| ≤ 0 := by exact_mod_cast h2
      have e1 : a = x := by linarith [abs_eq_zero.mp (le_antisymm h1 (abs_nonneg _))]
      have e2 : x = b := by linarith [abs_eq_zero.mp (le_antisymm h2 (abs_nonneg _))]
      subst e2
      subst e1
      refine Or.inr ⟨a, [], rfl, a, a, a, a, rfl, rfl, by simp, ⟨le_refl _, le_refl _⟩, ⟨le_refl _, le_refl _⟩, ?_, ?_, by simp, by simp, ?_⟩
      · simp [inset]
      · simp [inset]
      · intro z hz
        simpa using hall z hz
    · obtain ⟨b1, b2⟩ := line_base a b x h2
      exact Or.inr ⟨x, [], rfl, x, b, _, _, rfl, rfl, rfl, ⟨min_le_right _ _, (min_le_left _ _).trans (min_le_right _ _)⟩,
        ⟨le_max_right _ _, (le_max_right _ _).trans (le_max_left _ _)⟩, b1, b2, by simp, by simp, hall⟩
    · have h2' : |b - x| ≤ |x - a| := by rwa [abs_sub_comm b x, abs_sub_comm x a]
      obtain ⟨b1, b2⟩ := line_base b a x h2'
      rw [inset_comm b a x, abs_sub_comm x a] at b1 b2
      rw [min_comm b a, max_comm b a] at b1
      exact Or.inr ⟨x, [], rfl, a, x, _, _, rfl, rfl, rfl, ⟨(min_le_left _ _).trans (min_le_left _ _), min_le_right _ _⟩,
        ⟨(le_max_left _ _).trans (le_max_left _ _), le_max_right _ _⟩, b1, b2, by simp, by simp, hall⟩
  · simp only [distance_one, WithTop.coe_le_coe, WithTop.coe_lt_coe]
    have ho' : obs ++ [[x]] = [a] :: [b] :: [t] :: (rest ++ [[x]]) := by rw [ho]; rfl
    have hall : ∀ z : ℝ, [z] ∈ obs ++ [[x]] → min L x ≤ z ∧ z ≤ max H x := by
      intro z hzm
      rcases List.mem_append.mp hzm with h | h
      · obtain ⟨h1, h2⟩ := hz z h
        exact ⟨(min_le_left _ _).trans h1, h2.trans (le_max_left _ _)⟩
      · have : z = x := by simpa using h
        rw [this]; simp
    have hp' : [p] ∈ obs ++ [[x]] := List.mem_append_left _ hp
    have hq' : [q] ∈ obs ++ [[x]] := List.mem_append_left _ hq
    refine ⟨fun h1 h2 => ?_, fun h1 h2 => ?_, fun h1 h2 => ?_⟩
    · refine Or.inr ⟨t, _, ho', p, q, L, H, rfl, rfl, rfl, hL, hH, hr, hi, hp', hq', ?_⟩
      have hLx : L ≤ x := by
        rcases abs_cases (p - q) with ⟨e, _⟩ | ⟨e, _⟩ <;> rw [e] at h1 h2 <;> have := abs_le.mp h1 <;> have := abs_le.mp h2 <;> linarith [hL.1, hL.2]
      have hxH : x ≤ H := by
        rcases abs_cases (p - q) with ⟨e, _⟩ | ⟨e, _⟩ <;> rw [e] at h1 h2 <;> have := abs_le.mp h1 <;> have := abs_le.mp h2 <;> linarith [hH.1, hH.2]
      intro z hzm
      have := hall z hzm
      rwa [min_eq_left hLx, max_eq_left hxH] at this
    · exact Or.inr ⟨t, _, ho', x, q, _, _, rfl, rfl, rfl, ⟨min_le_right _ _, (min_le_left _ _).trans hL.2⟩, ⟨le_max_right _ _, hH.2.trans (le_max_left _ _)⟩,
        line_step p q L H x _ hL hH hr h1 h2, hi.trans h1.le, by simp, hq', hall⟩
    · have h1' : |q - p| < |x - p| := by rwa [abs_sub_comm q p, abs_sub_comm x p]
      have h2' : |q - x| ≤ |x - p| := by rwa [abs_sub_comm q x, abs_sub_comm x p]
      have := line_step q p L H x _ hL.symm hH.symm (by rwa [abs_sub_comm q p]) h1' h2'
      rw [abs_sub_comm x p] at this
      exact Or.inr ⟨t, _, ho', p, x, _, _, rfl, rfl, rfl, ⟨(min_le_left _ _).trans hL.1, min_le_right _ _⟩, ⟨hH.1.trans (le_max_left _ _), le_max_right _ _⟩,
        this, hi.trans h1.le, hp', by simp, hall⟩

/-- C132: of single numbers, in each style, a model of order one ends with a diversity which falls short of the range of all its observations by no
more than the third lies inside the interval of the first two, and so is at least half of the range. -/
theorem C132_line (style : DivStyle) (a b c : ℝ) (zs : List ℝ) (ho : ∀ z ∈ a :: b :: c :: zs, ¬ NearLargest z) :
    ∃ (m0 m : Diversity) (y : List (WithTop ℝ)) (D : ℝ), Diversity.new (some style.distance) 1 = .ok m0 ∧
      m0.fit ((a :: b :: c :: zs).map fun z => [z]) 1 = (.ok y, m) ∧ m.diversity = D ∧ (∃ z ∈ a :: b :: c :: zs, ∃ w ∈ a :: b :: c :: zs, D = |z - w|) ∧
      ∀ z ∈ a :: b :: c :: zs, ∀ w ∈ a :: b :: c :: zs, |z - w| ≤ D + inset a b c ∧ |z - w| ≤ 2 * D := by
  obtain ⟨m0, y, m, u, v, e1, e2, hr, hs, hI⟩ := two_rows style.distance 1 (by norm_num) [a] [b] (LineInv a b) (Or.inl ⟨rfl, rfl, rfl, rfl⟩)
    (line_inv style a b) ((c :: zs).map fun z => [z]) (by
      intro r hr
      have : r ∈ (a :: b :: c :: zs).map fun z => [z] := hr
      obtain ⟨z, hz, rfl⟩ := List.mem_map.mp this
      exact ⟨rfl, ho z hz⟩)
  have hmem : ∀ z : ℝ, [z] ∈ [a] :: [b] :: (c :: zs).map (fun z => [z]) ↔ z ∈ a :: b :: c :: zs := by intro z; simp
  rcases hI with ⟨h, -⟩ | ⟨t, rest, h, p, q, L, H, -, -, hD, -, -, hr, hi, hp, hq, hz⟩
  · simp at h
  · have ht : t = c := by
      simp only [List.map_cons, List.cons.injEq, and_true, true_and] at h
      exact h.1.symm
    subst ht
    refine ⟨m0, m, y, |p - q|, e1, e2, hD, ⟨p, (hmem p).mp hp, q, (hmem q).mp hq, rfl⟩, ?_⟩
    intro z hzm w hwm
    have h1 := hz z ((hmem z).mpr hzm)
    have h2 := hz w ((hmem w).mpr hwm)
    have : |z - w| ≤ H - L := by rw [abs_le]; constructor <;> linarith [h1.1, h1.2, h2.1, h2.2]
    exact ⟨by linarith, by linarith⟩

/-- Of 0, 10 and 5 the diversity is half of the range; of 0, 5 and 10 it is all of the range. -/
example : inset 0 10 5 = 5 ∧ inset 0 5 10 = 0 ∧ ∀ z ∈ [(0 : ℝ), 10, 5], ¬ NearLargest z := by
  refine ⟨by norm_num [inset], by norm_num [inset], ?_⟩
  intro z hz
  simp only [List.mem_cons, List.not_mem_nil, or_false] at hz
  rcases hz with rfl | rfl | rfl <;> exact negative_not_vacant _ (by norm_num)

/-- The distances of the styles other than the geometric one are those of norms. -/
private noncomputable def normOf : DivStyle → List ℝ → List ℝ → ℝ
  | .chebyshev, x, y => (div.gap x y).foldl max 0
  | .euclidean, x, y => Real.sqrt ((div.gap x y).map (· ^ 2)).sum
  | .geometric, x, y => (div.gap x y).prod ^ (1 / (x.length : ℝ))
  | .manhattan, x, y => (div.gap x y).sum

private theorem distance_norm (style : DivStyle) (x y : List ℝ) : style.distance x y = ((normOf style x y : ℝ) : WithTop ℝ) := by cases style <;> rfl

private theorem foldl_max_le (l : List ℝ) : ∀ a c : ℝ, l.foldl max a ≤ c ↔ a ≤ c ∧ ∀ x ∈ l, x ≤ c := by
  induction l with
  | nil => intro a c; simp
  | cons x l ih => intro a c; simp only [List.foldl_cons, ih, max_le_iff, List.forall_mem_cons]; tauto

private theorem gap_ofFn {n : ℕ} (x y : Fin n → ℝ) : div.gap (List.ofFn x) (List.ofFn y) = List.ofFn fun i => |x i - y i| := by
  unfold div.gap
  apply List.ext_getElem <;> simp

/-- The triangle inequality of the Chebyshev, Euclidean and Manhattan distances. -/
theorem C132_triangle (style : DivStyle) (hs : style ≠ .geometric) (x y z : List ℝ) (h1 : x.length = y.length) (h2 : y.length = z.length) :
    style.distance x z ≤ style.distance x y + style.distance y z := by
  obtain ⟨n, x, rfl⟩ : ∃ n, ∃ f : Fin n → ℝ, x = List.ofFn f := ⟨x.length, x.get, by simp⟩
  obtain ⟨y, rfl⟩ : ∃ f : Fin n → ℝ, y = List.ofFn f := by
    have hl : y.length = n := by simpa using h1.symm
    subst hl
    exact ⟨y.get, by simp⟩
  obtain ⟨z, rfl⟩ : ∃ f : Fin n → ℝ, z = List.ofFn f := by
    have hl : z.length = n := by simpa using h2.symm
    subst hl
    exact ⟨z.get, by simp⟩
  rw [distance_norm, distance_norm, distance_norm, ← WithTop.coe_add, WithTop.coe_le_coe]
  cases style with
  | chebyshev =>
    simp only [normOf, gap_ofFn]
    rw [foldl_max_le]
    have n1 := (foldl_max_le (List.ofFn fun i => |x i - y i|) 0 _).mp (le_refl _)
    have n2 := (foldl_max_le (List.ofFn fun i => |y i - z i|) 0 _).mp (le_refl _)
    refine ⟨add_nonneg n1.1 n2.1, ?_⟩
    intro r hr
    obtain ⟨i, rfl⟩ := (List.mem_ofFn' _ _).mp hr
    exact (abs_sub_le (x i) (y i) (z i)).trans (add_le_add (n1.2 _ ((List.mem_ofFn' _ _).mpr ⟨i, rfl⟩)) (n2.2 _ ((List.mem_ofFn' _ _).mpr ⟨i, rfl⟩)))
  | euclidean =>
    simp only [normOf, gap_ofFn, List.map_ofFn, List.sum_ofFn, Function.comp_apply]
    have := dist_triangle (WithLp.toLp 2 x : EuclideanSpace ℝ (Fin n)) (WithLp.toLp 2 y) (WithLp.toLp 2 z)
    simpa only [EuclideanSpace.dist_eq, Real.dist_eq] using this
  | geometric => exact absurd rfl hs
  | manhattan =>
    simp only [normOf, gap_ofFn, List.sum_ofFn]
    rw [← Finset.sum_add_distrib]
    exact Finset.sum_le_sum fun i _ => abs_sub_le _ _ _

example := C132_triangle .euclidean (by decide) [0, 0] [3, 0] [3, 4] rfl rfl

/-- What holds of two rows under a distance which meets the triangle inequality. -/
private def GrowthInv (δ : List ℝ → List ℝ → ℝ) (cols : ℕ) (obs : List (List ℝ)) (u v : List ℝ) (D : WithTop ℝ) : Prop :=
  u.length = cols ∧ v.length = cols ∧ (∀ z ∈ obs, z.length = cols) ∧
    ((obs = [u, v] ∧ D = 0) ∨ (3 ≤ obs.length ∧ ∃ E : ℝ, D = (E : WithTop ℝ) ∧ 0 ≤ E ∧ δ u v ≤ E ∧
      ∀ z ∈ obs, δ z u ≤ ((obs.length : ℝ) - 1) * E ∧ δ z v ≤ ((obs.length : ℝ) - 1) * E))

private theorem growth_inv (δ : List ℝ → List ℝ → ℝ) (cols : ℕ) (h0 : ∀ x y, x.length = cols → y.length = cols → 0 ≤ δ x y ∧ δ x y = δ y x ∧ δ x x = 0)
    (ht : ∀ x y z, x.length = cols → y.length = cols → z.length = cols → δ x z ≤ δ x y + δ y z) (obs : List (List ℝ)) (u v : List ℝ) (D : WithTop ℝ) (x : List ℝ)
    (hI : GrowthInv δ cols obs u v D) (hx : x.length = cols) :
    ((δ u x : WithTop ℝ) ≤ D → (δ x v : WithTop ℝ) ≤ D → GrowthInv δ cols (obs ++ [x]) u v D) ∧
      (D < (δ x v : WithTop ℝ) → (δ u x : WithTop ℝ) ≤ (δ x v : WithTop ℝ) → GrowthInv δ cols (obs ++ [x]) x v (δ x v : WithTop ℝ)) ∧
      (D < (δ u x : WithTop ℝ) → (δ x v : WithTop ℝ) ≤ (δ u x : WithTop ℝ) → GrowthInv δ cols (obs ++ [x]) u x (δ u x : WithTop ℝ)) := by
  obtain ⟨hu, hv, hz, hI⟩ := hI
  have hz' : ∀ z ∈ obs ++ [x], z.length = cols := by
    intro z h
    rcases List.mem_append.mp h with h | h
    · exact hz z h
    · rw [List.mem_singleton.mp h]; exact hx
  have nux := h0 u x hu hx
  have nxv := h0 x v hx hv
  have nuv := h0 u v hu hv
  have nxu := h0 x u hx hu
  have nvx := h0 v x hv hx
  have nvu := h0 v u hv hu
  have tuv := ht u x v hu hx hv
  rcases hI with ⟨ho, rfl⟩ | ⟨h3, E, rfl, hE, hE2, hall⟩
  · subst ho
    have hmem : ∀ z ∈ [u, v] ++ [x], z = u ∨ z = v ∨ z = x := by intro z h; simpa using h
    refine ⟨fun h1 h2 => ?_, fun _ h2 => ?_, fun _ h2 => ?_⟩
    · have h1 : δ u x ≤ 0 := by exact_mod_cast h1
      have h2 : δ x v ≤ 0 := by exact_mod_cast h2
      refine ⟨hu, hv, hz', Or.inr ⟨by simp, 0, rfl, le_refl _, by linarith, ?_⟩⟩
      intro z h
      rcases hmem z h with rfl | rfl | rfl <;> constructor <;> linarith
    · have h2 : δ u x ≤ δ x v := by exact_mod_cast h2
      refine ⟨hx, hv, hz', Or.inr ⟨by simp, _, rfl, nxv.1, le_refl _, ?_⟩⟩
      intro z h
      norm_num
      rcases hmem z h with rfl | rfl | rfl <;> constructor <;> linarith
    · have h2 : δ x v ≤ δ u x := by exact_mod_cast h2
      refine ⟨hu, hx, hz', Or.inr ⟨by simp, _, rfl, nux.1, le_refl _, ?_⟩⟩
      intro z h
      norm_num
      rcases hmem z h with rfl | rfl | rfl <;> constructor <;> linarith
  · have hlen : ((obs ++ [x]).length : ℝ) - 1 = (obs.length : ℝ) - 1 + 1 := by simp
    have h3' : (3 : ℝ) ≤ obs.length := by exact_mod_cast h3
    have hN : 0 ≤ (obs.length : ℝ) - 1 := by linarith
    simp only [WithTop.coe_le_coe, WithTop.coe_lt_coe]
    refine ⟨fun h1 h2 => ?_, fun h1 h2 => ?_, fun h1 h2 => ?_⟩
    · refine ⟨hu, hv, hz', Or.inr ⟨by simp; omega, E, rfl, hE, hE2, ?_⟩⟩
      intro z h
      rw [hlen]
      rcases List.mem_append.mp h with h | h
      · obtain ⟨a1, a2⟩ := hall z h
        constructor <;> nlinarith
      · rw [List.mem_singleton.mp h]
        constructor <;> nlinarith [mul_nonneg hN hE]
    · refine ⟨hx, hv, hz', Or.inr ⟨by simp; omega, _, rfl, nxv.1, le_refl _, ?_⟩⟩
      intro z h
      rw [hlen]
      rcases List.mem_append.mp h with h | h
      · obtain ⟨a1, a2⟩ := hall z h
        have hm := mul_le_mul_of_nonneg_left h1.le hN
        have t := ht z v x (hz z h) hv hx
        constructor <;> nlinarith
      · rw [List.mem_singleton.mp h]
        have hm := mul_nonneg hN nxv.1
        constructor <;> nlinarith
    · refine ⟨hu, hx, hz', Or.inr ⟨by simp; omega, _, rfl, nux.1, le_refl _, ?_⟩⟩
      intro z h
      rw [hlen]
      rcases List.mem_append.mp h with h | h
      · obtain ⟨a1, a2⟩ := hall z h
        have hm := mul_le_mul_of_nonneg_left h1.le hN
        have t := ht z u x (hz z h) hu hx
        constructor <;> nlinarith
      · rw [List.mem_singleton.mp h]
        have hm := mul_nonneg hN nux.1
        constructor <;> nlinarith

/-- C132: in the styles which are distances of norms, the observations of a model of order one spread no farther than their number times twice its
diversity; the points of `C132_unbounded` show that a bound which grows with their number is needed. -/
theorem C132_growth (style : DivStyle) (hs : style ≠ .geometric) (cols : ℕ) (hc : cols ≠ 0) (a b c : List ℝ) (zs : List (List ℝ))
    (ho : ∀ z ∈ a :: b :: c :: zs, Observation cols z) :
    ∃ (m0 m : Diversity) (y : List (WithTop ℝ)) (D : ℝ), Diversity.new (some style.distance) 1 = .ok m0 ∧ m0.fit (a :: b :: c :: zs) cols = (.ok y, m) ∧ m.diversity = D ∧
      ∀ z ∈ a :: b :: c :: zs, ∀ w ∈ a :: b :: c :: zs, style.distance z w ≤ ((2 * ((zs.length : ℝ) + 2) * D : ℝ) : WithTop ℝ) := by
  have h0 : ∀ x y : List ℝ, x.length = cols → y.length = cols → 0 ≤ normOf style x y ∧ normOf style x y = normOf style y x ∧ normOf style x x = 0 := by
    intro x y h1 h2
    have := C50_distances style x y (h1.trans h2.symm) (by rintro rfl; exact hc h1.symm)
    simp only [distance_norm] at this
    exact ⟨by exact_mod_cast this.2.1, by exact_mod_cast this.1, by exact_mod_cast this.2.2⟩
  have ht : ∀ x y z : List ℝ, x.length = cols → y.length = cols → z.length = cols → normOf style x z ≤ normOf style x y + normOf style y z := by
    intro x y z h1 h2 h3
    have := C132_triangle style hs x y z (h1.trans h2.symm) (h2.trans h3.symm)
    simp only [distance_norm] at this
    exact_mod_cast this
  obtain ⟨m0, y, m, u, v, e1, e2, hr, -, hu, hv, hl, hI⟩ := two_rows style.distance cols hc a b (GrowthInv (normOf style) cols)
    ⟨(ho a (by simp)).1, (ho b (by simp)).1, by
      intro z hz
      simp only [List.mem_cons, List.not_mem_nil, or_false] at hz
      rcases hz with rfl | rfl
      · exact (ho z (by simp)).1
      · exact (ho z (by simp)).1, Or.inl ⟨rfl, rfl⟩⟩ (by
      intro obs u v D x hI hx
      simp only [distance_norm]
      exact growth_inv (normOf style) cols h0 ht obs u v D x hI hx.1) (c :: zs) ho
  rcases hI with ⟨h, -⟩ | ⟨-, E, hD, hE, -, hall⟩
  · simp at h
  · refine ⟨m0, m, y, E, e1, e2, hD, ?_⟩
    intro z hz w hw
    rw [distance_norm, WithTop.coe_le_coe]
    have h1 := (hall z hz).1
    have h2 := (hall w hw).1
    have h3 := ht z u w (hl z hz) hu (hl w hw)
    rw [(h0 u w hu (hl w hw)).2.1] at h3
    have : ((a :: b :: c :: zs).length : ℝ) - 1 = (zs.length : ℝ) + 2 := by push_cast [List.length_cons]; ring
    rw [this] at h1 h2
    linarith

/-- The first points of the drift are such observations. -/
example : ∀ z ∈ [zigzag 0, zigzag 1, zigzag 2, zigzag 3], Observation 2 z := by
  intro z hz
  simp only [List.mem_cons, List.not_mem_nil, or_false] at hz
  rcases hz with rfl | rfl | rfl | rfl <;> exact zig_observation _

end Verif.Props
