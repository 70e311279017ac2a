import Verif.Model.Diversity
import Mathlib.Analysis.InnerProductSpace.PiL2
import Mathlib.Analysis.MeanInequalities

/- Property C94: the distances of DiversityModel are the ones they are named after. -/

namespace Verif.Props

open Finset

theorem gap_ofFn {n : ℕ} (x y : Fin n → ℝ) : div.gap (List.ofFn x) (List.ofFn y) = List.ofFn fun i => |x i - y i| := by
  unfold div.gap
  apply List.ext_getElem
  · simp
  · intro i h1 h2
    simp

theorem foldl_max_ge (l : List ℝ) : ∀ a, a ≤ l.foldl max a ∧ ∀ v ∈ l, v ≤ l.foldl max a := by
  induction l with
  | nil => intro a; simp
  | cons b l ih =>
    intro a
    obtain ⟨h1, h2⟩ := ih (max a b)
    refine ⟨(le_max_left _ _).trans h1, fun v hv => ?_⟩
    rcases List.mem_cons.mp hv with rfl | hv
    · exact (le_max_right _ _).trans h1
    · exact h2 v hv

theorem foldl_max_le (l : List ℝ) (c : ℝ) : ∀ a ≤ c, (∀ v ∈ l, v ≤ c) → l.foldl max a ≤ c := by
  induction l with
  | nil => intro a h _; exact h
  | cons b l ih => exact fun a h hv => ih _ (max_le h (hv b (by simp))) (fun v hv' => hv v (by simp [hv']))

/-- C94: Chebyshev is the distance of the largest coordinate difference, the supremum metric. -/
theorem C94_chebyshev {n : ℕ} (x y : Fin n → ℝ) : DivStyle.chebyshev.distance (List.ofFn x) (List.ofFn y) = ((dist x y : ℝ) : WithTop ℝ) := by
  simp only [DivStyle.distance, gap_ofFn]
  congr 1
  apply le_antisymm
  · refine foldl_max_le _ _ 0 dist_nonneg fun v hv => ?_
    obtain ⟨i, rfl⟩ := (List.mem_ofFn' _ _).mp hv
    exact dist_le_pi_dist x y i
  · refine (dist_pi_le_iff (foldl_max_ge _ _).1).mpr fun i => ?_
    exact (foldl_max_ge _ _).2 _ ((List.mem_ofFn' _ _).mpr ⟨i, rfl⟩)

example := C94_chebyshev ![(0 : ℝ), 3, 1] ![2, -1, 1]

/-- C94: Euclidean is the distance of the Euclidean space. -/
theorem C94_euclidean {n : ℕ} (x y : Fin n → ℝ) : DivStyle.euclidean.distance (List.ofFn x) (List.ofFn y) = ((dist (WithLp.toLp 2 x) (WithLp.toLp 2 y) : ℝ) : WithTop ℝ) := by
  simp only [DivStyle.distance, gap_ofFn]
  rw [EuclideanSpace.dist_eq, List.map_ofFn, List.sum_ofFn]
  rfl

example := C94_euclidean ![(0 : ℝ), 3, 1] ![2, -1, 1]

/-- C94: Manhattan is the sum of the coordinate differences, the metric of the 1-norm. -/
theorem C94_manhattan {n : ℕ} (x y : Fin n → ℝ) : DivStyle.manhattan.distance (List.ofFn x) (List.ofFn y) = ((dist (WithLp.toLp 1 x) (WithLp.toLp 1 y) : ℝ) : WithTop ℝ) := by
  simp only [DivStyle.distance, gap_ofFn]
  rw [PiLp.dist_eq_of_L1, List.sum_ofFn]
  rfl

example := C94_manhattan ![(0 : ℝ), 3, 1] ![2, -1, 1]

/-- C94: Geometric is the geometric mean of the coordinate differences. -/
theorem C94_geometric {n : ℕ} (hn : 0 < n) (x y : Fin n → ℝ) : ∃ r : ℝ, 0 ≤ r ∧ r ^ n = ∏ i, |x i - y i| ∧ DivStyle.geometric.distance (List.ofFn x) (List.ofFn y) = (r : WithTop ℝ) := by
  have hp : 0 ≤ ∏ i, |x i - y i| := prod_nonneg fun i _ => abs_nonneg _
  refine ⟨(∏ i, |x i - y i|) ^ (1 / (n : ℝ)), Real.rpow_nonneg hp _, ?_, ?_⟩
  · rw [one_div, Real.rpow_inv_natCast_pow hp hn.ne']
  · simp only [DivStyle.distance, gap_ofFn, List.prod_ofFn, List.length_ofFn]

example := C94_geometric (n := 2) (by norm_num) ![0, 0] ![1, 4]

/-- C94: the three others are metrics: zero only between equal rows, symmetric, and a detour is not shorter. -/
theorem C94_metric (style : DivStyle) (hs : style ≠ .geometric) {n : ℕ} (x y z : Fin n → ℝ) :
    (style.distance (List.ofFn x) (List.ofFn y) = 0 ↔ x = y) ∧ style.distance (List.ofFn x) (List.ofFn y) = style.distance (List.ofFn y) (List.ofFn x) ∧
      style.distance (List.ofFn x) (List.ofFn z) ≤ style.distance (List.ofFn x) (List.ofFn y) + style.distance (List.ofFn y) (List.ofFn z) := by
  cases style with
  | geometric => exact absurd rfl hs
  | chebyshev =>
    simp only [C94_chebyshev]
    refine ⟨?_, by rw [dist_comm], ?_⟩
    · rw [WithTop.coe_eq_zero, dist_eq_zero]
    · exact_mod_cast dist_triangle x y z
  | euclidean =>
    simp only [C94_euclidean]
    refine ⟨?_, by rw [dist_comm], ?_⟩
    · rw [WithTop.coe_eq_zero, dist_eq_zero, (WithLp.toLp_injective 2).eq_iff]
    · exact_mod_cast dist_triangle (WithLp.toLp 2 x) (WithLp.toLp 2 y) (WithLp.toLp 2 z)
  | manhattan =>
    simp only [C94_manhattan]
    refine ⟨?_, by rw [dist_comm], ?_⟩
    · rw [WithTop.coe_eq_zero, dist_eq_zero, (WithLp.toLp_injective 1).eq_iff]
    · exact_mod_cast dist_triangle (WithLp.toLp 1 x) (WithLp.toLp 1 y) (WithLp.toLp 1 z)

/-- C94: Geometric does not tell rows apart which agree in one place, so that it is no metric. -/
theorem C94_geometric_zero {n : ℕ} (hn : 0 < n) (x y : Fin n → ℝ) : DivStyle.geometric.distance (List.ofFn x) (List.ofFn y) = 0 ↔ ∃ i, x i = y i := by
  obtain ⟨r, h0, h1, h2⟩ := C94_geometric hn x y
  rw [h2, WithTop.coe_eq_zero]
  constructor
  · rintro rfl
    rw [zero_pow hn.ne'] at h1
    obtain ⟨i, _, hi⟩ := prod_eq_zero_iff.mp h1.symm
    exact ⟨i, sub_eq_zero.mp (abs_eq_zero.mp hi)⟩
  · rintro ⟨i, hi⟩
    rw [prod_eq_zero (mem_univ i) (by rw [hi, sub_self, abs_zero])] at h1
    exact eq_zero_of_pow_eq_zero h1

/-- Two columns, of which one agrees. -/
example : DivStyle.geometric.distance (List.ofFn ![(0 : ℝ), 5]) (List.ofFn ![1, 5]) = 0 := (C94_geometric_zero (by norm_num) _ _).mpr ⟨1, rfl⟩

/-- C94: a detour can have geometric length zero. -/
theorem C94_geometric_detour : DivStyle.geometric.distance [0, 0] [0, 1] = 0 ∧ DivStyle.geometric.distance [0, 1] [1, 1] = 0 ∧ DivStyle.geometric.distance [0, 0] [1, 1] = 1 := by
  refine ⟨?_, ?_, ?_⟩ <;> norm_num [DivStyle.distance, div.gap]

/-- C94: the order of the four distances. -/
theorem C94_order {n : ℕ} (hn : 0 < n) (x y : Fin n → ℝ) : ∃ c e g m : ℝ, DivStyle.chebyshev.distance (List.ofFn x) (List.ofFn y) = (c : WithTop ℝ) ∧ DivStyle.euclidean.distance (List.ofFn x) (List.ofFn y) = (e : WithTop ℝ) ∧
    DivStyle.geometric.distance (List.ofFn x) (List.ofFn y) = (g : WithTop ℝ) ∧ DivStyle.manhattan.distance (List.ofFn x) (List.ofFn y) = (m : WithTop ℝ) ∧
    n * g ≤ m ∧ c ≤ e ∧ e ≤ m ∧ e ≤ Real.sqrt n * c ∧ m ≤ n * c := by
  have hn' : (0 : ℝ) < n := by exact_mod_cast hn
  obtain ⟨r, h0, h1, h2⟩ := C94_geometric hn x y
  have hm : dist (WithLp.toLp 1 x) (WithLp.toLp 1 y) = ∑ i, |x i - y i| := by rw [PiLp.dist_eq_of_L1]; rfl
  have he : dist (WithLp.toLp 2 x) (WithLp.toLp 2 y) = Real.sqrt (∑ i, |x i - y i| ^ 2) := by rw [EuclideanSpace.dist_eq]; rfl
  have hc : ∀ i, |x i - y i| ≤ dist x y := fun i => dist_le_pi_dist x y i
  have h0s : ∀ i ∈ univ, 0 ≤ |x i - y i| := fun i _ => abs_nonneg _
  refine ⟨_, _, r, _, C94_chebyshev x y, C94_euclidean x y, h2, C94_manhattan x y, ?_, ?_, ?_, ?_, ?_⟩
  · have := Real.geom_mean_le_arith_mean univ (fun _ => 1) (fun i => |x i - y i|) (fun _ _ => zero_le_one) (by simpa using hn) h0s
    simp only [Real.rpow_one, one_mul, sum_const, card_univ, Fintype.card_fin, nsmul_eq_mul, mul_one] at this
    rw [← h1, Real.pow_rpow_inv_natCast h0 hn.ne', le_div_iff₀ hn'] at this
    rw [hm]
    linarith
  · rw [he]
    refine (dist_pi_le_iff (Real.sqrt_nonneg _)).mpr fun i => ?_
    refine Real.le_sqrt_of_sq_le ?_
    exact single_le_sum (f := fun i => |x i - y i| ^ 2) (fun i _ => sq_nonneg _) (mem_univ i)
  · rw [he, hm]
    refine Real.sqrt_le_iff.mpr ⟨sum_nonneg h0s, ?_⟩
    exact sum_sq_le_sq_sum_of_nonneg h0s
  · rw [he]
    refine Real.sqrt_le_iff.mpr ⟨by positivity, ?_⟩
    rw [mul_pow, Real.sq_sqrt hn'.le]
    calc ∑ i, |x i - y i| ^ 2 ≤ ∑ _i : Fin n, dist x y ^ 2 := sum_le_sum fun i _ => pow_le_pow_left₀ (abs_nonneg _) (hc i) 2
      _ = n * dist x y ^ 2 := by simp
  · rw [hm]
    calc ∑ i, |x i - y i| ≤ ∑ _i : Fin n, dist x y := sum_le_sum fun i _ => hc i
      _ = n * dist x y := by simp

/-- The four distances of two rows, not all equal. -/
example : DivStyle.chebyshev.distance [0, 0] [3, 4] = 4 ∧ DivStyle.euclidean.distance [0, 0] [3, 4] = 5 ∧ DivStyle.manhattan.distance [0, 0] [3, 4] = 7 ∧
    DivStyle.geometric.distance [0, 0] [1, 4] = 2 := by
  have e : Real.sqrt 25 = 5 := by rw [show (25 : ℝ) = 5 ^ 2 by norm_num]; exact Real.sqrt_sq (by norm_num)
  have e4 : (4 : ℝ) ^ (1 / 2 : ℝ) = 2 := by rw [← Real.sqrt_eq_rpow, show (4 : ℝ) = 2 ^ 2 by norm_num]; exact Real.sqrt_sq (by norm_num)
  refine ⟨?_, ?_, ?_, ?_⟩ <;> norm_num [DivStyle.distance, div.gap, e, e4]

example : DivStyle.euclidean.distance [0, 0] [3, 4] ≤ DivStyle.euclidean.distance [0, 0] [3, 0] + DivStyle.euclidean.distance [3, 0] [3, 4] := by
  simpa using (C94_metric .euclidean (by decide) ![0, 0] ![3, 0] ![3, 4]).2.2

end Verif.Props
