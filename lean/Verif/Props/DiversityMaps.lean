import Verif.Props.Diversity
import Mathlib.Data.List.FinRange
import Mathlib.Algebra.BigOperators.Group.List.Basic

/- Property C82: how DiversityModel (diamondback/models/diversity_model.py) follows maps of the observations. -/

namespace Verif.Props

open Spec

theorem foldl_through {ι A B : Type*} (ψ : A → B) (g : A → ι → A) (g' : B → ι → B) (l : List ι) (h : ∀ k ∈ l, ∀ u, g' (ψ u) k = ψ (g u k)) :
    ∀ u, l.foldl g' (ψ u) = ψ (l.foldl g u) := by
  induction l with
  | nil => intro u; rfl
  | cons k l ih =>
    intro u
    rw [List.foldl_cons, List.foldl_cons, h k (by simp) u]
    exact ih (fun j hj => h j (by simp [hj])) _

/-- Two states whose first `cc` rows correspond under `φ`. -/
structure DivMap (d d' : List ℝ → List ℝ → WithTop ℝ) (φ : List ℝ → List ℝ) (ψ : WithTop ℝ → WithTop ℝ) (P : List ℝ → Prop) (m m' : Diversity) (cc : ℕ) : Prop where
  dist : m.distance = d
  dist' : m'.distance = d'
  len : m'.s.length = m.s.length
  le : cc ≤ m.s.length
  div : m'.diversity = ψ m.diversity
  row : ∀ i < cc, P (m.s.getD i []) ∧ m'.s.getD i [] = φ (m.s.getD i [])

theorem getD_set (s : List (List ℝ)) (k i : ℕ) (x : List ℝ) (hk : k < s.length) : (s.set k x).getD i [] = if i = k then x else s.getD i [] := by
  simp only [List.getD_eq_getElem?_getD, List.getElem?_set]
  by_cases h : k = i
  · subst h; simp [hk]
  · rw [if_neg h, if_neg (Ne.symm h)]

theorem least_map (d d' : List ℝ → List ℝ → WithTop ℝ) (φ : List ℝ → List ℝ) (ψ : WithTop ℝ → WithTop ℝ) (P : List ℝ → Prop) (hψ : StrictMono ψ) (htop : ψ ⊤ = ⊤)
    (hd : ∀ x y, P x → P y → d' (φ x) (φ y) = ψ (d x y)) (s s' : List (List ℝ)) (cc : ℕ)
    (h : ∀ i < cc, P (s.getD i []) ∧ s'.getD i [] = φ (s.getD i [])) : div.least d' s' cc = ψ (div.least d s cc) := by
  unfold div.least
  conv_lhs => rw [← htop]
  refine foldl_through ψ _ _ _ ?_ ⊤
  intro uu hu u
  refine foldl_through ψ _ _ _ ?_ u
  intro k hk v
  have hu' := List.mem_range.mp hu
  have hk' := List.mem_range.mp hk
  obtain ⟨p1, e1⟩ := h uu (by omega)
  obtain ⟨p2, e2⟩ := h (uu + 1 + k) (by omega)
  simp only [e1, e2, hd _ _ p1 p2, hψ.lt_iff_lt]
  split_ifs <;> rfl

theorem DivMap.step {d d' : List ℝ → List ℝ → WithTop ℝ} {φ : List ℝ → List ℝ} {ψ : WithTop ℝ → WithTop ℝ} {P : List ℝ → Prop} (hψ : StrictMono ψ) (htop : ψ ⊤ = ⊤)
    (hd : ∀ x y, P x → P y → d' (φ x) (φ y) = ψ (d x y)) {m m' : Diversity} {cc : ℕ} (h : DivMap d d' φ ψ P m m' cc) (x : List ℝ) (hx : P x) :
    (div.step m' cc (φ x)).2 = (div.step m cc x).2 ∧ DivMap d d' φ ψ P (div.step m cc x).1 (div.step m' cc (φ x)).1 (div.step m cc x).2 := by
  obtain ⟨h1, h2, h3, h4, h5, h6⟩ := h
  unfold div.step
  by_cases hc : cc < m.s.length
  · simp only [h3, hc, if_true]
    refine ⟨trivial, h1, h2, by simp [h3], by simp; omega, h5, ?_⟩
    intro i hi
    simp only
    rw [getD_set _ _ _ _ hc, getD_set _ _ _ _ (by omega)]
    by_cases e : i = cc
    · simp [e, hx]
    · simp only [e, if_false]; exact h6 i (by omega)
  · have hcc : cc = m.s.length := by omega
    simp only [h3, hc, if_false]
    have hbest : div.best m'.distance m'.s cc (φ x) m'.diversity = (ψ (div.best m.distance m.s cc x m.diversity).1, (div.best m.distance m.s cc x m.diversity).2) := by
      unfold div.best
      rw [h5]
      refine foldl_through (fun p : WithTop ℝ × Option ℕ => (ψ p.1, p.2)) _ _ _ ?_ (m.diversity, none)
      intro kk hkk p
      have hkk' := List.mem_range.mp hkk
      have hl : div.least m'.distance (m'.s.set kk (φ x)) cc = ψ (div.least m.distance (m.s.set kk x) cc) := by
        rw [h1, h2]
        apply least_map d d' φ ψ P hψ htop hd
        intro i hi
        rw [getD_set _ _ _ _ (by omega), getD_set _ _ _ _ (by omega)]
        by_cases e : i = kk
        · simp [e, hx]
        · simp only [e, if_false]; exact h6 i hi
      simp only [hl, gt_iff_lt, hψ.lt_iff_lt]
      split_ifs <;> rfl
    rw [hbest]
    simp only [h5, gt_iff_lt, hψ.lt_iff_lt]
    by_cases hg : m.diversity < (div.best m.distance m.s cc x m.diversity).1
    · simp only [hg, if_true]
      obtain ⟨-, -, hb⟩ := div.best_spec m.distance m.s x m.diversity cc hcc
      have hk : (div.best m.distance m.s cc x m.diversity).2.getD (m.s.length - 1) < m.s.length := by
        rcases hb with hb | ⟨k, hk, v, hb, -⟩
        · rw [hb] at hg; exact absurd hg (lt_irrefl _)
        · rw [hb]; simpa [hcc] using hk
      refine ⟨trivial, h1, h2, by simp [h3], by simp; omega, rfl, ?_⟩
      intro i hi
      simp only
      rw [getD_set _ _ _ _ hk, getD_set _ _ _ _ (by omega)]
      split_ifs with e
      · exact ⟨hx, rfl⟩
      · exact h6 i hi
    · simp only [hg, if_false]
      exact ⟨trivial, h1, h2, h3, h4, h5, h6⟩

theorem DivMap.loop {d d' : List ℝ → List ℝ → WithTop ℝ} {φ : List ℝ → List ℝ} {ψ : WithTop ℝ → WithTop ℝ} {P : List ℝ → Prop} (hψ : StrictMono ψ) (htop : ψ ⊤ = ⊤)
    (hd : ∀ x y, P x → P y → d' (φ x) (φ y) = ψ (d x y)) (xs : List (List ℝ)) : ∀ {m m' : Diversity} {cc : ℕ}, DivMap d d' φ ψ P m m' cc → (∀ x ∈ xs, P x) →
    (div.loop (xs.map φ) (m', cc)).1 = (div.loop xs (m, cc)).1.map ψ ∧
      DivMap d d' φ ψ P (div.loop xs (m, cc)).2.1 (div.loop (xs.map φ) (m', cc)).2.1 (div.loop xs (m, cc)).2.2 := by
  induction xs with
  | nil => intro m m' cc h _; simpa [div.loop] using h
  | cons x xs ih =>
    intro m m' cc h hx
    obtain ⟨e, hs⟩ := h.step hψ htop hd x (hx x (by simp))
    have hi := ih hs (fun y hy => hx y (by simp [hy]))
    rw [List.map_cons, div.loop_cons, div.loop_cons, show div.step m' cc (φ x) = ((div.step m' cc (φ x)).1, (div.step m cc x).2) from Prod.ext rfl e]
    simp only [List.map_cons, hi.1, hs.div]
    exact ⟨trivial, hi.2⟩

/-- C82.  If a map of rows transforms distances by a strictly increasing map, then the model fitted to mapped observations is the mapped model: the same
observations are kept, and diversities are transformed. -/
theorem C82_equivariant (d d' : List ℝ → List ℝ → WithTop ℝ) (φ : List ℝ → List ℝ) (ψ : WithTop ℝ → WithTop ℝ) (hψ : StrictMono ψ) (h0 : ψ 0 = 0) (htop : ψ ⊤ = ⊤)
    (cols cols' order : ℕ) (hc : cols ≠ 0) (hc' : cols' ≠ 0) (hd : ∀ x y, x.length = cols → y.length = cols → d' (φ x) (φ y) = ψ (d x y))
    (x : List (List ℝ)) (hx : x ≠ []) (ho : ∀ r ∈ x, Observation cols r) (ho' : ∀ r ∈ x, Observation cols' (φ r)) :
    ∃ m0 m0' y m m', Diversity.new (some d) order = .ok m0 ∧ Diversity.new (some d') order = .ok m0' ∧ m0.fit x cols = (.ok y, m) ∧
      m0'.fit (x.map φ) cols' = (.ok (y.map ψ), m') ∧ m'.diversity = ψ m.diversity ∧ (order + 1 ≤ x.length → m'.s = m.s.map φ) := by
  obtain ⟨m0, y, m, a1, a2, a3, a4⟩ := div_fit_ok d order x cols hx hc ho
  obtain ⟨m0', y', m', b1, b2, b3, b4⟩ := div_fit_ok d' order (x.map φ) cols' (by simpa using hx) hc' (by
    intro r hr
    obtain ⟨q, hq, rfl⟩ := List.mem_map.mp hr
    exact ho' q hq)
  have hm0 : m0 = { distance := d, diversity := 0, cols := 0, s := List.replicate (order + 1) [] } := by
    unfold Diversity.new at a1
    simp only [show ¬ ((order : ℤ) < 0) by omega, if_false, Except.ok.injEq] at a1
    rw [← a1]; congr 1
  have hm0' : m0' = { distance := d', diversity := 0, cols := 0, s := List.replicate (order + 1) [] } := by
    unfold Diversity.new at b1
    simp only [show ¬ ((order : ℤ) < 0) by omega, if_false, Except.ok.injEq] at b1
    rw [← b1]; congr 1
  have hcount : ∀ c : ℕ, c ≠ 0 → div.count (List.replicate (order + 1) (List.replicate c div.fmax)) = 0 := by
    intro c hc
    unfold div.count
    rw [List.replicate_succ, List.takeWhile_cons_of_neg]
    · rfl
    · have : (List.replicate c div.fmax).getD 0 0 = div.fmax := by
        obtain ⟨k, rfl⟩ := Nat.exists_eq_succ_of_ne_zero hc
        rfl
      simp only [this, div.vacant_fmax, not_true_eq_false, decide_false, Bool.false_eq_true, not_false_eq_true]
  have hmap : DivMap d d' φ ψ (fun r => r.length = cols) (m0.sized cols) (m0'.sized cols') 0 := by
    rw [hm0, hm0']
    exact ⟨rfl, rfl, by simp [Diversity.sized], by simp, by simp [Diversity.sized, h0], by intro i hi; omega⟩
  have hl := hmap.loop hψ htop hd x (fun r hr => (ho r hr).1)
  have e1 : m0.fit x cols = (.ok (div.loop x (m0.sized cols, 0)).1, (div.loop x (m0.sized cols, 0)).2.1) := by
    rw [hm0]
    simp [Diversity.fit, hx, hc, Diversity.sized, hcount cols hc]
  have e2 : m0'.fit (x.map φ) cols' = (.ok (div.loop (x.map φ) (m0'.sized cols', 0)).1, (div.loop (x.map φ) (m0'.sized cols', 0)).2.1) := by
    rw [hm0']
    simp [Diversity.fit, hx, hc', Diversity.sized, hcount cols' hc']
  rw [a2] at e1
  rw [b2] at e2
  simp only [Prod.mk.injEq, Except.ok.injEq] at e1 e2
  rw [← e1.1, ← e1.2, ← e2.1, ← e2.2] at hl
  refine ⟨m0, m0', y, m, m', a1, b1, a2, ?_, hl.2.div, ?_⟩
  · rw [b2, hl.1]
  · intro hn
    rcases div_reach a3 with ⟨h, -, -⟩ | ⟨-, cc, hI⟩
    · exact absurd (a4 ▸ h) hc
    · have hlen : (div.loop x (m0.sized cols, 0)).2.2 = m.s.length := by
        have h1 := DivInv.count hI (by rw [a4]; exact hc)
        have hcc := hI.cc
        have hlen := hI.len
        have : ∀ (xs : List (List ℝ)) (mm : Diversity) (c : ℕ), c ≤ mm.s.length → (div.loop xs (mm, c)).2.2 = min (c + xs.length) mm.s.length := by
          intro xs
          induction xs with
          | nil => intro mm c hc; simp [div.loop]; omega
          | cons r xs ih =>
            intro mm c hc
            rw [div.loop_cons]
            have hs : (div.step mm c r).1.s.length = mm.s.length ∧ (div.step mm c r).2 = if c < mm.s.length then c + 1 else c := by
              unfold div.step
              simp only
              split_ifs <;> simp
            rw [show div.step mm c r = ((div.step mm c r).1, (div.step mm c r).2) from rfl, ih _ _ (by rw [hs.1, hs.2]; split_ifs <;> omega), hs.1, hs.2]
            simp only [List.length_cons]
            split_ifs <;> omega
        rw [this x _ 0 (by omega), hI.len]
        have : (m0.sized cols).s.length = order + 1 := by rw [hm0]; simp [Diversity.sized]
        rw [this]; omega
      apply List.ext_getElem
      · rw [hl.2.len]; simp
      · intro i h1 h2
        have hi : i < m.s.length := by simpa using h2
        have := (hl.2.row i (by rw [hlen]; exact hi)).2
        simp only [List.getD_eq_getElem?_getD, List.getElem?_eq_getElem h1, List.getElem?_eq_getElem hi, Option.getD_some] at this
        rw [this]; simp

/-- The hypotheses hold of reflections. -/
example : StrictMono (id : WithTop ℝ → WithTop ℝ) ∧ ∀ x y : List ℝ, x.length = 1 → y.length = 1 →
    DivStyle.manhattan.distance (x.map (-1 * ·)) (y.map (-1 * ·)) = id (DivStyle.manhattan.distance x y) := by
  refine ⟨strictMono_id, fun x y hx hy => ?_⟩
  obtain ⟨a, rfl⟩ := List.length_eq_one_iff.mp hx
  obtain ⟨b, rfl⟩ := List.length_eq_one_iff.mp hy
  simp only [List.map_cons, List.map_nil, manhattan_one, id]
  rw [← mul_sub, abs_mul]
  norm_num

/-- Multiplication of a distance by a positive number. -/
noncomputable def stretch (c : ℝ) : WithTop ℝ → WithTop ℝ := WithTop.map (c * ·)

theorem stretch_strictMono (c : ℝ) (hc : 0 < c) : StrictMono (stretch c) :=
  WithTop.strictMono_map_iff.mpr fun _ _ h => mul_lt_mul_of_pos_left h hc

/-- C82.  Adding a vector to all observations changes no diversity, in every style: the state is moved. -/
theorem C82_translation (style : DivStyle) (c : List ℝ) (order : ℕ) (hc : c ≠ []) (x : List (List ℝ)) (hx : x ≠ [])
    (ho : ∀ r ∈ x, Observation c.length r) (ho' : ∀ r ∈ x, Observation c.length (List.zipWith (· + ·) r c)) :
    ∃ m0 y m m', Diversity.new (some style.distance) order = .ok m0 ∧ m0.fit x c.length = (.ok y, m) ∧
      m0.fit (x.map fun r => List.zipWith (· + ·) r c) c.length = (.ok y, m') ∧ (order + 1 ≤ x.length → m'.s = m.s.map fun r => List.zipWith (· + ·) r c) := by
  obtain ⟨m0, m0', y, m, m', h1, h1', h2, h3, -, h5⟩ := C82_equivariant style.distance style.distance (fun r => List.zipWith (· + ·) r c) id strictMono_id rfl rfl
    c.length c.length order (by simpa using hc) (by simpa using hc) (by
      intro p q hp hq
      have : div.gap (List.zipWith (· + ·) p c) (List.zipWith (· + ·) q c) = div.gap p q := by
        unfold div.gap
        apply List.ext_getElem
        · simp [hp, hq]
        · intro i _ _; simp
      have hl : (List.zipWith (· + ·) p c).length = p.length := by simp [hp]
      cases style <;> simp only [DivStyle.distance, this, hl, id]) x hx ho ho'
  rw [h1] at h1'
  cases h1'
  exact ⟨m0, y, m, m', h1, h2, by rw [List.map_id] at h3; exact h3, h5⟩

/-- C82.  Multiplying all observations by `c ≠ 0` multiplies all diversities by `|c|`, in every style. -/
theorem C82_scaling (style : DivStyle) (c : ℝ) (hc : c ≠ 0) (cols order : ℕ) (hcols : cols ≠ 0) (x : List (List ℝ)) (hx : x ≠ [])
    (ho : ∀ r ∈ x, Observation cols r) (ho' : ∀ r ∈ x, Observation cols (r.map (c * ·))) :
    ∃ m0 y m m', Diversity.new (some style.distance) order = .ok m0 ∧ m0.fit x cols = (.ok y, m) ∧
      m0.fit (x.map fun r => r.map (c * ·)) cols = (.ok (y.map (stretch |c|)), m') ∧ (order + 1 ≤ x.length → m'.s = m.s.map fun r => r.map (c * ·)) := by
  have hc' : 0 < |c| := abs_pos.mpr hc
  obtain ⟨m0, m0', y, m, m', h1, h1', h2, h3, -, h5⟩ := C82_equivariant style.distance style.distance (fun r => r.map (c * ·)) (stretch |c|)
    (stretch_strictMono _ hc') (by show WithTop.map _ ((0 : ℝ) : WithTop ℝ) = _; rw [WithTop.map_coe, mul_zero]; rfl) rfl
    cols cols order hcols hcols (by
      intro p q hp hq
      have hgap : div.gap (p.map (c * ·)) (q.map (c * ·)) = (div.gap p q).map (|c| * ·) := by
        unfold div.gap
        apply List.ext_getElem
        · simp
        · intro i _ _
          simp only [List.getElem_zipWith, List.getElem_map]
          rw [← mul_sub, abs_mul]
      have hnn : ∀ v ∈ div.gap p q, 0 ≤ v := by
        intro v hv
        unfold div.gap at hv
        obtain ⟨i, hi, rfl⟩ := List.getElem_of_mem hv
        simp
      have hgl : (div.gap p q).length = cols := by simp [div.gap, hp, hq]
      cases style with
      | chebyshev =>
        simp only [DivStyle.distance, hgap, stretch, WithTop.map_coe]
        congr 1
        rw [List.foldl_map]
        have := foldl_through (fun u : ℝ => |c| * u) (fun a b => max a b) (fun a b => max a (|c| * b)) (div.gap p q) (by
          intro k _ u; rw [mul_max_of_nonneg _ _ hc'.le]) 0
        simpa using this
      | euclidean =>
        simp only [DivStyle.distance, hgap, stretch, WithTop.map_coe]
        congr 1
        rw [List.map_map]
        have : (div.gap p q).map ((fun v => v ^ 2) ∘ fun v => |c| * v) = ((div.gap p q).map (· ^ 2)).map (|c| ^ 2 * ·) := by
          rw [List.map_map]; apply List.map_congr_left; intro v _; simp [mul_pow]
        rw [this, List.sum_map_mul_left, List.map_id', Real.sqrt_mul (by positivity), Real.sqrt_sq hc'.le]
      | geometric =>
        simp only [DivStyle.distance, hgap, stretch, WithTop.map_coe, List.length_map]
        congr 1
        have hprod : ((div.gap p q).map (|c| * ·)).prod = |c| ^ (div.gap p q).length * (div.gap p q).prod := by
          generalize div.gap p q = l
          induction l with
          | nil => simp
          | cons v l ih => simp only [List.map_cons, List.prod_cons, List.length_cons, ih, pow_succ]; ring
        have hp0 : 0 ≤ (div.gap p q).prod := List.prod_nonneg hnn
        rw [hprod, Real.mul_rpow (by positivity) hp0, hgl, hp]
        congr 1
        rw [← Real.rpow_natCast, ← Real.rpow_mul hc'.le, mul_one_div_cancel (by exact_mod_cast hcols), Real.rpow_one]
      | manhattan =>
        simp only [DivStyle.distance, hgap, stretch, WithTop.map_coe]
        congr 1
        rw [List.sum_map_mul_left, List.map_id']) x hx ho ho'
  rw [h1] at h1'
  cases h1'
  exact ⟨m0, y, m, m', h1, h2, h3, h5⟩

/-- The columns of a row in the order `σ`. -/
def reorder {n : ℕ} (σ : Equiv.Perm (Fin n)) (r : List ℝ) : List ℝ := List.ofFn fun i => r.getD (σ i) 0

/-- C82.  The order of the columns is irrelevant, in every style. -/
theorem C82_columns (style : DivStyle) {cols : ℕ} (σ : Equiv.Perm (Fin cols)) (order : ℕ) (hcols : cols ≠ 0) (x : List (List ℝ)) (hx : x ≠ [])
    (ho : ∀ r ∈ x, Observation cols r) (ho' : ∀ r ∈ x, Observation cols (reorder σ r)) :
    ∃ m0 y m m', Diversity.new (some style.distance) order = .ok m0 ∧ m0.fit x cols = (.ok y, m) ∧
      m0.fit (x.map (reorder σ)) cols = (.ok y, m') ∧ (order + 1 ≤ x.length → m'.s = m.s.map (reorder σ)) := by
  obtain ⟨m0, m0', y, m, m', h1, h1', h2, h3, -, h5⟩ := C82_equivariant style.distance style.distance (reorder σ) id strictMono_id rfl rfl
    cols cols order hcols hcols (by
      intro p q hp hq
      have hperm : (div.gap (reorder σ p) (reorder σ q)).Perm (div.gap p q) := by
        have e1 : div.gap (reorder σ p) (reorder σ q) = List.ofFn ((fun i : Fin cols => |p.getD i 0 - q.getD i 0|) ∘ σ) := by
          unfold div.gap reorder
          apply List.ext_getElem
          · simp
          · intro i _ _; simp
        have e2 : div.gap p q = List.ofFn (fun i : Fin cols => |p.getD i 0 - q.getD i 0|) := by
          unfold div.gap
          apply List.ext_getElem
          · simp [hp, hq]
          · intro i h1 h2
            simp only [List.length_zipWith] at h1
            simp only [List.getElem_zipWith, List.getElem_ofFn]
            rw [List.getD_eq_getElem?_getD, List.getD_eq_getElem?_getD, List.getElem?_eq_getElem (by omega), List.getElem?_eq_getElem (by omega)]
            rfl
        rw [e1, e2]
        exact σ.ofFn_comp_perm _
      have hl : (reorder σ p).length = p.length := by simp [reorder, hp]
      cases style with
      | chebyshev =>
        simp only [DivStyle.distance, id]
        congr 1
        exact hperm.foldl_eq (rcomm := ⟨fun a b c => by rw [max_right_comm]⟩) 0
      | euclidean => simp only [DivStyle.distance, id, (hperm.map _).sum_eq]
      | geometric => simp only [DivStyle.distance, id, hperm.prod_eq, hl]
      | manhattan => simp only [DivStyle.distance, id, hperm.sum_eq]) x hx ho ho'
  rw [h1] at h1'
  cases h1'
  exact ⟨m0, y, m, m', h1, h2, by rw [List.map_id] at h3; exact h3, h5⟩

/-- The hypotheses of `C82_translation` and `C82_scaling` hold: three observations of one column, moved and scaled. -/
example : (∀ r ∈ [[(0 : ℝ)], [10], [3]], Observation 1 r) ∧ (∀ r ∈ [[(0 : ℝ)], [10], [3]], Observation 1 (List.zipWith (· + ·) r [5])) ∧
    ∀ r ∈ [[(0 : ℝ)], [10], [3]], Observation 1 (r.map (-2 * ·)) := by
  refine ⟨?_, ?_, ?_⟩ <;> intro r hr <;> simp only [List.mem_cons, List.not_mem_nil, or_false] at hr <;> rcases hr with rfl | rfl | rfl <;>
    exact observation_one _ (by norm_num)

end Verif.Props
