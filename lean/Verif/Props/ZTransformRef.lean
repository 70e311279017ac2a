import Verif.Model.ZTransformRef
import Verif.Spec.Views
import Verif.Lemmas.ZTransform

/-!
Property C149: what ZTransform.transform does to the arrays of its caller (diamondback/transforms/z_transform.py:90-105).
-/

namespace Verif.Props

open Spec

private theorem cell_divide (m : Mem) (a : NdView) (d : ℝ) (b i : ℕ) :
    (a.divide m d).cell b i = if b = a.buf ∧ i ∈ a.idx then m.cell b i / d else m.cell b i := by
  unfold NdView.divide Mem.cell
  simp only [List.getD_eq_getElem?_getD, List.getElem?_modify]
  by_cases hb : a.buf = b
  · subst hb
    rcases hl : m[a.buf]? with _ | l
    · simp
    · by_cases hi : i ∈ a.idx
      · rcases hli : l[i]? with _ | c <;> simp [hi, hli]
      · rcases hli : l[i]? with _ | c <;> simp [hi, hli]
  · rw [if_neg (fun h => hb h.1.symm)]
    simp [hb]

private theorem cell_alloc (m : Mem) (l : List ℝ) (b i : ℕ) (hb : b < m.length) : (m.alloc l).2.cell b i = m.cell b i := by
  simp [Mem.alloc, Mem.cell, List.getD_eq_getElem?_getD, List.getElem?_append_left hb]

private theorem read_alloc (m : Mem) (l : List ℝ) : (m.alloc l).1.read (m.alloc l).2 = l := by
  refine List.ext_getElem (by simp [NdView.read, Mem.alloc]) fun n h1 h2 => ?_
  simp [NdView.read, Mem.alloc, Mem.cell, List.getD_eq_getElem?_getD, h2]

private theorem length_divide (m : Mem) (a : NdView) (d : ℝ) : (a.divide m d).length = m.length := by
  simp [NdView.divide]

private theorem length_alloc (m : Mem) (l : List ℝ) : (m.alloc l).2.length = m.length + 1 := by
  simp [Mem.alloc]

/-- Later memory: nothing which existed has changed. -/
private def Ext (m m' : Mem) : Prop := m.length ≤ m'.length ∧ ∀ b i, b < m.length → m'.cell b i = m.cell b i

private theorem Ext.trans {m m' m'' : Mem} (h : Ext m m') (h' : Ext m' m'') : Ext m m'' :=
  ⟨h.1.trans h'.1, fun b i hb => (h'.2 b i (lt_of_lt_of_le hb h.1)).trans (h.2 b i hb)⟩

private theorem Ext.read {m m' : Mem} (h : Ext m m') (a : NdView) (ha : a.buf < m.length) : a.read m' = a.read m := by
  unfold NdView.read
  exact List.map_congr_left fun i _ => h.2 _ _ ha

private theorem ext_alloc (m : Mem) (l : List ℝ) : Ext m (m.alloc l).2 :=
  ⟨by rw [length_alloc]; omega, fun b i hb => cell_alloc m l b i hb⟩

private theorem toArray_spec (m : Mem) (u : ZArg) (hu : u.Valid m) :
    (u.toArray m).1.buf < (u.toArray m).2.length ∧ (u.toArray m).1.read (u.toArray m).2 = u.read m ∧ Ext m (u.toArray m).2 ∧
      ((m.length ≤ (u.toArray m).1.buf ∧ ∀ a, u ≠ .array a) ∨ u = .array (u.toArray m).1) := by
  rcases u with l | a
  · exact ⟨by simp [ZArg.toArray, Mem.alloc], read_alloc m l, ext_alloc m l, .inl ⟨by simp [ZArg.toArray, Mem.alloc], by simp⟩⟩
  · exact ⟨hu, rfl, ⟨le_rfl, fun _ _ _ => rfl⟩, .inr rfl⟩

private theorem stripRef_spec (m : Mem) (a : NdView) (ha : a.buf < m.length) :
    (zt.stripRef m a).1.buf < (zt.stripRef m a).2.length ∧ (zt.stripRef m a).1.read (zt.stripRef m a).2 = zt.strip (a.read m) ∧ Ext m (zt.stripRef m a).2 ∧
      ((m.length ≤ (zt.stripRef m a).1.buf ∧ (a.read m).head? = some 0) ∨ ((zt.stripRef m a).1 = a ∧ (a.read m).head? ≠ some 0)) := by
  unfold zt.stripRef
  split
  · rename_i h
    exact ⟨by simp [Mem.alloc], read_alloc m _, ext_alloc m _, .inl ⟨by simp [Mem.alloc], h⟩⟩
  · rename_i h
    refine ⟨ha, ?_, ⟨le_rfl, fun _ _ _ => rfl⟩, .inr ⟨rfl, h⟩⟩
    unfold zt.strip
    rcases hl : a.read m with _ | ⟨c, l⟩
    · rfl
    · rw [hl] at h
      rw [List.dropWhile_cons_of_neg (by simpa using h)]

/-- The two arrays before lines 104 and 105, and the memory. -/
private theorem prepare (m : Mem) (u v : ZArg) (hu : u.Valid m) (hv : v.Valid m) :
    ∃ U V m1, (zt.stripRef (zt.stripRef (v.toArray (u.toArray m).2).2 (u.toArray m).1).2 (v.toArray (u.toArray m).2).1) = (V, m1) ∧
      (zt.stripRef (v.toArray (u.toArray m).2).2 (u.toArray m).1).1 = U ∧ Ext m m1 ∧ U.read m1 = zt.strip (u.read m) ∧ V.read m1 = zt.strip (v.read m) ∧
      (u.Apart v → U.buf = V.buf → ∀ i ∈ U.idx, i ∉ V.idx) ∧
      (∀ b i, b < m.length → ((b = U.buf ∧ i ∈ U.idx) ↔ u.Owns m b i)) ∧ (∀ b i, b < m.length → ((b = V.buf ∧ i ∈ V.idx) ↔ v.Owns m b i)) := by
  obtain ⟨a1, a2, a3, a4⟩ := toArray_spec m u hu
  generalize u.toArray m = u1 at *
  have hv' : v.Valid u1.2 := by
    rcases v with _ | b
    · trivial
    · exact lt_of_lt_of_le hv a3.1
  have hvr : v.read u1.2 = v.read m := by
    rcases v with _ | b
    · rfl
    · exact a3.read b hv
  obtain ⟨b1, b2, b3, b4⟩ := toArray_spec u1.2 v hv'
  generalize v.toArray u1.2 = v1 at *
  obtain ⟨c1, c2, c3, c4⟩ := stripRef_spec v1.2 u1.1 (lt_of_lt_of_le a1 b3.1)
  generalize zt.stripRef v1.2 u1.1 = u2 at *
  obtain ⟨d1, d2, d3, d4⟩ := stripRef_spec u2.2 v1.1 (lt_of_lt_of_le b1 c3.1)
  generalize zt.stripRef u2.2 v1.1 = v2 at *
  rw [b3.read _ a1, a2] at c2
  rw [b3.read _ a1, a2] at c4
  rw [c3.read _ b1, b2, hvr] at d2
  rw [c3.read _ b1, b2, hvr] at d4
  have l1 := a3.1
  have l2 := b3.1
  have l3 := c3.1
  have l4 := d3.1
  refine ⟨u2.1, v2.1, v2.2, rfl, rfl, ((a3.trans b3).trans c3).trans d3, ?_, d2, ?_, ?_, ?_⟩
  · rw [d3.read _ c1, c2]
  · intro hap heq
    rcases d4 with ⟨d4, -⟩ | ⟨d4, -⟩
    · omega
    rcases c4 with ⟨c4, -⟩ | ⟨c4, -⟩
    · rw [d4] at heq; omega
    rw [c4, d4] at heq ⊢
    rcases b4 with ⟨b4, -⟩ | b4
    · omega
    rcases a4 with ⟨a4, -⟩ | a4
    · rw [b4] at hv
      simp only [ZArg.Valid] at hv
      omega
    exact hap _ _ a4 b4 heq
  · intro b i hb
    unfold ZArg.Owns
    rcases c4 with ⟨c4, c5⟩ | ⟨c4, c5⟩
    · constructor
      · rintro ⟨h, -⟩; omega
      · rintro ⟨a, rfl, h, -⟩; exact absurd c5 h
    · rw [c4]
      rcases a4 with ⟨a4, a5⟩ | a4
      · constructor
        · rintro ⟨h, -⟩; omega
        · rintro ⟨a, h, -⟩; exact absurd h (a5 a)
      · constructor
        · rintro ⟨h1, h2⟩
          refine ⟨_, a4, ?_, h1, h2⟩
          rw [a4] at c5
          exact c5
        · rintro ⟨a, h, -, h1, h2⟩
          rw [a4] at h
          injection h with h
          rw [h]
          exact ⟨h1, h2⟩
  · intro b i hb
    unfold ZArg.Owns
    rcases d4 with ⟨d4, d5⟩ | ⟨d4, d5⟩
    · constructor
      · rintro ⟨h, -⟩; omega
      · rintro ⟨a, rfl, h, -⟩; exact absurd d5 h
    · rw [d4]
      rcases b4 with ⟨b4, b5⟩ | b4
      · constructor
        · rintro ⟨h, -⟩; omega
        · rintro ⟨a, h, -⟩; exact absurd h (b5 a)
      · constructor
        · rintro ⟨h1, h2⟩
          refine ⟨_, b4, ?_, h1, h2⟩
          rw [b4] at d5
          exact d5
        · rintro ⟨a, h, -, h1, h2⟩
          rw [b4] at h
          injection h with h
          rw [h]
          exact ⟨h1, h2⟩

private theorem read_divide (m : Mem) (a : NdView) (d : ℝ) : a.read (a.divide m d) = (a.read m).map (· / d) := by
  unfold NdView.read
  rw [List.map_map]
  refine List.map_congr_left fun i hi => ?_
  rw [cell_divide, if_pos ⟨rfl, hi⟩]
  rfl

private theorem read_divide_apart (m : Mem) (a b : NdView) (d : ℝ) (h : b.buf = a.buf → ∀ i ∈ b.idx, i ∉ a.idx) : b.read (a.divide m d) = b.read m := by
  unfold NdView.read
  refine List.map_congr_left fun i hi => ?_
  rw [cell_divide, if_neg fun hc => h hc.1 i hi hc.2]

private theorem rest_eq (residue : List ℝ → List ℝ → List ℂ × List ℂ) (u v : List ℝ) (frequency : ℝ) (bilinear : Bool)
    (hu : ¬ ∀ c ∈ u, c = 0) (hv : ¬ ∀ c ∈ v, c = 0) (hf : ¬ frequency ≤ 0) (hd : ¬ (zt.strip u).getLastD 0 = 0) :
    zt.rest residue ((zt.strip u).map (· / (zt.strip u).getLastD 0)) ((zt.strip v).map (· / (zt.strip u).getLastD 0)) frequency bilinear =
      zt.transform residue u v frequency bilinear := by
  unfold zt.rest zt.transform
  rw [if_neg hu, if_neg hv, if_neg hf]
  dsimp only
  rw [if_neg hd, List.length_map]

private theorem last_strip (u : List ℝ) (h : ¬ ∀ c ∈ u, c = 0) : (zt.strip u).getLastD 0 = u.getLastD 0 := by
  obtain ⟨x, t, hx, -⟩ := zt.strip_cons u h
  have hu : u = (u.takeWhile fun c => decide (c = 0)) ++ zt.strip u := by
    unfold zt.strip
    exact (List.takeWhile_append_dropWhile).symm
  conv_rhs => rw [hu]
  rw [hx, List.getLastD_eq_getLast?, List.getLastD_eq_getLast?, List.getLast?_append_of_ne_nil _ (by simp)]

/-- C149: arguments which share no element: the result is that of the values, and afterwards the elements of the arrays which are not copied have
been divided by the last coefficient of `u`.  All else in the memory of the caller is as before. -/
theorem C149_apart (residue : List ℝ → List ℝ → List ℂ × List ℂ) (m : Mem) (u v : ZArg) (frequency : ℝ) (bilinear : Bool)
    (hu : u.Valid m) (hv : v.Valid m) (hap : u.Apart v) :
    (zt.transformRef residue m u v frequency bilinear).1 = zt.transform residue (u.read m) (v.read m) frequency bilinear ∧
    ∀ b i, b < m.length → (zt.transformRef residue m u v frequency bilinear).2.cell b i = open scoped Classical in
      if (∃ c ∈ u.read m, c ≠ 0) ∧ (∃ c ∈ v.read m, c ≠ 0) ∧ 0 < frequency ∧ (u.read m).getLastD 0 ≠ 0 ∧ (u.Owns m b i ∨ v.Owns m b i) then
        m.cell b i / (u.read m).getLastD 0 else m.cell b i := by
  obtain ⟨U, V, m1, e1, e2, e3, e4, e5, e6, e7, e8⟩ := prepare m u v hu hv
  obtain ⟨-, a2, a3, -⟩ := toArray_spec m u hu
  have hv' : v.Valid (u.toArray m).2 := by
    rcases v with _ | b
    · trivial
    · exact lt_of_lt_of_le hv a3.1
  have hvr : v.read (u.toArray m).2 = v.read m := by
    rcases v with _ | b
    · rfl
    · exact a3.read b hv
  obtain ⟨-, b2, b3, -⟩ := toArray_spec _ v hv'
  rw [hvr] at b2
  unfold zt.transformRef
  dsimp only
  rw [a2, b2, e1, e2]
  dsimp only
  by_cases h1 : ∀ c ∈ u.read m, c = 0
  · rw [if_pos h1]
    refine ⟨by unfold zt.transform; rw [if_pos h1], fun b i hb => ?_⟩
    rw [if_neg (by rintro ⟨⟨c, hc, hc'⟩, -⟩; exact hc' (h1 c hc))]
    exact a3.2 b i hb
  rw [if_neg h1]
  by_cases h2 : ∀ c ∈ v.read m, c = 0
  · rw [if_pos h2]
    refine ⟨by unfold zt.transform; rw [if_neg h1, if_pos h2], fun b i hb => ?_⟩
    rw [if_neg (by rintro ⟨-, ⟨c, hc, hc'⟩, -⟩; exact hc' (h2 c hc))]
    exact (a3.trans b3).2 b i hb
  rw [if_neg h2]
  by_cases h3 : frequency ≤ 0
  · rw [if_pos h3]
    refine ⟨by unfold zt.transform; rw [if_neg h1, if_neg h2, if_pos h3], fun b i hb => ?_⟩
    rw [if_neg (by rintro ⟨-, -, h, -⟩; linarith)]
    exact (a3.trans b3).2 b i hb
  rw [if_neg h3, e4, ← last_strip _ h1]
  by_cases h4 : (zt.strip (u.read m)).getLastD 0 = 0
  · rw [if_pos h4]
    refine ⟨by unfold zt.transform; rw [if_neg h1, if_neg h2, if_neg h3]; dsimp only; rw [if_pos h4], fun b i hb => ?_⟩
    rw [if_neg (by rintro ⟨-, -, -, h, -⟩; exact h h4)]
    exact e3.2 b i hb
  rw [if_neg h4]
  have hUV := e6 hap
  have r1 : U.read (V.divide m1 ((zt.strip (u.read m)).getLastD 0)) = zt.strip (u.read m) := by
    rw [read_divide_apart _ _ _ _ hUV, e4]
  have hVU : V.buf = U.buf → ∀ i ∈ V.idx, i ∉ U.idx := fun h i hi hi' => hUV h.symm i hi' hi
  rw [r1]
  refine ⟨?_, fun b i hb => ?_⟩
  · rw [read_divide, r1, read_divide_apart _ _ _ _ hVU, read_divide, e5, rest_eq residue _ _ _ _ h1 h2 h3 h4]
  · rw [cell_divide, cell_divide, e3.2 b i hb]
    have h1' : ∃ c ∈ u.read m, c ≠ 0 := by push Not at h1; exact h1
    have h2' : ∃ c ∈ v.read m, c ≠ 0 := by push Not at h2; exact h2
    have hex : ¬ ((b = U.buf ∧ i ∈ U.idx) ∧ (b = V.buf ∧ i ∈ V.idx)) := fun h => hUV (h.1.1.symm.trans h.2.1) i h.1.2 h.2.2
    have hU := e7 b i hb
    have hV := e8 b i hb
    by_cases o1 : b = U.buf ∧ i ∈ U.idx
    · have o2 : ¬ (b = V.buf ∧ i ∈ V.idx) := fun h => hex ⟨o1, h⟩
      rw [if_pos o1, if_neg o2, if_pos ⟨h1', h2', not_le.mp h3, h4, .inl (hU.mp o1)⟩]
    · by_cases o2 : b = V.buf ∧ i ∈ V.idx
      · rw [if_neg o1, if_pos o2, if_pos ⟨h1', h2', not_le.mp h3, h4, .inr (hV.mp o2)⟩]
      · rw [if_neg o1, if_neg o2, if_neg]
        rintro ⟨-, -, -, -, h | h⟩
        · exact o1 (hU.mpr h)
        · exact o2 (hV.mpr h)

private theorem length_le (residue : List ℝ → List ℝ → List ℂ × List ℂ) (m : Mem) (u v : ZArg) (frequency : ℝ) (bilinear : Bool)
    (hu : u.Valid m) (hv : v.Valid m) : m.length ≤ (zt.transformRef residue m u v frequency bilinear).2.length := by
  obtain ⟨U, V, m1, e1, e2, e3, -⟩ := prepare m u v hu hv
  obtain ⟨-, -, a3, -⟩ := toArray_spec m u hu
  have hv' : v.Valid (u.toArray m).2 := by
    rcases v with _ | b
    · trivial
    · exact lt_of_lt_of_le hv a3.1
  obtain ⟨-, -, b3, -⟩ := toArray_spec _ v hv'
  unfold zt.transformRef
  dsimp only
  rw [e1, e2]
  dsimp only
  have l1 := a3.1
  have l2 := b3.1
  have l3 := e3.1
  split
  · exact l1
  split
  · exact l1.trans l2
  split
  · exact l1.trans l2
  split
  · exact l3
  · dsimp only
    rw [length_divide, length_divide]
    exact l3

/-- Concrete case: two arrays, valid and apart. -/
example : (ZArg.array ⟨0, [0, 1]⟩).Valid [[1, 2], [3]] ∧ (ZArg.array ⟨1, [0]⟩).Valid [[1, 2], [3]] ∧ (ZArg.array ⟨0, [0, 1]⟩).Apart (.array ⟨1, [0]⟩) := by
  refine ⟨by simp [ZArg.Valid], by simp [ZArg.Valid], fun a b ha hb h => ?_⟩
  cases ha
  cases hb
  simp at h

private theorem strip_div (v : List ℝ) (c : ℝ) (hc : c ≠ 0) : zt.strip (v.map (· / c)) = (zt.strip v).map (· / c) := by
  unfold zt.strip
  induction v with
  | nil => rfl
  | cons x v ih =>
    by_cases hx : x = 0
    · rw [List.map_cons, List.dropWhile_cons_of_pos (by simp [hx]), List.dropWhile_cons_of_pos (by simp [hx]), ih]
    · rw [List.map_cons, List.dropWhile_cons_of_neg (by simp [hx, hc]), List.dropWhile_cons_of_neg (by simp [hx]), List.map_cons]

private theorem roots_div (v : List ℝ) (c : ℝ) (hc : c ≠ 0) : np.roots (np.complexOf (v.map (· / c))) = np.roots (np.complexOf v) := by
  unfold np.roots
  rw [zt.complexOf_div, np.toPoly_map_mul, Polynomial.roots_C_mul _ (by simpa using hc)]

/-- The bilinear method is indifferent to the scale of the numerator. -/
private theorem scale_numerator (residue : List ℝ → List ℝ → List ℂ × List ℂ) (u v : List ℝ) (frequency c : ℝ) (hc : c ≠ 0) :
    zt.transform residue u (v.map (· / c)) frequency true = zt.transform residue u v frequency true := by
  unfold zt.transform
  have hz : (∀ w ∈ v.map (· / c), w = 0) ↔ ∀ w ∈ v, w = 0 := by simp [hc]
  simp only [hz]
  by_cases h1 : ∀ w ∈ u, w = 0
  · rw [if_pos h1, if_pos h1]
  by_cases h2 : ∀ w ∈ v, w = 0
  · rw [if_neg h1, if_neg h1, if_pos h2, if_pos h2]
  by_cases h3 : frequency ≤ 0
  · rw [if_neg h1, if_neg h1, if_neg h2, if_neg h2, if_pos h3, if_pos h3]
  by_cases h4 : (zt.strip u).getLastD 0 = 0
  · rw [if_neg h1, if_neg h1, if_neg h2, if_neg h2, if_neg h3, if_neg h3, if_pos h4, if_pos h4]
  have e : np.roots (np.complexOf ((zt.strip (v.map (· / c))).map (· / (zt.strip u).getLastD 0))) =
      np.roots (np.complexOf ((zt.strip v).map (· / (zt.strip u).getLastD 0))) := by
    rw [roots_div _ _ h4, roots_div _ _ h4, strip_div _ _ hc, roots_div _ _ hc]
  simp only [e, if_true]

private theorem last_ne (u : List ℝ) (h : u.getLastD 0 ≠ 0) : ∃ c ∈ u, c ≠ 0 := by
  refine ⟨u.getLastD 0, ?_, h⟩
  rcases u with _ | ⟨x, u⟩
  · simp at h
  · simp [List.getLastD_eq_getLast?, List.getLast?_eq_some_getLast]

/-- C149: `n` calls with a list of recursive coefficients and the same array of forward coefficients: every call returns the same, and the array
has been divided by the last recursive coefficient each time. -/
theorem C149_repeated (residue : List ℝ → List ℝ → List ℂ × List ℂ) (m : Mem) (u : List ℝ) (a : NdView) (frequency : ℝ) (n : ℕ)
    (ha : a.buf < m.length) (hu : u.getLastD 0 ≠ 0) (hv : ∃ c, (a.read m).head? = some c ∧ c ≠ 0) (hf : 0 < frequency) :
    a.read (zt.repeatRef residue (.list u) (.array a) frequency true n m) = (a.read m).map (· / u.getLastD 0 ^ n) ∧
    (zt.transformRef residue (zt.repeatRef residue (.list u) (.array a) frequency true n m) (.list u) (.array a) frequency true).1 =
      zt.transform residue u (a.read m) frequency true := by
  have hap : (ZArg.list u).Apart (.array a) := fun _ _ h => by cases h
  obtain ⟨c, hc, hc0⟩ := hv
  have main : ∀ n, m.length ≤ (zt.repeatRef residue (.list u) (.array a) frequency true n m).length ∧
      a.read (zt.repeatRef residue (.list u) (.array a) frequency true n m) = (a.read m).map (· / u.getLastD 0 ^ n) := by
    intro n
    induction n with
    | zero => exact ⟨le_rfl, by simp [zt.repeatRef]⟩
    | succ n ih =>
      set mn := zt.repeatRef residue (.list u) (.array a) frequency true n m with hmn
      have hlen : a.buf < mn.length := lt_of_lt_of_le ha ih.1
      have hhead : (a.read mn).head? = some (c / u.getLastD 0 ^ n) := by
        rw [ih.2, List.head?_map, hc]; rfl
      have hne : c / u.getLastD 0 ^ n ≠ 0 := div_ne_zero hc0 (pow_ne_zero _ hu)
      have h := (C149_apart residue mn (.list u) (.array a) frequency true trivial hlen hap).2
      have hbig : mn.length ≤ (zt.transformRef residue mn (.list u) (.array a) frequency true).2.length := length_le residue mn (.list u) (.array a) frequency true trivial hlen
      refine ⟨ih.1.trans hbig, ?_⟩
      show a.read (zt.transformRef residue mn (.list u) (.array a) frequency true).2 = _
      have e : a.read (zt.transformRef residue mn (.list u) (.array a) frequency true).2 = (a.read mn).map (· / u.getLastD 0) := by
        unfold NdView.read
        rw [List.map_map]
        refine List.map_congr_left fun i hi => ?_
        rw [h _ i hlen, if_pos]
        · rfl
        · refine ⟨last_ne u hu, ⟨_, List.mem_of_mem_head? hhead, hne⟩, hf, hu, .inr ⟨a, rfl, ?_, rfl, hi⟩⟩
          rw [hhead]
          simpa using hne
      rw [e, ih.2, List.map_map]
      refine List.map_congr_left fun w _ => ?_
      simp only [Function.comp]
      rw [pow_succ, div_div]
  refine ⟨(main n).2, ?_⟩
  rw [(C149_apart residue _ (.list u) (.array a) frequency true trivial (lt_of_lt_of_le ha (main n).1) hap).1]
  show zt.transform residue u (a.read _) frequency true = _
  rw [(main n).2, scale_numerator _ _ _ _ _ (pow_ne_zero _ hu)]

/-- Concrete case: three calls with the recursive coefficients 1, 2 leave an eighth. -/
example (residue : List ℝ → List ℝ → List ℂ × List ℂ) :
    (⟨0, [0]⟩ : NdView).read (zt.repeatRef residue (.list [1, 2]) (.array ⟨0, [0]⟩) 1 true 3 [[1]]) = [1 / 8] := by
  rw [(C149_repeated residue [[1]] [1, 2] ⟨0, [0]⟩ 1 3 (by simp) (by simp) ⟨1, by simp [NdView.read, Mem.cell], one_ne_zero⟩ one_pos).1]
  simp [NdView.read, Mem.cell]
  norm_num

private theorem last_div (l : List ℝ) (h : ¬ l.getLastD 0 = 0) : (l.map (· / l.getLastD 0)).getLastD 0 = 1 := by
  rw [List.getLastD_eq_getLast?] at h
  rw [List.getLastD_eq_getLast?, List.getLastD_eq_getLast?, List.getLast?_map]
  rcases hx : l.getLast? with _ | x
  · rw [hx] at h; exact absurd rfl h
  · rw [hx] at h
    exact div_self h

/-- C149: when both arguments are arrays whose first elements differ from zero, a second call returns the same and changes nothing more. -/
theorem C149_again (residue : List ℝ → List ℝ → List ℂ × List ℂ) (m : Mem) (a b : NdView) (frequency : ℝ) (bilinear : Bool)
    (ha : a.buf < m.length) (hb : b.buf < m.length) (hap : (ZArg.array a).Apart (.array b)) (hu : ∃ c, (a.read m).head? = some c ∧ c ≠ 0)
    (hv : ∃ c, (b.read m).head? = some c ∧ c ≠ 0) (hl : (a.read m).getLastD 0 ≠ 0) (hf : 0 < frequency) :
    let m' := (zt.transformRef residue m (.array a) (.array b) frequency bilinear).2
    a.read m' = (a.read m).map (· / (a.read m).getLastD 0) ∧ b.read m' = (b.read m).map (· / (a.read m).getLastD 0) ∧
    (zt.transformRef residue m' (.array a) (.array b) frequency bilinear).1 = (zt.transformRef residue m (.array a) (.array b) frequency bilinear).1 ∧
    ∀ k i, k < m.length → (zt.transformRef residue m' (.array a) (.array b) frequency bilinear).2.cell k i = m'.cell k i := by
  intro m'
  obtain ⟨c, hc, hc0⟩ := hu
  obtain ⟨e, he, he0⟩ := hv
  obtain ⟨h1, h2⟩ := C149_apart residue m (.array a) (.array b) frequency bilinear ha hb hap
  have hlen : m.length ≤ m'.length := length_le residue m (.array a) (.array b) frequency bilinear ha hb
  set d := (a.read m).getLastD 0 with hd
  have hnz : (∃ c ∈ (ZArg.array a).read m, c ≠ 0) ∧ ∃ c ∈ (ZArg.array b).read m, c ≠ 0 :=
    ⟨⟨c, List.mem_of_mem_head? hc, hc0⟩, ⟨e, List.mem_of_mem_head? he, he0⟩⟩
  have ra : a.read m' = (a.read m).map (· / d) := by
    unfold NdView.read
    rw [List.map_map]
    refine List.map_congr_left fun i hi => ?_
    rw [h2 _ i ha, if_pos]
    · rfl
    · exact ⟨hnz.1, hnz.2, hf, hl, .inl ⟨a, rfl, by rw [hc]; simpa using hc0, rfl, hi⟩⟩
  have rb : b.read m' = (b.read m).map (· / d) := by
    unfold NdView.read
    rw [List.map_map]
    refine List.map_congr_left fun i hi => ?_
    rw [h2 _ i hb, if_pos]
    · rfl
    · exact ⟨hnz.1, hnz.2, hf, hl, .inr ⟨b, rfl, by rw [he]; simpa using he0, rfl, hi⟩⟩
  have hlast : (a.read m').getLastD 0 = 1 := by rw [ra]; exact last_div _ hl
  obtain ⟨k1, k2⟩ := C149_apart residue m' (.array a) (.array b) frequency bilinear (lt_of_lt_of_le ha hlen) (lt_of_lt_of_le hb hlen) hap
  refine ⟨ra, rb, ?_, fun k i hk => ?_⟩
  · rw [k1, h1]
    show zt.transform residue (a.read m') (b.read m') frequency bilinear = zt.transform residue (a.read m) (b.read m) frequency bilinear
    have z1 : ¬ ∀ c ∈ a.read m, c = 0 := fun h => hc0 (h c (List.mem_of_mem_head? hc))
    have z2 : ¬ ∀ c ∈ b.read m, c = 0 := fun h => he0 (h e (List.mem_of_mem_head? he))
    have y1 : ¬ ∀ c ∈ a.read m', c = 0 := by rw [ra]; simpa [hl] using z1
    have y2 : ¬ ∀ c ∈ b.read m', c = 0 := by rw [rb]; simpa [hl] using z2
    have s1 : (zt.strip (a.read m)).getLastD 0 = d := last_strip _ z1
    have s2 : (zt.strip (a.read m')).getLastD 0 = 1 := (last_strip _ y1).trans hlast
    rw [← rest_eq residue _ _ _ _ z1 z2 (not_le.mpr hf) (by rw [s1]; exact hl), ← rest_eq residue _ _ _ _ y1 y2 (not_le.mpr hf) (by rw [s2]; exact one_ne_zero),
      s1, s2, ra, rb, strip_div _ _ hl, strip_div _ _ hl]
    simp
    rfl
  · rw [k2 k i (lt_of_lt_of_le hk hlen)]
    split
    · rw [show (ZArg.array a).read m' = a.read m' from rfl, hlast, div_one]
    · rfl

/-- Concrete case of `C149_again`. -/
example : (⟨0, [0, 1]⟩ : NdView).read [[1, 2], [3]] = [1, 2] ∧ (⟨1, [0]⟩ : NdView).read [[1, 2], [3]] = [3] := by
  simp [NdView.read, Mem.cell]

/-- C149: one array for both arguments does no harm. -/
theorem C149_same (residue : List ℝ → List ℝ → List ℂ × List ℂ) (m : Mem) (a : NdView) (frequency : ℝ) (bilinear : Bool) (ha : a.buf < m.length) :
    (zt.transformRef residue m (.array a) (.array a) frequency bilinear).1 = zt.transform residue (a.read m) (a.read m) frequency bilinear := by
  unfold zt.transformRef ZArg.toArray
  dsimp only
  by_cases h1 : ∀ c ∈ a.read m, c = 0
  · rw [if_pos h1]
    unfold zt.transform
    rw [if_pos h1]
  by_cases h3 : frequency ≤ 0
  · rw [if_neg h1, if_neg h1, if_pos h3]
    unfold zt.transform
    rw [if_neg h1, if_neg h1, if_pos h3]
  rw [if_neg h1, if_neg h1, if_neg h3]
  have hls := last_strip _ h1
  obtain ⟨c1, c2, c3, c4⟩ := stripRef_spec m a ha
  rcases c4 with ⟨c4, c5⟩ | ⟨c4, c5⟩
  · generalize zt.stripRef m a = u2 at *
    obtain ⟨d1, d2, d3, d4⟩ := stripRef_spec u2.2 a (lt_of_lt_of_le ha c3.1)
    rw [c3.read a ha] at d2 d4
    generalize zt.stripRef u2.2 a = v2 at *
    have hbuf : v2.1.buf ≠ u2.1.buf := by
      rcases d4 with ⟨d4, -⟩ | ⟨-, d5⟩
      · omega
      · exact absurd c5 d5
    rw [d3.read _ c1, c2]
    by_cases h4 : (zt.strip (a.read m)).getLastD 0 = 0
    · rw [if_pos h4]
      unfold zt.transform
      rw [if_neg h1, if_neg h1, if_neg h3]
      dsimp only
      rw [if_pos h4]
    rw [if_neg h4]
    have r1 : u2.1.read (v2.1.divide v2.2 ((zt.strip (a.read m)).getLastD 0)) = zt.strip (a.read m) := by
      rw [read_divide_apart _ _ _ _ (fun h => absurd h.symm hbuf), d3.read _ c1, c2]
    rw [r1]
    dsimp only
    rw [read_divide, r1, read_divide_apart _ _ _ _ (fun h => absurd h hbuf), read_divide, d2, rest_eq residue _ _ _ _ h1 h1 h3 h4]
  · have e1 : zt.stripRef m a = (a, m) := by
      unfold zt.stripRef
      rw [if_neg c5]
    have hs : zt.strip (a.read m) = a.read m := by rw [← c2, e1]
    rw [e1]
    dsimp only
    rw [e1]
    dsimp only
    by_cases h4 : (a.read m).getLastD 0 = 0
    · rw [if_pos h4]
      unfold zt.transform
      rw [if_neg h1, if_neg h1, if_neg h3]
      dsimp only
      rw [if_pos (hls.trans h4)]
    rw [if_neg h4, ← rest_eq residue _ _ _ _ h1 h1 h3 (by rw [hls]; exact h4), hs]
    rw [read_divide, read_divide, last_div _ h4]
    simp
    rfl

/-- Two samples of memory. -/
example (residue : List ℝ → List ℝ → List ℂ × List ℂ) := C149_same residue [[1, 2]] ⟨0, [0, 1]⟩ (1 / 2) true (by simp)

private theorem roots_two (c : ℝ) : np.roots (np.complexOf [1, c]) = [-(c : ℂ)] := by
  have : np.toPoly (np.complexOf [1, c]) = Polynomial.X + Polynomial.C (c : ℂ) := by
    simp [np.complexOf, np.toPoly]
  rw [np.roots, this, Polynomial.roots_X_add_C]
  simp

/-- C149: when `v` is a part of `u` the result is wrong.  For `u = numpy.array([1.0, 2.0])` and `v = u[1:]`, which stand for 2 / (s + 2), the
coefficient returned is a third, which belongs to a pole at -1; for the values it is zero. -/
theorem C149_overlap (residue : List ℝ → List ℝ → List ℂ × List ℂ) :
    (ZArg.array ⟨0, [0, 1]⟩).read [[1, 2]] = [1, 2] ∧ (ZArg.array ⟨0, [1]⟩).read [[1, 2]] = [2] ∧
    (∃ b, (zt.transformRef residue [[1, 2]] (.array ⟨0, [0, 1]⟩) (.array ⟨0, [1]⟩) (1 / Real.pi) true).1 = .ok (some [0, 1 / 3], b)) ∧
    ∃ b, zt.transform residue [1, 2] [2] (1 / Real.pi) true = .ok (some [0, 0], b) := by
  have ht : 1 / (Real.pi * (1 / Real.pi)) = 1 := by
    have := Real.pi_ne_zero
    field_simp
  have hpi : ¬ 1 / Real.pi ≤ 0 := not_le.mpr (by positivity)
  have value : ∀ (c : ℝ) (w v : List ℝ), w.length = 2 → np.roots (np.complexOf w) = [-(c : ℂ)] → -(c : ℂ) ≠ 2 →
      ∃ b, zt.rest residue w v (1 / Real.pi) true = .ok (some (zt.recursive ((np.poly [zt.bilinear 2 (-(c : ℂ))]).map Complex.re)), b) := by
    intro c w v hw hr hc
    unfold zt.rest
    rw [if_neg (by omega), hr]
    dsimp only
    have h2 : 2 * ((1 : ℝ) : ℂ) = 2 := by simp
    rw [if_pos rfl, ht, h2, if_neg (by simpa using hc.symm)]
    exact ⟨_, rfl⟩
  have f1 : zt.bilinear 2 (-((1 : ℝ) : ℂ)) = ((1 / 3 : ℝ) : ℂ) := by
    unfold zt.bilinear
    push_cast
    norm_num
  have f2 : zt.bilinear 2 (-((2 : ℝ) : ℂ)) = ((0 : ℝ) : ℂ) := by
    unfold zt.bilinear
    push_cast
    norm_num
  have g : ∀ c : ℝ, zt.recursive ((np.poly [((c : ℝ) : ℂ)]).map Complex.re) = [0, c] := by
    intro c
    simp [zt.recursive, np.poly, np.convolve]
  refine ⟨by simp [ZArg.read, NdView.read, Mem.cell], by simp [ZArg.read, NdView.read, Mem.cell], ?_, ?_⟩
  · obtain ⟨b, hb⟩ := value 1 [1, 1] [1] rfl (roots_two 1) (by norm_num)
    rw [f1, g] at hb
    refine ⟨b, ?_⟩
    rw [← hb]
    have r1 : (⟨0, [0, 1]⟩ : NdView).read [[1, 2]] = [1, 2] := by simp [NdView.read, Mem.cell]
    have r2 : (⟨0, [1]⟩ : NdView).read [[1, 2]] = [2] := by simp [NdView.read, Mem.cell]
    have s1 : zt.stripRef [[1, 2]] ⟨0, [0, 1]⟩ = (⟨0, [0, 1]⟩, [[1, 2]]) := by
      unfold zt.stripRef
      rw [r1, if_neg (by simp)]
    have s2 : zt.stripRef [[1, 2]] ⟨0, [1]⟩ = (⟨0, [1]⟩, [[1, 2]]) := by
      unfold zt.stripRef
      rw [r2, if_neg (by simp)]
    have d1 : (⟨0, [1]⟩ : NdView).divide [[1, 2]] 2 = [[1, 1]] := by
      simp [NdView.divide]
    have d2 : (⟨0, [0, 1]⟩ : NdView).divide [[1, 1]] 1 = [[1, 1]] := by
      simp [NdView.divide]
    have r3 : (⟨0, [0, 1]⟩ : NdView).read [[1, 1]] = [1, 1] := by simp [NdView.read, Mem.cell]
    have r4 : (⟨0, [1]⟩ : NdView).read [[1, 1]] = [1] := by simp [NdView.read, Mem.cell]
    unfold zt.transformRef ZArg.toArray
    dsimp only
    rw [r1, r2, if_neg (by simp), if_neg (by simp), if_neg hpi, s1]
    dsimp only
    rw [s2]
    dsimp only
    rw [r1]
    simp only [List.getLastD_cons, List.getLastD_nil]
    rw [if_neg (by norm_num), d1, r3]
    simp only [List.getLastD_cons, List.getLastD_nil]
    rw [d2, r3, r4]
  · have hs : zt.strip [1, 2] = [1, 2] := by
      unfold zt.strip
      rw [List.dropWhile_cons_of_neg (by simp)]
    have h := rest_eq residue [1, 2] [2] (1 / Real.pi) true (by simp) (by simp) hpi (by rw [hs]; simp)
    rw [← h, hs]
    obtain ⟨b, hb⟩ := value 2 ([1, 2].map (· / ([1, 2] : List ℝ).getLastD 0)) ((zt.strip [2]).map (· / ([1, 2] : List ℝ).getLastD 0)) rfl
      ((roots_div _ _ (by simp)).trans (roots_two 2)) (by norm_num)
    rw [f2, g] at hb
    exact ⟨b, hb⟩

end Verif.Props
