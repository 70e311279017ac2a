import Verif.Lemmas.Wavelet

namespace Verif

open Finset Spec

/-- A length accepted by `transform`. -/
def wav.Fits (d count : ℕ) : Prop := d = 1 ∨ (0 < d ∧ 2 ^ count ∣ d)

theorem wav.Fits.pos {d count : ℕ} (h : wav.Fits d count) : 0 < d := by rcases h with h | h <;> omega

theorem wav.Fits.trunc {d count : ℕ} (h : wav.Fits d (count + 1)) : max (d / 2 ^ (count + 1) * 2 ^ (count + 1)) 1 = d := by
  rcases h with h | ⟨h, h'⟩
  · subst h
    have : 1 / 2 ^ (count + 1) = 0 := Nat.div_eq_of_lt (Nat.one_lt_two_pow (by omega))
    rw [this]; omega
  · rw [Nat.div_mul_cancel h']; omega

theorem wav.Fits.half {d count : ℕ} (h : wav.Fits d (count + 1)) : wav.Fits (max (d / 2) 1) count ∧ max (d / 2) 1 ≤ d := by
  have hp := h.pos
  refine ⟨?_, by omega⟩
  rcases h with h | ⟨h, q, h'⟩
  · left; subst h; rfl
  · have e : d / 2 = 2 ^ count * q := by rw [h', pow_succ]; rw [show 2 ^ count * 2 * q = 2 * (2 ^ count * q) by ring]; omega
    have hq : 0 < q := by
      rcases Nat.eq_zero_or_pos q with h0 | h0
      · subst h0; omega
      · exact h0
    have : 0 < 2 ^ count * q := Nat.mul_pos (by positivity) hq
    right
    refine ⟨by omega, q, by omega⟩

theorem wav.Fits.even {d count : ℕ} (h : wav.Fits d (count + 1)) (h1 : 1 < d) : ∃ M, 0 < M ∧ d = 2 * M := by
  rcases h with h | ⟨h, q, h'⟩
  · omega
  · refine ⟨2 ^ count * q, ?_, by rw [h']; ring⟩
    rcases Nat.eq_zero_or_pos (2 ^ count * q) with h0 | h0
    · rw [h', pow_succ, show 2 ^ count * 2 * q = 2 * (2 ^ count * q) by ring, h0] at h; omega
    · exact h0

theorem wav.Fits.ok {r c count : ℕ} (hr : wav.Fits r count) (hc : wav.Fits c count) : ¬ wav.bad r c count := by
  rintro (⟨h1, h2⟩ | ⟨h1, h2⟩)
  · rcases hr with h | ⟨_, h⟩
    · exact h1 h
    · exact h2 (Nat.mod_eq_zero_of_dvd h)
  · rcases hc with h | ⟨_, h⟩
    · exact h1 h
    · exact h2 (Nat.mod_eq_zero_of_dvd h)

/-- One level of analysis. -/
noncomputable def wav.fstep (A : List ℝ → List ℝ) (rr cc : ℕ) (x : ℕ → ℕ → ℝ) : ℕ → ℕ → ℝ :=
  let v := if cc > 1 then wav.mapRows A rr cc x else x
  if rr > 1 then wav.mapCols A rr cc v else v

/-- One level of synthesis. -/
noncomputable def wav.bstep (S : List ℝ → List ℝ) (rr cc : ℕ) (y : ℕ → ℕ → ℝ) : ℕ → ℕ → ℝ :=
  let y := if rr > 1 then wav.mapCols S rr cc y else y
  if cc > 1 then wav.mapRows S rr cc y else y

theorem wav.forward_eq (cast : ℝ → ℝ) (b : List ℝ × List ℝ) (count r c : ℕ) (v : ℕ → ℕ → ℝ) (hr : wav.Fits r (count + 1)) (hc : wav.Fits c (count + 1)) :
    wav.forward cast b (count + 1) ⟨r, c, v⟩ =
      if count = 0 then .ok ⟨r, c, wav.fstep (wav.analyse cast b) r c v⟩
      else match wav.forward cast b count ⟨max (r / 2) 1, max (c / 2) 1, wav.fstep (wav.analyse cast b) r c v⟩ with
        | .error e => .error e
        | .ok q => .ok ⟨r, c, wav.patch (max (r / 2) 1) (max (c / 2) 1) q.val (wav.fstep (wav.analyse cast b) r c v)⟩ := by
  have h1 := hr.pos
  have h2 := hc.pos
  rw [wav.forward]
  simp only [hr.trunc, hc.trunc]
  rw [if_neg (by omega), if_neg (hr.ok hc), if_neg (by omega), min_eq_left hr.half.2, min_eq_left hc.half.2]
  by_cases h0 : count = 0
  · rw [if_neg (by omega), if_pos h0]; rfl
  · rw [if_pos (by omega), if_neg h0]; rfl

theorem wav.backward_eq (cast : ℝ → ℝ) (b : List ℝ × List ℝ) (count r c : ℕ) (v : ℕ → ℕ → ℝ) (hr : wav.Fits r (count + 1)) (hc : wav.Fits c (count + 1)) :
    wav.backward cast b (count + 1) ⟨r, c, v⟩ =
      if count = 0 then .ok ⟨r, c, wav.bstep (wav.synthesise cast b) r c v⟩
      else match wav.backward cast b count ⟨max (r / 2) 1, max (c / 2) 1, v⟩ with
        | .error e => .error e
        | .ok q => .ok ⟨r, c, wav.bstep (wav.synthesise cast b) r c (wav.patch (max (r / 2) 1) (max (c / 2) 1) q.val v)⟩ := by
  have h1 := hr.pos
  have h2 := hc.pos
  rw [wav.backward]
  simp only [hr.trunc, hc.trunc]
  rw [if_neg (by omega), if_neg (hr.ok hc), if_neg (by omega), min_eq_left hr.half.2, min_eq_left hc.half.2]
  by_cases h0 : count = 0
  · rw [if_neg (by omega), if_pos h0]; rfl
  · rw [if_pos (by omega), if_neg h0]
    cases wav.backward cast b count ⟨max (r / 2) 1, max (c / 2) 1, v⟩ <;> rfl

/-- Fitting lengths are accepted at every level, and the shape is kept. -/
theorem wav.forward_ok (cast : ℝ → ℝ) (b : List ℝ × List ℝ) (count : ℕ) : ∀ (r c : ℕ) (v : ℕ → ℕ → ℝ), wav.Fits r (count + 1) → wav.Fits c (count + 1) →
    ∃ y, wav.forward cast b (count + 1) ⟨r, c, v⟩ = .ok ⟨r, c, y⟩ := by
  induction count with
  | zero => intro r c v hr hc; rw [wav.forward_eq _ _ _ _ _ _ hr hc, if_pos rfl]; exact ⟨_, rfl⟩
  | succ n ih =>
    intro r c v hr hc
    rw [wav.forward_eq _ _ _ _ _ _ hr hc, if_neg (by omega)]
    obtain ⟨y, hy⟩ := ih _ _ (wav.fstep (wav.analyse cast b) r c v) hr.half.1 hc.half.1
    rw [hy]; exact ⟨_, rfl⟩

theorem wav.backward_ok (cast : ℝ → ℝ) (b : List ℝ × List ℝ) (count : ℕ) : ∀ (r c : ℕ) (v : ℕ → ℕ → ℝ), wav.Fits r (count + 1) → wav.Fits c (count + 1) →
    ∃ y, wav.backward cast b (count + 1) ⟨r, c, v⟩ = .ok ⟨r, c, y⟩ := by
  induction count with
  | zero => intro r c v hr hc; rw [wav.backward_eq _ _ _ _ _ _ hr hc, if_pos rfl]; exact ⟨_, rfl⟩
  | succ n ih =>
    intro r c v hr hc
    rw [wav.backward_eq _ _ _ _ _ _ hr hc, if_neg (by omega)]
    obtain ⟨y, hy⟩ := ih _ _ v hr.half.1 hc.half.1
    rw [hy]; exact ⟨_, rfl⟩

/-- Equal within a shape. -/
def wav.Agree (r c : ℕ) (u v : ℕ → ℕ → ℝ) : Prop := ∀ i < r, ∀ j < c, u i j = v i j

theorem wav.mapRows_congr (f : List ℝ → List ℝ) (r c : ℕ) (u v : ℕ → ℕ → ℝ) (h : wav.Agree r c u v) : wav.Agree r c (wav.mapRows f r c u) (wav.mapRows f r c v) := by
  intro i hi j hj
  unfold wav.mapRows
  rw [if_pos ⟨hi, hj⟩, if_pos ⟨hi, hj⟩]
  congr 2
  apply List.map_congr_left
  intro k hk
  exact h i hi k (List.mem_range.mp hk)

theorem wav.mapCols_congr (f : List ℝ → List ℝ) (r c : ℕ) (u v : ℕ → ℕ → ℝ) (h : wav.Agree r c u v) : wav.Agree r c (wav.mapCols f r c u) (wav.mapCols f r c v) := by
  intro i hi j hj
  unfold wav.mapCols
  rw [if_pos ⟨hi, hj⟩, if_pos ⟨hi, hj⟩]
  congr 2
  apply List.map_congr_left
  intro k hk
  exact h k (List.mem_range.mp hk) j hj

theorem wav.bstep_congr (S : List ℝ → List ℝ) (r c : ℕ) (u v : ℕ → ℕ → ℝ) (h : wav.Agree r c u v) : wav.Agree r c (wav.bstep S r c u) (wav.bstep S r c v) := by
  have h1 : wav.Agree r c (if r > 1 then wav.mapCols S r c u else u) (if r > 1 then wav.mapCols S r c v else v) := by
    split
    · exact wav.mapCols_congr S r c u v h
    · exact h
  unfold wav.bstep
  simp only
  split
  · exact wav.mapRows_congr S r c _ _ h1
  · exact h1

theorem wav.Agree.patch {r c ii jj : ℕ} {u v p q : ℕ → ℕ → ℝ} (hp : wav.Agree ii jj p q) (h : wav.Agree r c u v) :
    wav.Agree r c (wav.patch ii jj p u) (wav.patch ii jj q v) := by
  intro i hi j hj
  unfold wav.patch
  split
  · rename_i h'; exact hp i h'.1 j h'.2
  · exact h i hi j hj

/-- Synthesis looks only at the values within the shape. -/
theorem wav.backward_congr (cast : ℝ → ℝ) (b : List ℝ × List ℝ) (count : ℕ) : ∀ (r c : ℕ) (u v : ℕ → ℕ → ℝ), wav.Fits r (count + 1) → wav.Fits c (count + 1) →
    wav.Agree r c u v → ∃ y z, wav.backward cast b (count + 1) ⟨r, c, u⟩ = .ok ⟨r, c, y⟩ ∧ wav.backward cast b (count + 1) ⟨r, c, v⟩ = .ok ⟨r, c, z⟩ ∧
      wav.Agree r c y z := by
  induction count with
  | zero =>
    intro r c u v hr hc h
    rw [wav.backward_eq _ _ _ _ _ _ hr hc, wav.backward_eq _ _ _ _ _ _ hr hc, if_pos rfl, if_pos rfl]
    exact ⟨_, _, rfl, rfl, wav.bstep_congr _ _ _ _ _ h⟩
  | succ n ih =>
    intro r c u v hr hc h
    rw [wav.backward_eq _ _ _ _ _ _ hr hc, wav.backward_eq _ _ _ _ _ _ hr hc, if_neg (by omega), if_neg (by omega)]
    obtain ⟨y, z, hy, hz, hyz⟩ := ih _ _ u v hr.half.1 hc.half.1
      (fun i hi j hj => h i (lt_of_lt_of_le hi hr.half.2) j (lt_of_lt_of_le hj hc.half.2))
    rw [hy, hz]
    exact ⟨_, _, rfl, rfl, wav.bstep_congr _ _ _ _ _ (hyz.patch h)⟩

theorem wav.range_getD (l : List ℝ) (n : ℕ) (h : l.length = n) : ((List.range n).map fun j => l.getD j 0) = l := by
  apply List.ext_getElem
  · simp [h]
  · intro i h1 h2
    simp [List.getD_eq_getElem?_getD, List.getElem?_eq_getElem h2]

/-- A pair of line operations, the second undoing the first. -/
structure wav.Undo (A S : List ℝ → List ℝ) : Prop where
  len : ∀ l M, 0 < M → l.length = 2 * M → (A l).length = l.length
  undo : ∀ l M, 0 < M → l.length = 2 * M → S (A l) = l

theorem wav.mapRows_undo {A S : List ℝ → List ℝ} (h : wav.Undo A S) (r c M : ℕ) (hM : 0 < M) (hc : c = 2 * M) (v : ℕ → ℕ → ℝ) :
    wav.Agree r c (wav.mapRows S r c (wav.mapRows A r c v)) v := by
  intro i hi j hj
  have hl : ((List.range c).map fun j => v i j).length = c := by simp
  have e : ((List.range c).map fun j => wav.mapRows A r c v i j) = A ((List.range c).map fun j => v i j) := by
    rw [← wav.range_getD (A ((List.range c).map fun j => v i j)) c (by rw [h.len _ M hM (by rw [hl, hc]), hl])]
    apply List.map_congr_left
    intro k hk
    unfold wav.mapRows
    rw [if_pos ⟨hi, List.mem_range.mp hk⟩]
  rw [wav.mapRows, if_pos ⟨hi, hj⟩, e, h.undo _ M hM (by rw [hl, hc])]
  simp [List.getD_eq_getElem?_getD, hj]

theorem wav.mapCols_undo {A S : List ℝ → List ℝ} (h : wav.Undo A S) (r c M : ℕ) (hM : 0 < M) (hr : r = 2 * M) (v : ℕ → ℕ → ℝ) :
    wav.Agree r c (wav.mapCols S r c (wav.mapCols A r c v)) v := by
  intro i hi j hj
  have hl : ((List.range r).map fun i => v i j).length = r := by simp
  have e : ((List.range r).map fun i => wav.mapCols A r c v i j) = A ((List.range r).map fun i => v i j) := by
    rw [← wav.range_getD (A ((List.range r).map fun i => v i j)) r (by rw [h.len _ M hM (by rw [hl, hr]), hl])]
    apply List.map_congr_left
    intro k hk
    unfold wav.mapCols
    rw [if_pos ⟨List.mem_range.mp hk, hj⟩]
  rw [wav.mapCols, if_pos ⟨hi, hj⟩, e, h.undo _ M hM (by rw [hl, hr])]
  simp [List.getD_eq_getElem?_getD, hi]

theorem wav.step_undo {A S : List ℝ → List ℝ} (h : wav.Undo A S) (r c count : ℕ) (hr : wav.Fits r (count + 1)) (hc : wav.Fits c (count + 1)) (v : ℕ → ℕ → ℝ) :
    wav.Agree r c (wav.bstep S r c (wav.fstep A r c v)) v := by
  have h1 : ∀ u, wav.Agree r c (if r > 1 then wav.mapCols S r c (if r > 1 then wav.mapCols A r c u else u) else (if r > 1 then wav.mapCols A r c u else u)) u := by
    intro u
    split
    · rename_i h'
      obtain ⟨M, hM, e⟩ := hr.even h'
      exact wav.mapCols_undo h r c M hM e u
    · exact fun _ _ _ _ => rfl
  unfold wav.bstep wav.fstep
  simp only
  by_cases hc1 : c > 1
  · obtain ⟨M, hM, e⟩ := hc.even hc1
    simp only [hc1, if_true]
    intro i hi j hj
    rw [wav.mapRows_congr S r c _ _ (h1 (wav.mapRows A r c v)) i hi j hj]
    exact wav.mapRows_undo h r c M hM e v i hi j hj
  · simp only [hc1, if_false]
    exact h1 v

/-- Perfect reconstruction at every depth, from perfect reconstruction of a line without delay. -/
theorem wav.undo (cast : ℝ → ℝ) (b d : List ℝ × List ℝ) (h : wav.Undo (wav.analyse cast b) (wav.synthesise cast d)) (count : ℕ) :
    ∀ (r c : ℕ) (v : ℕ → ℕ → ℝ), wav.Fits r (count + 1) → wav.Fits c (count + 1) →
      ∃ y z, wav.forward cast b (count + 1) ⟨r, c, v⟩ = .ok ⟨r, c, y⟩ ∧ wav.backward cast d (count + 1) ⟨r, c, y⟩ = .ok ⟨r, c, z⟩ ∧ wav.Agree r c z v := by
  induction count with
  | zero =>
    intro r c v hr hc
    refine ⟨wav.fstep (wav.analyse cast b) r c v, wav.bstep (wav.synthesise cast d) r c (wav.fstep (wav.analyse cast b) r c v), ?_, ?_, ?_⟩
    · rw [wav.forward_eq _ _ _ _ _ _ hr hc, if_pos rfl]
    · rw [wav.backward_eq _ _ _ _ _ _ hr hc, if_pos rfl]
    · exact wav.step_undo h r c 0 hr hc v
  | succ n ih =>
    intro r c v hr hc
    have e1 := wav.forward_eq cast b (n + 1) r c v hr hc
    rw [if_neg (by omega)] at e1
    set f := wav.fstep (wav.analyse cast b) r c v with hf
    obtain ⟨y, z, hy, hz, hzf⟩ := ih _ _ f hr.half.1 hc.half.1
    rw [hy] at e1
    have e2 := wav.backward_eq cast d (n + 1) r c (wav.patch (max (r / 2) 1) (max (c / 2) 1) y f) hr hc
    rw [if_neg (by omega)] at e2
    obtain ⟨y1, z1, hy1, hz1, hyz⟩ := wav.backward_congr cast d n _ _ (wav.patch (max (r / 2) 1) (max (c / 2) 1) y f) y hr.half.1 hc.half.1
      (fun i hi j hj => by unfold wav.patch; rw [if_pos ⟨hi, hj⟩])
    rw [hy1] at e2
    have ez : z1 = z := by
      rw [hz] at hz1
      simpa using hz1.symm
    refine ⟨_, _, e1, e2, ?_⟩
    intro i hi j hj
    rw [wav.bstep_congr (wav.synthesise cast d) r c _ f ?_ i hi j hj]
    · exact wav.step_undo h r c _ hr hc v i hi j hj
    · intro i hi j hj
      unfold wav.patch
      simp only
      split
      · rename_i h'
        rw [hyz i h'.1 j h'.2, ez, hzf i h'.1 j h'.2]
      · rfl

end Verif
