import Verif.Lemmas.Iir
import Verif.Model.Goertzel
import Verif.Spec.Blocks

/-
GoertzelFilter: block structure.
-/

namespace Verif

open Spec

variable {R F : Type*}

/-- Weighted samples of a (possibly incomplete) block. -/
def weighted [Mul R] (u : R) (w l : List R) : List R := List.zipWith (fun wi x => u * wi * x) w l

/-- The filter started from `i0` on the weighted samples. -/
def feed [Add R] [Mul R] [Dot R] (i0 : Iir R) (u : R) (w l : List R) : Res (List R) × Iir R :=
  runLoop Iir.step i0 (weighted u w l)

/-- The value a block yields: the last output of the filter run from the zero state. -/
def blockValue [Add R] [Mul R] [Dot R] (i0 : Iir R) (u : R) (w l : List R) : Option R :=
  match (feed i0 u w l).1 with
  | .ok ys => ys.getLast?
  | .error _ => none

/-- Zero state. -/
def Iir.Zeroed [Zero R] (i : Iir R) : Prop := i.s = i.s.map (fun _ => i.cast 0)

theorem Iir.runLoop_wf [Add R] [Mul R] [Dot R] (f : Iir R) (hf : f.WF) (xs : List R) :
    ∃ ys f', runLoop Iir.step f xs = (.ok ys, f') ∧ f'.WF ∧ f'.a = f.a ∧ f'.b = f.b ∧ f'.cast = f.cast ∧
      ys.length = xs.length := by
  have h := runLoop_inv Iir.step (fun g => g.WF ∧ g.a = f.a ∧ g.b = f.b ∧ g.cast = f.cast) (by
    rintro st x ⟨h1, h2, h3, h4⟩
    obtain ⟨k1, k2, k3, k4⟩ := Iir.step_wf_wf st h1 x
    exact ⟨⟨_, by rw [Iir.step_wf st h1 x]⟩, k1, k2.trans h2, k3.trans h3, k4.trans h4⟩) f ⟨hf, rfl, rfl, rfl⟩ xs
  obtain ⟨⟨ys, hy⟩, h1, h2, h3, h4⟩ := h
  rcases hr : runLoop Iir.step f xs with ⟨r, f'⟩
  rw [hr] at hy h1 h2 h3 h4
  simp only at hy; subst hy
  exact ⟨ys, f', rfl, h1, h2, h3, h4, runLoop_ok_length _ _ _ _ _ hr⟩

/-- The instance has consumed `pre` of the current block. -/
def Goertzel.Inv [Zero R] [Add R] [Mul R] [Dot R] (g : Goertzel R F) (i0 : Iir R) (u : R) (pre : List R) : Prop :=
  i0.WF ∧ i0.Zeroed ∧ g.index = pre.length ∧ pre.length < g.w.length ∧ g.iir = (feed i0 u g.w pre).2

theorem weighted_append [Mul R] (u : R) (w pre : List R) (x wi : R) (h : w[pre.length]? = some wi) :
    weighted u w (pre ++ [x]) = weighted u w pre ++ [u * wi * x] := by
  unfold weighted
  induction pre generalizing w with
  | nil =>
    cases w with
    | nil => simp at h
    | cons a t => simp at h; simp [h]
  | cons p pre ih =>
    cases w with
    | nil => simp at h
    | cons a t => simp at h; simp [ih t h]

theorem Goertzel.step_spec [Zero R] [Add R] [Mul R] [Dot R] (g : Goertzel R F) (i0 : Iir R) (u : R) (pre : List R)
    (h : g.Inv i0 u pre) (x : R) :
    (pre.length + 1 < g.w.length → ∃ g', g.step u x = (.ok none, g') ∧ g'.w = g.w ∧ g'.frequency = g.frequency ∧
      g'.Inv i0 u (pre ++ [x])) ∧
    (pre.length + 1 = g.w.length → ∃ v g', g.step u x = (.ok (some v), g') ∧ g'.w = g.w ∧
      g'.frequency = g.frequency ∧ blockValue i0 u g.w (pre ++ [x]) = some v ∧ g'.Inv i0 u []) := by
  obtain ⟨hwf, hz, hidx, hlt, hiir⟩ := h
  have hwi : g.w[g.index]? = some (g.w[pre.length]'hlt) := by rw [hidx, List.getElem?_eq_getElem hlt]
  have hwi' : g.w[pre.length]? = some (g.w[pre.length]'hlt) := List.getElem?_eq_getElem hlt
  obtain ⟨ys, i1, e1, w1, a1, b1, c1, l1⟩ := Iir.runLoop_wf i0 hwf (weighted u g.w pre)
  have hiir' : g.iir = i1 := by rw [hiir, feed, e1]
  set wi := g.w[pre.length]'hlt
  have hst := Iir.step_wf i1 w1 (u * wi * x)
  obtain ⟨w2, a2, b2, c2⟩ := Iir.step_wf_wf i1 w1 (u * wi * x)
  rcases hv : Iir.step i1 (u * wi * x) with ⟨r, i2⟩
  rw [hv] at hst w2 a2 b2 c2
  simp only at w2 a2 b2 c2
  obtain ⟨v, rfl⟩ : ∃ v, r = .ok v := ⟨_, (Prod.mk.inj hst).1⟩
  have hfilt : Iir.filter g.iir [u * wi * x] = (.ok [v], i2) := by
    simp [Iir.filter, runLoop, hiir', hv]
  have hfeed : feed i0 u g.w (pre ++ [x]) = (.ok (ys ++ [v]), i2) := by
    rw [feed, weighted_append u g.w pre x wi hwi', runLoop_append, e1]
    simp [thenRun, runLoop, hv]
  constructor
  · intro hlt2
    refine ⟨{ g with iir := i2, index := g.index + 1 }, ?_, rfl, rfl, hwf, hz, ?_, ?_, ?_⟩
    · have : ¬ (g.w.length ≤ g.index + 1) := by omega
      simp [Goertzel.step, hwi, hfilt, this]
    · simp [hidx]
    · simpa using hlt2
    · simp [hfeed]
  · intro heq
    refine ⟨v, { g with iir := { i2 with s := i2.s.map (fun _ => i2.cast 0) }, index := 0 }, ?_, rfl, rfl, ?_,
      hwf, hz, rfl, ?_, ?_⟩
    · have : g.w.length ≤ g.index + 1 := by omega
      simp [Goertzel.step, hwi, hfilt, this]
    · simp [blockValue, hfeed]
    · simp; omega
    · simp only [feed, weighted, List.zipWith_nil_right, runLoop]
      have hl : i2.s.length = i0.s.length := by
        rw [← w2.2.1, ← hwf.2.1, b2, b1]
      have hs : i2.s.map (fun _ => i2.cast 0) = i0.s := by
        rw [hz, c2, c1, List.map_const', List.map_const', hl]
      rw [hs, a2, b2, c2, a1, b1, c1]

theorem blocks_short {N : ℕ} (l : List R) (h : l.length < N) : blocks N l = [] := by
  simp [blocks, Nat.div_eq_of_lt h]

theorem blocks_cons {N : ℕ} (hN : 0 < N) (b l : List R) (h : b.length = N) : blocks N (b ++ l) = b :: blocks N l := by
  unfold blocks
  rw [List.length_append, h, Nat.add_div_left _ hN, List.range_succ_eq_map]
  simp only [List.map_cons, List.map_map, Nat.zero_mul, List.drop_zero]
  congr 1
  · rw [← h]; simp
  · apply List.map_congr_left
    intro m _
    simp only [Function.comp]
    congr 1
    rw [List.drop_append, h, List.drop_eq_nil_of_le (by rw [h]; exact Nat.le_mul_of_pos_left _ (Nat.succ_pos m))]
    simp only [List.nil_append]
    congr 1
    rw [Nat.succ_mul]; omega

theorem rest_short {N : ℕ} (l : List R) (h : l.length < N) : rest N l = l := by
  simp [rest, Nat.div_eq_of_lt h]

theorem rest_cons {N : ℕ} (hN : 0 < N) (b l : List R) (h : b.length = N) : rest N (b ++ l) = rest N l := by
  unfold rest
  rw [List.length_append, h, Nat.add_div_left _ hN, List.drop_append, h,
    List.drop_eq_nil_of_le (by rw [h]; exact Nat.le_mul_of_pos_left _ (Nat.succ_pos _))]
  simp only [List.nil_append]
  congr 1
  rw [Nat.succ_mul]; omega

theorem rest_length {N : ℕ} (l : List R) : (rest N l).length = l.length % N := by
  unfold rest
  rw [List.length_drop, Nat.mod_eq_sub_div_mul]

theorem blocks_length {N : ℕ} (l : List R) : (blocks N l).length = l.length / N := by simp [blocks]

theorem Goertzel.loop_spec [Zero R] [Add R] [Mul R] [Dot R] (i0 : Iir R) (u : R) (cap : ℕ) (xs : List R) :
    ∀ (g : Goertzel R F) (pre acc : List R), g.Inv i0 u pre →
      acc.length + (pre.length + xs.length) / g.w.length ≤ cap →
      ∃ vs g', Goertzel.loop u cap g acc xs = (.ok (acc ++ vs), g') ∧ g'.w = g.w ∧ g'.frequency = g.frequency ∧
        vs.map some = (blocks g.w.length (pre ++ xs)).map (blockValue i0 u g.w) ∧
        g'.Inv i0 u (rest g.w.length (pre ++ xs)) := by
  induction xs with
  | nil =>
    intro g pre acc h hcap
    refine ⟨[], g, by simp [Goertzel.loop], rfl, rfl, ?_, ?_⟩
    · rw [List.append_nil, blocks_short _ h.2.2.2.1]; rfl
    · rw [List.append_nil, rest_short _ h.2.2.2.1]; exact h
  | cons x xs ih =>
    intro g pre acc h hcap
    have hlt := h.2.2.2.1
    have hN : 0 < g.w.length := by omega
    have happ : pre ++ x :: xs = (pre ++ [x]) ++ xs := by simp
    rcases Nat.lt_or_ge (pre.length + 1) g.w.length with hc | hc
    · obtain ⟨g', e1, e2, e3, e4⟩ := (Goertzel.step_spec g i0 u pre h x).1 hc
      obtain ⟨vs, g'', f1, f2, f3, f4, f5⟩ := ih g' (pre ++ [x]) acc e4 (by
        rw [e2]; simp only [List.length_append, List.length_cons, List.length_nil] at hcap ⊢
        rw [show pre.length + (0 + 1) + xs.length = pre.length + (xs.length + 1) by omega]; exact hcap)
      refine ⟨vs, g'', ?_, f2.trans e2, f3.trans e3, ?_, ?_⟩
      · simp only [Goertzel.loop, e1, f1]
      · rw [happ, f4, e2]
      · rw [happ, ← e2]; exact f5
    · obtain ⟨v, g', e1, e2, e3, e4, e5⟩ := (Goertzel.step_spec g i0 u pre h x).2 (by omega)
      have hlen : (pre ++ [x]).length = g.w.length := by simp; omega
      have hdiv : (pre.length + (x :: xs).length) / g.w.length = xs.length / g.w.length + 1 := by
        rw [show pre.length + (x :: xs).length = g.w.length + xs.length by simp; omega, Nat.add_div_left _ hN]
      rw [hdiv] at hcap
      obtain ⟨vs, g'', f1, f2, f3, f4, f5⟩ := ih g' [] (acc ++ [v]) e5 (by
        rw [e2]; simp only [List.length_append, List.length_cons, List.length_nil, Nat.zero_add]; omega)
      refine ⟨v :: vs, g'', ?_, f2.trans e2, f3.trans e3, ?_, ?_⟩
      · have : acc.length < cap := by
          clear hdiv
          generalize xs.length / g.w.length = q at hcap
          omega
        simp only [Goertzel.loop, e1, this, if_true, f1]
        simp
      · rw [happ, blocks_cons hN _ _ hlen, List.map_cons, List.map_cons, e4, f4, e2]; rfl
      · rw [happ, rest_cons hN _ _ hlen, ← e2]; exact f5

/-- The output buffer is always large enough. -/
theorem Goertzel.cap_ok (n N p : ℕ) (hp : p < N) : 0 + (p + n) / N ≤ (n + N - 1) / N + 1 := by
  have hN : 0 < N := by omega
  rw [Nat.zero_add, ← Nat.add_div_right _ hN]
  exact Nat.div_le_div_right (by omega)

theorem Goertzel.filter_spec [Zero R] [Add R] [Mul R] [Dot R] (i0 : Iir R) (gain : ℕ → R) (g : Goertzel R F)
    (pre xs : List R) (h : g.Inv i0 (gain g.w.length) pre) (hx : xs ≠ []) :
    ∃ vs g', g.filter gain xs = (.ok vs, g') ∧ g'.w = g.w ∧ g'.frequency = g.frequency ∧
        vs.map some = (blocks g.w.length (pre ++ xs)).map (blockValue i0 (gain g.w.length) g.w) ∧
        g'.Inv i0 (gain g.w.length) (rest g.w.length (pre ++ xs)) := by
  have hl : xs.length ≠ 0 := by simpa using hx
  obtain ⟨vs, g', h1, h2, h3, h4, h5⟩ := Goertzel.loop_spec i0 (gain g.w.length)
    ((xs.length + g.w.length - 1) / g.w.length + 1) xs g pre [] h
    (Goertzel.cap_ok xs.length g.w.length pre.length h.2.2.2.1)
  refine ⟨vs, g', ?_, h2, h3, h4, h5⟩
  simp only [Goertzel.filter, hl, if_false, h1, List.nil_append]

theorem blocks_append {N : ℕ} (hN : 0 < N) (l m : List R) :
    blocks N (l ++ m) = blocks N l ++ blocks N (rest N l ++ m) := by
  induction hn : l.length using Nat.strong_induction_on generalizing l with
  | _ n ih =>
    rcases Nat.lt_or_ge l.length N with h | h
    · rw [blocks_short l h, rest_short l h, List.nil_append]
    · have hl : l = l.take N ++ l.drop N := (List.take_append_drop N l).symm
      have ht : (l.take N).length = N := by simp; omega
      rw [hl, List.append_assoc, blocks_cons hN _ _ ht, blocks_cons hN _ _ ht, rest_cons hN _ _ ht,
        ih (l.drop N).length (by simp; omega) (l.drop N) rfl]
      rfl

theorem rest_append {N : ℕ} (hN : 0 < N) (l m : List R) : rest N (l ++ m) = rest N (rest N l ++ m) := by
  induction hn : l.length using Nat.strong_induction_on generalizing l with
  | _ n ih =>
    rcases Nat.lt_or_ge l.length N with h | h
    · rw [rest_short l h]
    · have hl : l = l.take N ++ l.drop N := (List.take_append_drop N l).symm
      have ht : (l.take N).length = N := by simp; omega
      rw [hl, List.append_assoc, rest_cons hN _ _ ht, rest_cons hN _ _ ht,
        ih (l.drop N).length (by simp; omega) (l.drop N) rfl]

theorem Goertzel.chunks_spec [Zero R] [Add R] [Mul R] [Dot R] (i0 : Iir R) (gain : ℕ → R) (cs : List (List R)) :
    ∀ (g : Goertzel R F) (pre : List R), g.Inv i0 (gain g.w.length) pre → (∀ c ∈ cs, c ≠ []) →
    ∃ vs g', callChunks (Goertzel.filter gain) g cs = (.ok vs, g') ∧ g'.w = g.w ∧ g'.frequency = g.frequency ∧
      vs.map some = (blocks g.w.length (pre ++ cs.flatten)).map (blockValue i0 (gain g.w.length) g.w) ∧
      g'.Inv i0 (gain g.w.length) (rest g.w.length (pre ++ cs.flatten)) := by
  induction cs with
  | nil =>
    intro g pre h _
    refine ⟨[], g, rfl, rfl, rfl, ?_, ?_⟩
    · simp [blocks_short _ h.2.2.2.1]
    · simpa [rest_short _ h.2.2.2.1] using h
  | cons c cs ih =>
    intro g pre h hne
    have hN : 0 < g.w.length := by have := h.2.2.2.1; omega
    obtain ⟨vs, g', h1, h2, h3, h4, h5⟩ := Goertzel.filter_spec i0 gain g pre c h (hne c (by simp))
    obtain ⟨vs2, g'', k1, k2, k3, k4, k5⟩ := ih g' (rest g.w.length (pre ++ c)) (by rw [h2]; exact h5)
      (fun d hd => hne d (by simp [hd]))
    rw [h2] at k4 k5
    refine ⟨vs ++ vs2, g'', ?_, k2.trans h2, k3.trans h3, ?_, ?_⟩
    · simp [callChunks, h1, k1]
    · rw [List.map_append, h4, k4, ← List.map_append, List.flatten_cons, ← List.append_assoc,
        blocks_append hN (pre ++ c)]
    · rw [List.flatten_cons, ← List.append_assoc, rest_append hN (pre ++ c)]; exact k5

end Verif
