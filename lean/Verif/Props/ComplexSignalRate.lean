import Verif.Model.ComplexSignal
import Verif.Spec.ComplexRate
import Verif.Props.RateLinear
import Verif.Props.Wavelet
import Verif.Props.ComplexSignal

/- Property C151, second part: RankFilter, WindowFilter, the rate filters and WaveletTransform. -/

namespace Verif.Props

open Complex Finset Spec Verif

local notation "toC" => (fun v : ℝ => (v : ℂ))

/-! RankFilter -/

private def RankRel (f : Rank ℂ) (g : Rank ℝ) : Prop := f.s = g.s.map toC ∧ f.index = g.index

private theorem rank_step (argsort : List ℝ → List ℕ) (f : Rank ℂ) (g : Rank ℝ) (x : ℝ) (h : RankRel f g) :
    (f.step argsort norm (x : ℂ)).1 = (g.step argsort abs x).1.map toC ∧ RankRel (f.step argsort norm (x : ℂ)).2 (g.step argsort abs x).2 := by
  obtain ⟨fs, fi⟩ := f
  obtain ⟨gs, gi⟩ := g
  obtain ⟨h1, h2⟩ := h
  simp only at h1 h2
  subst h1 h2
  cases gs with
  | nil => exact ⟨rfl, rfl, rfl⟩
  | cons a t =>
    simp only [Rank.step, List.map_cons]
    have hs : ((x : ℂ) :: t.map toC) = (x :: t).map toC := rfl
    have hk : ‖(x : ℂ)‖ :: (t.map toC).map norm = |x| :: t.map abs := by simp
    have hf : ∀ l : List ℕ, l.filterMap (fun i => ((x : ℂ) :: t.map toC)[i]?) = (l.filterMap fun i => (x :: t)[i]?).map toC := by
      intro l
      rw [hs, List.map_filterMap]
      congr 1
      funext i
      rw [List.getElem?_map]
    rw [hk, hf]
    generalize (argsort (|x| :: t.map abs)).filterMap (fun i => (x :: t)[i]?) = u
    have hp : pyGet (u.map toC) fi = (pyGet u fi).map toC := by
      unfold pyGet
      simp only [List.length_map, List.getElem?_map]
      generalize (if fi < 0 then fi + (u.length : ℤ) else fi) = j
      split
      · rfl
      · cases u[j.toNat]? <;> rfl
    rw [hp]
    cases pyGet u fi with
    | error e => exact ⟨rfl, rfl, rfl⟩
    | ok v =>
      refine ⟨rfl, ?_, rfl⟩
      simp only [Except.map, List.length_cons, List.length_map]
      rw [hs]
      by_cases ht : t.length + 1 > 1
      · rw [if_pos ht, if_pos ht]; unfold shiftRight; simp [List.map_dropLast]
      · rw [if_neg ht, if_neg ht]

private theorem rank_filter (argsort : List ℝ → List ℕ) (x : List ℂ) (f : Rank ℂ) (g : Rank ℝ) (h : RankRel f g) :
    (f.filterAs ElemType.real.store id argsort norm x).1 = (g.filter argsort abs (x.map re)).1.map (List.map toC) ∧
      RankRel (f.filterAs ElemType.real.store id argsort norm x).2 (g.filter argsort abs (x.map re)).2 := by
  have key : (f.filter argsort norm (x.map ElemType.real.store)).1 = (g.filter argsort abs (x.map re)).1.map (List.map toC) ∧
      RankRel (f.filter argsort norm (x.map ElemType.real.store)).2 (g.filter argsort abs (x.map re)).2 := by
    unfold Rank.filter
    rw [List.length_map, List.length_map]
    by_cases h0 : x.length = 0
    · rw [if_pos h0, if_pos h0]; exact ⟨rfl, h⟩
    · rw [if_neg h0, if_neg h0]
      clear h0
      have := runLoop_re RankRel (fun f z => f.step argsort norm ((z.re : ℝ) : ℂ)) (Rank.step argsort abs)
        (fun f g z h => rank_step argsort f g z.re h) x f g h
      have e : runLoop (Rank.step argsort norm) f (x.map ElemType.real.store) = runLoop (fun f z => f.step argsort norm ((z.re : ℝ) : ℂ)) f x := by
        clear this h
        induction x generalizing f with
        | nil => rfl
        | cons a x ih =>
          simp only [List.map_cons, runLoop]
          rw [show ElemType.real.store a = ((a.re : ℝ) : ℂ) from rfl]
          rcases f.step argsort norm ((a.re : ℝ) : ℂ) with ⟨r, f'⟩
          cases r with
          | error e => rfl
          | ok v => simp only; rw [ih f']
      rw [e]; exact this
  unfold Rank.filterAs
  rcases hF : f.filter argsort norm (x.map ElemType.real.store) with ⟨r, f'⟩
  rw [hF] at key
  cases r with
  | error e => exact key
  | ok y =>
    simp only [List.map_id]
    exact key

/-- C151: a RankFilter returns for complex signals, in any number of calls, what it returns for their real parts; the order is that of the magnitudes
of the real parts. -/
theorem C151_rank (argsort : List ℝ → List ℕ) (index order : ℤ) (h : 0 ≤ index ∧ index ≤ order) (cs : List (List ℂ)) : ∃ f g,
    Rank.new index order = .ok f ∧ Rank.new index order = .ok g ∧
      (callChunks (Rank.filterAs ElemType.real.store id argsort norm) f cs).1 =
        (callChunks (Rank.filter argsort abs) g (cs.map (List.map re))).1.map (List.map toC) := by
  have hn : ¬ (index < 0 ∨ index > order) := by omega
  refine ⟨⟨List.replicate (order + 1).toNat 0, index⟩, ⟨List.replicate (order + 1).toNat 0, index⟩, by simp [Rank.new, hn], by simp [Rank.new, hn], ?_⟩
  exact (chunks_re RankRel _ _ (fun f g x h => rank_filter argsort x f g h) cs _ _ ⟨by simp, rfl⟩).1

example : (0 : ℤ) ≤ 1 ∧ (1 : ℤ) ≤ 2 := by norm_num

/-! WindowFilter -/

/-- C151: a WindowFilter keeps both parts. -/
theorem C151_window (w : Window) (x : List ℂ) :
    (∀ e, w.filterC x = .error e → w.filter (some (x.map re)) = .error e ∧ w.filter (some (x.map im)) = .error e) ∧
    ∀ y, w.filterC x = .ok y → w.filter (some (x.map re)) = .ok (y.map re) ∧ w.filter (some (x.map im)) = .ok (y.map im) := by
  unfold Window.filterC Window.filter
  simp only [List.length_map]
  by_cases h : x.length ≠ w.b.length
  · simp [h]
  · simp only [h, if_false]
    refine ⟨by simp, ?_⟩
    rintro y hy
    cases hy
    constructor <;> congr 1 <;> rw [List.map_zipWith, List.zipWith_map_right] <;> congr 1 <;> funext b v <;> simp

/-! PolynomialRateFilter -/

private theorem interp_parts : ∀ (t : List (ℝ × ℂ)) (x : ℝ),
    (np.interpC t x).re = np.interp (t.map fun p => (p.1, p.2.re)) x ∧ (np.interpC t x).im = np.interp (t.map fun p => (p.1, p.2.im)) x := by
  intro t x
  induction t with
  | nil => simp [np.interpC, np.interp]
  | cons p t ih =>
    cases t with
    | nil => obtain ⟨a, y⟩ := p; simp [np.interpC, np.interp]
    | cons q t =>
      obtain ⟨a, y⟩ := p
      obtain ⟨b, z⟩ := q
      simp only [List.map_cons] at ih ⊢
      rw [np.interpC, np.interp, np.interp]
      by_cases h1 : x < b
      · by_cases h2 : x ≤ a
        · simp [h1, h2]
        · simp only [h1, h2, if_true, if_false]
          rw [Complex.add_re, Complex.add_im, Complex.re_mul_ofReal, Complex.im_mul_ofReal, Complex.div_ofReal_re, Complex.div_ofReal_im,
            Complex.sub_re, Complex.sub_im]
          exact ⟨rfl, rfl⟩
      · simp only [h1, if_false]; exact ih

private theorem getD_map_re (x : List ℂ) (n : ℕ) : (x.map re).getD n 0 = (x.getD n 0).re := by
  rw [List.getD_eq_getElem?_getD, List.getD_eq_getElem?_getD, List.getElem?_map]
  cases x[n]? <;> rfl

private theorem getD_map_im (x : List ℂ) (n : ℕ) : (x.map im).getD n 0 = (x.getD n 0).im := by
  rw [List.getD_eq_getElem?_getD, List.getD_eq_getElem?_getD, List.getElem?_map]
  cases x[n]? <;> rfl

private theorem at0_re (x : List ℂ) (n : ℕ) : at0 (x.map re) n = (at0 x n).re := getD_map_re x n

private theorem at0_im (x : List ℂ) (n : ℕ) : at0 (x.map im) n = (at0 x n).im := getD_map_im x n

private theorem zip_parts (f : ℂ → ℝ) (u : List ℝ) (x : List ℂ) : (u.zip x).map (fun p => (p.1, f p.2)) = u.zip (x.map f) := by
  rw [List.zip_map_right]
  rfl

/-- C151: a PolynomialRateFilter of order 1 keeps both parts. -/
theorem C151_rate_linear (polyfit : ℕ → List ℝ → List ℝ) (polyfitC : ℕ → List ℂ → List ℂ) (p : PolyRate) (ho : p.order = 1) (x : List ℂ)
    (hx : 2 ≤ x.length) : ∃ y, p.filterC polyfitC x = .ok y ∧ p.filter polyfit (some (x.map re)) = .ok (y.map re) ∧
      p.filter polyfit (some (x.map im)) = .ok (y.map im) := by
  unfold PolyRate.filterC PolyRate.filter
  have h2 : ¬ x.length < 2 := by omega
  simp only [List.length_map, h2, if_false, ho, if_true, List.length_append, List.length_cons, List.length_nil]
  refine ⟨_, rfl, ?_, ?_⟩
  · congr 1
    rw [List.map_take, List.map_map]
    simp only [getD_map_re]
    congr 1
    rw [List.map_map, List.map_map]
    apply List.map_congr_left
    intro v _
    rw [Function.comp_apply, Function.comp_apply, Function.comp_apply, (interp_parts _ _).1, zip_parts]
    simp
  · congr 1
    rw [List.map_take, List.map_map]
    simp only [getD_map_im]
    congr 1
    rw [List.map_map, List.map_map]
    apply List.map_congr_left
    intro v _
    rw [Function.comp_apply, Function.comp_apply, Function.comp_apply, (interp_parts _ _).2, zip_parts]
    simp

/-- The hypotheses hold: two samples at three times the rate. -/
example (polyfit : ℕ → List ℝ → List ℝ) (polyfitC : ℕ → List ℂ → List ℂ) := C151_rate_linear polyfit polyfitC ⟨1, 3⟩ rfl [1, I] (by simp)

private theorem polyAtC_parts (c : List ℂ) (t : ℝ) : (polyAtC c t).re = polyAt (c.map re) t ∧ (polyAtC c t).im = polyAt (c.map im) t := by
  unfold polyAtC polyAt
  rw [Complex.re_sum, Complex.im_sum, List.length_map, List.length_map]
  constructor
  · refine sum_congr rfl fun i _ => ?_
    rw [Complex.re_mul_ofReal, at0_re]
  · refine sum_congr rfl fun i _ => ?_
    rw [Complex.im_mul_ofReal, at0_im]

private theorem norm_sq_parts (z : ℂ) : ‖z‖ ^ 2 = z.re ^ 2 + z.im ^ 2 := by
  rw [← Complex.normSq_eq_norm_sq, Complex.normSq_apply]; ring

private theorem sqErrC_parts (d c : List ℂ) : sqErrC d c = sqErr (d.map re) (c.map re) + sqErr (d.map im) (c.map im) := by
  unfold sqErrC sqErr
  rw [← sum_add_distrib]
  refine sum_congr rfl fun i _ => ?_
  rw [norm_sq_parts, Complex.sub_re, Complex.sub_im, (polyAtC_parts _ _).1, (polyAtC_parts _ _).2, at0_re, at0_im]

private theorem fitNormC_parts (c : List ℂ) : fitNormC c = fitNorm (c.map re) + fitNorm (c.map im) := by
  unfold fitNormC fitNorm
  rw [List.length_map, List.length_map, ← sum_add_distrib]
  refine sum_congr rfl fun i _ => ?_
  rw [norm_sq_parts, at0_re, at0_im]
  ring

/-- The real parts of the least squares polynomial are the least squares polynomial of the real parts. -/
private theorem polyfit_re (order : ℕ) (d c : List ℂ) (h : IsPolyfitC order d c) : IsPolyfit order (d.map re) (c.map re) := by
  refine ⟨by rw [List.length_map]; exact h.1, fun e he => ?_⟩
  have hl : e.length = c.length := by rw [he, h.1]
  set f : List ℂ := List.zipWith (fun a z => ⟨a, z.im⟩) e c with hf
  have f1 : f.length = order + 1 := by rw [hf, List.length_zipWith, hl, min_self]; exact h.1
  have f2 : f.map re = e := by
    apply List.ext_getElem (by rw [List.length_map]; omega)
    intro i h1 h2
    simp [hf]
  have f3 : f.map im = c.map im := by
    apply List.ext_getElem (by rw [List.length_map, List.length_map, f1, h.1])
    intro i h1 h2
    simp [hf]
  obtain ⟨g1, g2⟩ := h.2 f f1
  rw [sqErrC_parts, sqErrC_parts, f2, f3] at g1 g2
  rw [fitNormC_parts, fitNormC_parts, f2, f3] at g2
  exact ⟨by linarith, fun hq => by have := g2 (by rw [hq]); linarith⟩

private theorem polyval_re (c : List ℂ) (t : ℝ) : (np.polyval c (t : ℂ)).re = np.polyval (c.map re) t := by
  unfold np.polyval
  have : ∀ (c : List ℂ) (a : ℂ), (c.foldl (fun acc v => acc * (t : ℂ) + v) a).re = (c.map re).foldl (fun acc v => acc * t + v) a.re := by
    intro c
    induction c with
    | nil => intro a; rfl
    | cons v c ih =>
      intro a
      simp only [List.foldl_cons, List.map_cons]
      rw [ih, Complex.add_re, Complex.re_mul_ofReal]
  rw [this]; rfl

private theorem inner_re (b : List ℂ) (v : ℝ) : ∀ (n : ℕ) (index : ℝ), prate.innerC b v n index =
    ((prate.inner (b.map re) v n index).1.map toC, (prate.inner (b.map re) v n index).2) := by
  intro n
  induction n with
  | zero => intro index; rfl
  | succ n ih =>
    intro index
    rw [prate.innerC, prate.inner]
    by_cases h : index < 1
    · simp only [h, if_true, ih, List.map_cons]
      rw [show ElemType.real.store (np.polyval b (index : ℂ)) = (((np.polyval b (index : ℂ)).re : ℝ) : ℂ) from rfl, polyval_re]
    · simp [h]

private theorem outer_re (P : List ℂ → List ℂ) (Q : List ℝ → List ℝ) (h : ∀ d : List ℂ, d.length = 4 → (P d).map re = Q (d.map re)) (v : ℝ) :
    ∀ (m : ℕ) (xs : List ℂ) (index : ℝ) (n : ℕ), m + 3 ≤ xs.length →
      prate.outerC P v m xs index n = (prate.outer Q v m (xs.map re) index n).map toC := by
  intro m
  induction m with
  | zero => intros; rfl
  | succ m ih =>
    intro xs index n hm
    rw [prate.outerC, prate.outer]
    have hq : Q ((xs.map re).take 4) = (P (xs.take 4)).map re := by
      rw [← List.map_take, h _ (by rw [List.length_take]; omega)]
    have ht : (xs.map re).tail = xs.tail.map re := by rw [List.map_tail]
    have hl : m + 3 ≤ xs.tail.length := by rw [List.length_tail]; omega
    rw [hq, ht]
    by_cases hi : index < 1
    · simp only [hi, if_true, inner_re, List.map_append]
      rw [ih _ _ _ hl]
    · simp only [hi, if_false, List.map_append, List.map_nil]
      rw [ih _ _ _ hl]

/-- C151: a PolynomialRateFilter of any other order returns what it returns for the real part. -/
theorem C151_rate_order (polyfit : ℕ → List ℝ → List ℝ) (polyfitC : ℕ → List ℂ → List ℂ) (hfit : ∀ n d, d.length = 4 → IsPolyfit n d (polyfit n d))
    (hfitC : ∀ n d, d.length = 4 → IsPolyfitC n d (polyfitC n d)) (p : PolyRate) (ho : p.order ≠ 1) (x : List ℂ) :
    p.filterC polyfitC x = (p.filter polyfit (some (x.map re))).map (List.map toC) := by
  unfold PolyRate.filterC PolyRate.filter
  simp only [List.length_map, ho, if_false]
  by_cases h2 : x.length < 2
  · simp [h2, Except.map]
  · simp only [h2, if_false]
    by_cases hr : p.rate = 0
    · simp [hr, Except.map]
    · simp only [hr, if_false, Except.map]
      congr 1
      rw [outer_re _ (polyfit p.order.toNat)]
      · congr 2
        simp only [getD_map_re, List.map_append, List.map_cons, List.map_nil]
        simp
      · intro d hd
        exact normal_unique _ _ _ _ (polyfit_normal _ _ _ (polyfit_re _ _ _ (hfitC _ d hd))) (polyfit_normal _ _ _ (hfit _ _ (by simpa using hd)))
      · simp

/-- Complex data has a least squares polynomial. -/
private theorem polyfitC_exists (order : ℕ) (d : List ℂ) : ∃ c, IsPolyfitC order d c := by
  obtain ⟨u, hu⟩ := polyfit_exists order (d.map re)
  obtain ⟨v, hv⟩ := polyfit_exists order (d.map im)
  have hl : u.length = v.length := by rw [hu.1, hv.1]
  set c : List ℂ := List.zipWith Complex.mk u v with hc
  have c1 : c.length = order + 1 := by rw [hc, List.length_zipWith, ← hl, min_self]; exact hu.1
  have c2 : c.map re = u := by
    apply List.ext_getElem (by rw [List.length_map, c1, hu.1])
    intro i h1 h2
    simp [hc]
  have c3 : c.map im = v := by
    apply List.ext_getElem (by rw [List.length_map, c1, hv.1])
    intro i h1 h2
    simp [hc]
  refine ⟨c, c1, fun e he => ?_⟩
  obtain ⟨p1, p2⟩ := hu.2 (e.map re) (by rw [List.length_map]; exact he)
  obtain ⟨q1, q2⟩ := hv.2 (e.map im) (by rw [List.length_map]; exact he)
  rw [sqErrC_parts, sqErrC_parts, fitNormC_parts, fitNormC_parts, c2, c3]
  refine ⟨by linarith, fun h => ?_⟩
  have a := p2 (by linarith)
  have b := q2 (by linarith)
  linarith

example : ∃ polyfitC : ℕ → List ℂ → List ℂ, ∀ n d, d.length = 4 → IsPolyfitC n d (polyfitC n d) :=
  ⟨fun n d => (polyfitC_exists n d).choose, fun n d _ => (polyfitC_exists n d).choose_spec⟩

/-! PolyphaseRateFilter -/

private def ppRe (t : pp.StC) : pp.St := { index := t.index, s := t.s, xs := t.xs.map re, y := t.y, n := t.n }

private theorem pp_inner (rr : ℝ) : ∀ (xs : List ℂ) (index : ℝ) (s : List ℝ), pp.inner rr (xs.map re) index s =
    ((pp.innerC rr xs index s).1.map re, (pp.innerC rr xs index s).2) := by
  intro xs
  induction xs with
  | nil => intros; rfl
  | cons x xs ih =>
    intro index s
    rw [List.map_cons, pp.inner, pp.innerC]
    split
    · exact ih _ _
    · rfl

private theorem pp_body (B : List (List ℝ)) (rate : ℝ) (t : pp.StC) :
    pp.body B rate (ppRe t) = ((pp.bodyC B rate t).1, ppRe (pp.bodyC B rate t).2) := by
  have hh : (t.xs.map re).headD 0 = (t.xs.headD 0).re := by cases t.xs <;> rfl
  unfold pp.body pp.bodyC
  simp only [ppRe, hh]
  by_cases h1 : t.index < (B.length : ℝ)
  · simp only [h1, if_true]
    by_cases h2 : rate = 0
    · simp [h2]
    · simp only [h2, if_false]
      cases np.row B (min (np.round t.index) (B.length - 1)) with
      | error e => rfl
      | ok row => simp only [pp_inner]
  · simp only [h1, if_false, pp_inner]

private theorem pp_loop (B : List (List ℝ)) (rate : ℝ) : ∀ (fuel : ℕ) (t : pp.StC),
    pp.loop B rate fuel (ppRe t) = ((pp.loopC B rate fuel t).1, ppRe (pp.loopC B rate fuel t).2) := by
  intro fuel
  induction fuel with
  | zero => intro t; rfl
  | succ fuel ih =>
    intro t
    rw [pp.loop, pp.loopC]
    have hg : pp.guard (ppRe t) = (!t.xs.isEmpty && decide (0 < t.n)) := by
      unfold pp.guard ppRe
      simp
    rw [hg]
    by_cases h : (!t.xs.isEmpty && decide (0 < t.n)) = true
    · rw [if_pos h, if_pos h, pp_body]
      rcases pp.bodyC B rate t with ⟨r, t'⟩
      cases r with
      | error e => rfl
      | ok u => exact ih t'
    · rw [if_neg h, if_neg h]

/-- C151: a PolyphaseRateFilter returns for a complex signal what it returns for its real part, and is left the same. -/
theorem C151_polyphase (B : List (List ℝ)) (p : Polyphase) (x : List ℂ) : p.filterC B x = p.filter B (x.map re) := by
  unfold Polyphase.filterC Polyphase.filter
  simp only [List.map_eq_nil_iff, List.length_map]
  split
  · rfl
  · have h := pp_loop B p.rate (x.length + (np.round (x.length * p.rate)).toNat)
      { index := p.index, s := p.s, xs := x, y := [], n := (np.round (x.length * p.rate)).toNat }
    have e : Polyphase.start p (x.map re) = ppRe { index := p.index, s := p.s, xs := x, y := [], n := (np.round (x.length * p.rate)).toNat } := by
      unfold Polyphase.start ppRe
      simp
    rw [e, h]
    rcases pp.loopC B p.rate (x.length + (np.round (x.length * p.rate)).toNat)
      { index := p.index, s := p.s, xs := x, y := [], n := (np.round (x.length * p.rate)).toNat } with ⟨r, t⟩
    cases r <;> rfl

/-! WaveletTransform -/

private theorem wav_fir (b : List ℝ) (l : List ℂ) : wav.firC b l = (wav.fir b (l.map re)).map toC := by
  unfold wav.firC wav.fir
  by_cases hb : b = []
  · subst hb; simp [Fir.new]
  · obtain ⟨f, g, h1, h2, h3⟩ := fir_new b none hb
    rw [Option.map_none] at h1
    rw [h1, h2]
    simp only
    rw [(fir_filter_sim f g l h3).1]
    cases (g.filter (l.map re)).1 <;> rfl

private theorem wav_analyse (b : List ℝ × List ℝ) (l : List ℂ) : wav.analyseC b l = (wav.analyse id b (l.map re)).map toC := by
  have ho : ∀ u : List ℝ, ((List.range ((u.map toC).length / 2)).map fun k => (u.map toC).getD (2 * k + 1) 0) = (wav.odds u).map toC := by
    intro u
    unfold wav.odds
    rw [List.length_map, List.map_map]
    apply List.map_congr_left
    intro k _
    rw [Function.comp_apply, List.getD_eq_getElem?_getD, List.getD_eq_getElem?_getD, List.getElem?_map]
    cases u[2 * k + 1]? <;> simp
  unfold wav.analyseC wav.analyse
  simp only [wav_fir, ho, List.map_id, List.map_append]

private theorem wav_synthesise (b : List ℝ × List ℝ) (l : List ℂ) : wav.synthesiseC b l = (wav.synthesise id b (l.map re)).map toC := by
  unfold wav.synthesiseC wav.synthesise
  simp only [List.length_map, List.map_id, List.map_take, List.map_drop]

/-- The real parts agree within a shape. -/
private def ReAgree (r c : ℕ) (u : ℕ → ℕ → ℂ) (v : ℕ → ℕ → ℝ) : Prop := ∀ i < r, ∀ j < c, (u i j).re = v i j

/-- The imaginary parts vanish within a shape. -/
private def ImZero (r c : ℕ) (u : ℕ → ℕ → ℂ) : Prop := ∀ i < r, ∀ j < c, (u i j).im = 0

private theorem mapRows_re (F : List ℂ → List ℂ) (G : List ℝ → List ℝ) (hFG : ∀ l, F l = (G (l.map re)).map toC) (r c : ℕ)
    (u : ℕ → ℕ → ℂ) (v : ℕ → ℕ → ℝ) (h : ReAgree r c u v) : ReAgree r c (wav.mapRowsC F r c u) (wav.mapRows G r c v) ∧ ImZero r c (wav.mapRowsC F r c u) := by
  have key : ∀ i < r, ∀ j < c, wav.mapRowsC F r c u i j = ((wav.mapRows G r c v i j : ℝ) : ℂ) := by
    intro i hi j hj
    unfold wav.mapRowsC wav.mapRows
    rw [if_pos ⟨hi, hj⟩, if_pos ⟨hi, hj⟩, hFG, List.map_map]
    have : ((List.range c).map (re ∘ fun j => u i j)) = (List.range c).map fun j => v i j := by
      apply List.map_congr_left
      intro k hk
      exact h i hi k (List.mem_range.mp hk)
    rw [this, List.getD_eq_getElem?_getD, List.getD_eq_getElem?_getD, List.getElem?_map]
    cases (G ((List.range c).map fun j => v i j))[j]? <;> simp
  exact ⟨fun i hi j hj => by rw [key i hi j hj, ofReal_re], fun i hi j hj => by rw [key i hi j hj, ofReal_im]⟩

private theorem mapCols_re (F : List ℂ → List ℂ) (G : List ℝ → List ℝ) (hFG : ∀ l, F l = (G (l.map re)).map toC) (r c : ℕ)
    (u : ℕ → ℕ → ℂ) (v : ℕ → ℕ → ℝ) (h : ReAgree r c u v) : ReAgree r c (wav.mapColsC F r c u) (wav.mapCols G r c v) ∧ ImZero r c (wav.mapColsC F r c u) := by
  have key : ∀ i < r, ∀ j < c, wav.mapColsC F r c u i j = ((wav.mapCols G r c v i j : ℝ) : ℂ) := by
    intro i hi j hj
    unfold wav.mapColsC wav.mapCols
    rw [if_pos ⟨hi, hj⟩, if_pos ⟨hi, hj⟩, hFG, List.map_map]
    have : ((List.range r).map (re ∘ fun i => u i j)) = (List.range r).map fun i => v i j := by
      apply List.map_congr_left
      intro k hk
      exact h k (List.mem_range.mp hk) j hj
    rw [this, List.getD_eq_getElem?_getD, List.getD_eq_getElem?_getD, List.getElem?_map]
    cases (G ((List.range r).map fun i => v i j))[i]? <;> simp
  exact ⟨fun i hi j hj => by rw [key i hi j hj, ofReal_re], fun i hi j hj => by rw [key i hi j hj, ofReal_im]⟩

private theorem fits_half {d n : ℕ} (h : wav.Fits d (n + 1 + 1)) (h1 : 1 < d) : 1 < max (d / 2) 1 := by
  obtain ⟨M, hM, rfl⟩ := h.even h1
  rcases h with h | ⟨_, q, h⟩
  · omega
  · have : 2 * M = 4 * (2 ^ n * q) := by rw [h]; ring
    omega

private def fstepC (F : List ℂ → List ℂ) (r c : ℕ) (u : ℕ → ℕ → ℂ) : ℕ → ℕ → ℂ :=
  let y := if c > 1 then wav.mapRowsC F r c u else u
  if r > 1 then wav.mapColsC F r c y else y

private def bstepC (F : List ℂ → List ℂ) (r c : ℕ) (u : ℕ → ℕ → ℂ) : ℕ → ℕ → ℂ :=
  let y := if r > 1 then wav.mapColsC F r c u else u
  if c > 1 then wav.mapRowsC F r c y else y

private def patchC (i0 j0 : ℕ) (q y : ℕ → ℕ → ℂ) : ℕ → ℕ → ℂ := fun i j => if i < i0 ∧ j < j0 then q i j else y i j

private theorem fstep_re (F : List ℂ → List ℂ) (G : List ℝ → List ℝ) (hFG : ∀ l, F l = (G (l.map re)).map toC) (r c : ℕ)
    (u : ℕ → ℕ → ℂ) (v : ℕ → ℕ → ℝ) (h : ReAgree r c u v) :
    ReAgree r c (fstepC F r c u) (wav.fstep G r c v) ∧ (1 < r ∨ 1 < c → ImZero r c (fstepC F r c u)) := by
  unfold fstepC wav.fstep
  by_cases hc : c > 1 <;> by_cases hr : r > 1 <;> simp only [hc, hr, if_true, if_false]
  · have a := mapRows_re F G hFG r c u v h
    have b := mapCols_re F G hFG r c _ _ a.1
    exact ⟨b.1, fun _ => b.2⟩
  · have a := mapRows_re F G hFG r c u v h
    exact ⟨a.1, fun _ => a.2⟩
  · have a := mapCols_re F G hFG r c u v h
    exact ⟨a.1, fun _ => a.2⟩
  · exact ⟨h, fun h => by simp at h⟩

private theorem bstep_re (F : List ℂ → List ℂ) (G : List ℝ → List ℝ) (hFG : ∀ l, F l = (G (l.map re)).map toC) (r c : ℕ)
    (u : ℕ → ℕ → ℂ) (v : ℕ → ℕ → ℝ) (h : ReAgree r c u v) :
    ReAgree r c (bstepC F r c u) (wav.bstep G r c v) ∧ (1 < r ∨ 1 < c → ImZero r c (bstepC F r c u)) := by
  unfold bstepC wav.bstep
  by_cases hc : c > 1 <;> by_cases hr : r > 1 <;> simp only [hc, hr, if_true, if_false]
  · have a := mapCols_re F G hFG r c u v h
    have b := mapRows_re F G hFG r c _ _ a.1
    exact ⟨b.1, fun _ => b.2⟩
  · have a := mapRows_re F G hFG r c u v h
    exact ⟨a.1, fun _ => a.2⟩
  · have a := mapCols_re F G hFG r c u v h
    exact ⟨a.1, fun _ => a.2⟩
  · exact ⟨h, fun h => by simp at h⟩

private theorem forwardC_eq (b : List ℝ × List ℝ) (count r c : ℕ) (u : ℕ → ℕ → ℂ) (hr : wav.Fits r (count + 1)) (hc : wav.Fits c (count + 1)) :
    wav.forwardC b (count + 1) ⟨r, c, u⟩ =
      if count = 0 then .ok ⟨r, c, fstepC (wav.analyseC b) r c u⟩
      else match wav.forwardC b count ⟨max (r / 2) 1, max (c / 2) 1, fstepC (wav.analyseC b) r c u⟩ with
        | .error e => .error e
        | .ok q => .ok ⟨r, c, patchC (max (r / 2) 1) (max (c / 2) 1) q.val (fstepC (wav.analyseC b) r c u)⟩ := by
  have h1 := hr.pos
  have h2 := hc.pos
  rw [wav.forwardC]
  simp only [hr.trunc, hc.trunc]
  rw [if_neg (by omega), if_neg (hr.ok hc), if_neg (by omega), min_eq_left hr.half.2, min_eq_left hc.half.2]
  by_cases h0 : count = 0
  · rw [if_neg (by omega), if_pos h0]; rfl
  · rw [if_pos (by omega), if_neg h0]; rfl

private theorem backwardC_eq (b : List ℝ × List ℝ) (count r c : ℕ) (u : ℕ → ℕ → ℂ) (hr : wav.Fits r (count + 1)) (hc : wav.Fits c (count + 1)) :
    wav.backwardC b (count + 1) ⟨r, c, u⟩ =
      if count = 0 then .ok ⟨r, c, bstepC (wav.synthesiseC b) r c u⟩
      else match wav.backwardC b count ⟨max (r / 2) 1, max (c / 2) 1, u⟩ with
        | .error e => .error e
        | .ok q => .ok ⟨r, c, bstepC (wav.synthesiseC b) r c (patchC (max (r / 2) 1) (max (c / 2) 1) q.val u)⟩ := by
  have h1 := hr.pos
  have h2 := hc.pos
  rw [wav.backwardC]
  simp only [hr.trunc, hc.trunc]
  rw [if_neg (by omega), if_neg (hr.ok hc), if_neg (by omega), min_eq_left hr.half.2, min_eq_left hc.half.2]
  by_cases h0 : count = 0
  · rw [if_neg (by omega), if_pos h0]; rfl
  · rw [if_pos (by omega), if_neg h0]
    cases wav.backwardC b count ⟨max (r / 2) 1, max (c / 2) 1, u⟩ <;> rfl

private theorem patch_re {r c i0 j0 : ℕ} {q y : ℕ → ℕ → ℂ} {q' y' : ℕ → ℕ → ℝ} (h1 : ReAgree i0 j0 q q') (h2 : ReAgree r c y y') :
    ReAgree r c (patchC i0 j0 q y) (wav.patch i0 j0 q' y') := by
  intro i hi j hj
  unfold patchC wav.patch
  split
  · rename_i h; exact h1 i h.1 j h.2
  · exact h2 i hi j hj

private theorem forward_re (b : List ℝ × List ℝ) : ∀ (count r c : ℕ) (u : ℕ → ℕ → ℂ) (v : ℕ → ℕ → ℝ), wav.Fits r (count + 1) → wav.Fits c (count + 1) →
    ReAgree r c u v → ∃ y z, wav.forwardC b (count + 1) ⟨r, c, u⟩ = .ok ⟨r, c, y⟩ ∧ wav.forward id b (count + 1) ⟨r, c, v⟩ = .ok ⟨r, c, z⟩ ∧
      ReAgree r c y z ∧ (1 < r ∨ 1 < c → ImZero r c y) := by
  intro count
  induction count with
  | zero =>
    intro r c u v hr hc h
    rw [forwardC_eq _ _ _ _ _ hr hc, wav.forward_eq _ _ _ _ _ _ hr hc, if_pos rfl, if_pos rfl]
    have k := fstep_re _ _ (wav_analyse b) r c u v h
    exact ⟨_, _, rfl, rfl, k.1, k.2⟩
  | succ n ih =>
    intro r c u v hr hc h
    rw [forwardC_eq _ _ _ _ _ hr hc, wav.forward_eq _ _ _ _ _ _ hr hc, if_neg (by omega), if_neg (by omega)]
    have k := fstep_re _ _ (wav_analyse b) r c u v h
    have k' : ReAgree (max (r / 2) 1) (max (c / 2) 1) (fstepC (wav.analyseC b) r c u) (wav.fstep (wav.analyse id b) r c v) :=
      fun i hi j hj => k.1 i (lt_of_lt_of_le hi hr.half.2) j (lt_of_lt_of_le hj hc.half.2)
    obtain ⟨y, z, e1, e2, e3, e4⟩ := ih _ _ _ _ hr.half.1 hc.half.1 k'
    rw [e1, e2]
    refine ⟨_, _, rfl, rfl, patch_re e3 k.1, fun hd i hi j hj => ?_⟩
    unfold patchC
    split
    · rename_i h'
      exact e4 (hd.imp (fits_half hr) (fits_half hc)) i h'.1 j h'.2
    · exact k.2 hd i hi j hj

private theorem backward_re (b : List ℝ × List ℝ) : ∀ (count r c : ℕ) (u : ℕ → ℕ → ℂ) (v : ℕ → ℕ → ℝ), wav.Fits r (count + 1) → wav.Fits c (count + 1) →
    ReAgree r c u v → ∃ y z, wav.backwardC b (count + 1) ⟨r, c, u⟩ = .ok ⟨r, c, y⟩ ∧ wav.backward id b (count + 1) ⟨r, c, v⟩ = .ok ⟨r, c, z⟩ ∧
      ReAgree r c y z ∧ (1 < r ∨ 1 < c → ImZero r c y) := by
  intro count
  induction count with
  | zero =>
    intro r c u v hr hc h
    rw [backwardC_eq _ _ _ _ _ hr hc, wav.backward_eq _ _ _ _ _ _ hr hc, if_pos rfl, if_pos rfl]
    have k := bstep_re _ _ (wav_synthesise b) r c u v h
    exact ⟨_, _, rfl, rfl, k.1, k.2⟩
  | succ n ih =>
    intro r c u v hr hc h
    rw [backwardC_eq _ _ _ _ _ hr hc, wav.backward_eq _ _ _ _ _ _ hr hc, if_neg (by omega), if_neg (by omega)]
    have k' : ReAgree (max (r / 2) 1) (max (c / 2) 1) u v := fun i hi j hj => h i (lt_of_lt_of_le hi hr.half.2) j (lt_of_lt_of_le hj hc.half.2)
    obtain ⟨y, z, e1, e2, e3, e4⟩ := ih _ _ _ _ hr.half.1 hc.half.1 k'
    rw [e1, e2]
    have k := bstep_re _ _ (wav_synthesise b) r c _ _ (patch_re e3 h)
    exact ⟨_, _, rfl, rfl, k.1, k.2⟩

/-- C151: for a complex array of acceptable shape with more than one element, every WaveletTransform returns in both directions the transform of the
real part, with imaginary parts of zero. -/
theorem C151_wavelet (w : Wavelet) (r c count : ℕ) (u : ℕ → ℕ → ℂ) (hc : 0 < count) (hr : Acceptable r count) (hx : Acceptable c count)
    (h1 : 1 < r ∨ 1 < c) (inverse : Bool) : ∃ y z, w.transformC ⟨r, c, u⟩ count inverse = .ok ⟨r, c, y⟩ ∧
      w.transform id (.mat ⟨r, c, fun i j => (u i j).re⟩) count inverse = .ok (.mat ⟨r, c, z⟩) ∧
      ∀ i < r, ∀ j < c, y i j = ((z i j : ℝ) : ℂ) := by
  obtain ⟨n, rfl⟩ : ∃ n, count = n + 1 := ⟨count - 1, by omega⟩
  have hn : ((n + 1 : ℕ) : ℤ).toNat = n + 1 := by simp
  unfold Wavelet.transformC Wavelet.transform
  rw [hn]
  cases inverse
  · obtain ⟨y, z, e1, e2, e3, e4⟩ := forward_re w.analysis n r c u (fun i j => (u i j).re) hr hx (fun _ _ _ _ => rfl)
    refine ⟨y, z, e1, ?_, fun i hi j hj => Complex.ext (by rw [e3 i hi j hj, ofReal_re]) (by rw [e4 h1 i hi j hj, ofReal_im])⟩
    simp only [Bool.false_eq_true, if_false, e2]
  · obtain ⟨y, z, e1, e2, e3, e4⟩ := backward_re w.synthesis n r c u (fun i j => (u i j).re) hr hx (fun _ _ _ _ => rfl)
    refine ⟨y, z, e1, ?_, fun i hi j hj => Complex.ext (by rw [e3 i hi j hj, ofReal_re]) (by rw [e4 h1 i hi j hj, ofReal_im])⟩
    simp only [if_true, e2]

example : Acceptable 2 1 ∧ Acceptable 1 1 ∧ (1 < 2 ∨ 1 < 1) ∧ ∃ w, Wavelet.new (some .haar) 1 = .ok w :=
  ⟨Or.inr ⟨by norm_num, by norm_num⟩, Or.inl rfl, Or.inl (by norm_num), _, rfl⟩

/-- C151: a complex array of one element is returned as it is. -/
theorem C151_wavelet_one (w : Wavelet) (u : ℕ → ℕ → ℂ) (inverse : Bool) : ∃ y, w.transformC ⟨1, 1, u⟩ 1 inverse = .ok ⟨1, 1, y⟩ ∧ y 0 0 = u 0 0 := by
  have f : wav.Fits 1 (0 + 1) := Or.inl rfl
  unfold Wavelet.transformC
  cases inverse
  · exact ⟨_, forwardC_eq w.analysis 0 1 1 u f f, rfl⟩
  · exact ⟨_, backwardC_eq w.synthesis 0 1 1 u f f, rfl⟩

private theorem forwardC_error (b : List ℝ × List ℝ) : ∀ (count : ℕ) (r c : ℕ) (u : ℕ → ℕ → ℂ) (v : ℕ → ℕ → ℝ) (e : PyErr),
    wav.forwardC b count ⟨r, c, u⟩ = .error e ↔ wav.forward id b count ⟨r, c, v⟩ = .error e := by
  intro count
  induction count with
  | zero => intro r c u v e; simp [wav.forwardC, wav.forward]
  | succ n ih =>
    intro r c u v e
    rw [wav.forwardC, wav.forward]
    dsimp only
    by_cases h1 : r = 0
    · rw [if_pos h1, if_pos h1]; simp
    by_cases h2 : wav.bad r c (n + 1)
    · rw [if_neg h1, if_pos h2, if_neg h1, if_pos h2]; simp
    rw [if_neg h1, if_neg h2, if_neg h1, if_neg h2]
    by_cases h3 : c = 0 ∧ max (r / 2 ^ (n + 1) * 2 ^ (n + 1)) 1 > 1
    · rw [if_pos h3, if_pos h3]; simp
    rw [if_neg h3, if_neg h3]
    by_cases h4 : n + 1 > 1
    · rw [if_pos h4, if_pos h4]
      generalize (if max (r / 2 ^ (n + 1) * 2 ^ (n + 1)) 1 > 1 then wav.mapColsC _ _ _ _ else _ : ℕ → ℕ → ℂ) = y
      generalize (if max (r / 2 ^ (n + 1) * 2 ^ (n + 1)) 1 > 1 then wav.mapCols _ _ _ _ else _ : ℕ → ℕ → ℝ) = z
      have k := ih (min (max (max (r / 2 ^ (n + 1) * 2 ^ (n + 1)) 1 / 2) 1) r) (min (max (max (c / 2 ^ (n + 1) * 2 ^ (n + 1)) 1 / 2) 1) c) y z
      rcases hC : wav.forwardC b n ⟨min (max (max (r / 2 ^ (n + 1) * 2 ^ (n + 1)) 1 / 2) 1) r, min (max (max (c / 2 ^ (n + 1) * 2 ^ (n + 1)) 1 / 2) 1) c, y⟩ with e1 | q <;>
        rcases hR : wav.forward id b n ⟨min (max (max (r / 2 ^ (n + 1) * 2 ^ (n + 1)) 1 / 2) 1) r, min (max (max (c / 2 ^ (n + 1) * 2 ^ (n + 1)) 1 / 2) 1) c, z⟩ with e2 | q' <;>
        simp only [hC, hR] at k ⊢
      · exact (iff_of_eq (by simp)).trans ((k e).trans (iff_of_eq (by simp)))
      · exact absurd ((k e1).mp rfl) (by simp)
      · exact absurd ((k e2).mpr rfl) (by simp)
      · simp
    · rw [if_neg h4, if_neg h4]; simp

private theorem backwardC_error (b : List ℝ × List ℝ) : ∀ (count : ℕ) (r c : ℕ) (u : ℕ → ℕ → ℂ) (v : ℕ → ℕ → ℝ) (e : PyErr),
    wav.backwardC b count ⟨r, c, u⟩ = .error e ↔ wav.backward id b count ⟨r, c, v⟩ = .error e := by
  intro count
  induction count with
  | zero => intro r c u v e; simp [wav.backwardC, wav.backward]
  | succ n ih =>
    intro r c u v e
    rw [wav.backwardC, wav.backward]
    dsimp only
    by_cases h1 : r = 0
    · rw [if_pos h1, if_pos h1]; simp
    by_cases h2 : wav.bad r c (n + 1)
    · rw [if_neg h1, if_pos h2, if_neg h1, if_pos h2]; simp
    rw [if_neg h1, if_neg h2, if_neg h1, if_neg h2]
    by_cases h3 : c = 0 ∧ max (r / 2 ^ (n + 1) * 2 ^ (n + 1)) 1 > 1
    · rw [if_pos h3, if_pos h3]; simp
    rw [if_neg h3, if_neg h3]
    by_cases h4 : n + 1 > 1
    · rw [if_pos h4, if_pos h4]
      have k := ih (min (max (max (r / 2 ^ (n + 1) * 2 ^ (n + 1)) 1 / 2) 1) r) (min (max (max (c / 2 ^ (n + 1) * 2 ^ (n + 1)) 1 / 2) 1) c) u v
      rcases hC : wav.backwardC b n ⟨min (max (max (r / 2 ^ (n + 1) * 2 ^ (n + 1)) 1 / 2) 1) r, min (max (max (c / 2 ^ (n + 1) * 2 ^ (n + 1)) 1 / 2) 1) c, u⟩ with e1 | q <;>
        rcases hR : wav.backward id b n ⟨min (max (max (r / 2 ^ (n + 1) * 2 ^ (n + 1)) 1 / 2) 1) r, min (max (max (c / 2 ^ (n + 1) * 2 ^ (n + 1)) 1 / 2) 1) c, v⟩ with e2 | q' <;>
        simp only [hC, hR] at k ⊢
      · exact (iff_of_eq (by simp)).trans ((k e).trans (iff_of_eq (by simp)))
      · exact absurd ((k e1).mp rfl) (by simp)
      · exact absurd ((k e2).mpr rfl) (by simp)
      · simp
    · rw [if_neg h4, if_neg h4]; simp

/-- C151: a complex array is refused exactly if the real array of its shape is, with the same exception. -/
theorem C151_wavelet_refused (w : Wavelet) (r c : ℕ) (u : ℕ → ℕ → ℂ) (count : ℤ) (inverse : Bool) (e : PyErr) :
    w.transformC ⟨r, c, u⟩ count inverse = .error e ↔ w.transform id (.mat ⟨r, c, fun i j => (u i j).re⟩) count inverse = .error e := by
  unfold Wavelet.transformC Wavelet.transform
  cases inverse
  · have k := forwardC_error w.analysis count.toNat r c u (fun i j => (u i j).re) e
    simp only [Bool.false_eq_true, if_false, k]
    cases wav.forward id w.analysis count.toNat ⟨r, c, fun i j => (u i j).re⟩ <;> simp
  · have k := backwardC_error w.synthesis count.toNat r c u (fun i j => (u i j).re) e
    simp only [if_true, k]
    cases wav.backward id w.synthesis count.toNat ⟨r, c, fun i j => (u i j).re⟩ <;> simp

/-- Three rows cannot be halved. -/
example (w : Wavelet) (u : ℕ → ℕ → ℂ) : w.transformC ⟨3, 4, u⟩ 1 false = .error .valueError := by
  rw [C151_wavelet_refused]
  simp [Wavelet.transform, wav.forward, wav.bad]

end Verif.Props
