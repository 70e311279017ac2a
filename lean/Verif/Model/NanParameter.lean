import Verif.Model.ComplexNan
import Verif.Model.Polyphase
import Verif.Model.IirDesign
import Verif.Model.GoertzelC

/-
Parameters which are nan: rate of PolyphaseRateFilter and PolynomialRateFilter (diamondback/filters/polyphase_rate_filter.py,
polynomial_rate_filter.py), frequency of FirFilter and IirFilter (fir_filter.py, iir_filter.py) and of GoertzelFilter (goertzel_filter.py).  The limit of
PidFilter needs no model of its own: Verif/Model/Pid.lean with limits in `Num K`.  A comparison with nan is false, an operation with nan is nan,
`int(nan)` raises ValueError, Python's `max(nan, v)` and `min(nan, v)` and `numpy.maximum(nan, v)` are nan.  Samples and coefficients are
numbers.  Otherwise the simplifications are those of the models for numbers.
-/

namespace Verif

open Spec Spec.Num

/-! ## Rate filters -/

/-- A PolyphaseRateFilter instance (polyphase_rate_filter.py:132-134). -/
structure NanPolyphase where
  index : ℝ
  rate : Num ℝ
  s : List ℝ

/-- numpy.isclose: false for nan (polyphase_rate_filter.py:101). -/
noncomputable def np.iscloseNan : Num ℝ → Num ℝ → Bool
  | val a, val b => np.isclose a b
  | _, _ => false

/-- PolyphaseRateFilter.__init__ (polyphase_rate_filter.py:113-134), as `Polyphase.new`. -/
noncomputable def NanPolyphase.new (rr cc : ℕ) (B : List (List ℝ)) (rate : Num ℝ) : Res NanPolyphase × List (List ℝ) := open scoped Classical in
  if outside 0 rr rate then (.error .valueError, B)
  else
    let p : NanPolyphase := { index := 0, rate := rate, s := List.replicate cc 0 }
    if B.all fun row => row.all fun v => decide (v = 0) then
      match fir.design (some .hann) (0.85 / rr) (cc * rr - 1) 1 false 1 with
      | .error e => (.error e, B)
      | .ok b => (.ok p, Polyphase.bank rr cc b)
    else (.ok p, B)

/-- The rate setter (polyphase_rate_filter.py:97-103). -/
noncomputable def NanPolyphase.setRate (rr : ℕ) (p : NanPolyphase) (rate : Num ℝ) : Res Unit × NanPolyphase := open scoped Classical in
  if outside 0 rr rate then (.error .valueError, p)
  else (.ok (), { p with index := if np.iscloseNan p.rate rate then p.index else 0, rate := rate })

/-- PolyphaseRateFilter.reset (polyphase_rate_filter.py:170-181), scalar argument. -/
def NanPolyphase.reset (p : NanPolyphase) (x : ℝ) : NanPolyphase := { p with s := p.s.map fun _ => x }

/-- PolyphaseRateFilter.filter (polyphase_rate_filter.py:136-168): line 152 raises for nan; with a number the rest is `Polyphase.filter`. -/
noncomputable def NanPolyphase.filter (B : List (List ℝ)) (p : NanPolyphase) (x : List ℝ) : Res (List ℝ) × NanPolyphase :=
  if x = [] then (.error .valueError, p)
  else
    match p.rate with
    | nan => (.error .valueError, p)
    | val r =>
      let z := Polyphase.filter B ⟨p.index, r, p.s⟩ x
      (z.1, ⟨z.2.index, val z.2.rate, z.2.s⟩)

/-- One public call on a PolyphaseRateFilter (polyphase_rate_filter.py:97, 136, 170). -/
inductive NanPolyphaseOp where
  | filter (x : List ℝ)
  | rate (r : Num ℝ)
  | reset (x : ℝ)

/-- Apply one call; the bank has `B.length` rows (polyphase_rate_filter.py:97-181). -/
noncomputable def NanPolyphase.apply (B : List (List ℝ)) (p : NanPolyphase) : NanPolyphaseOp → Res (List ℝ) × NanPolyphase
  | .filter x => p.filter B x
  | .rate r =>
    match p.setRate B.length r with
    | (.ok (), p') => (.ok [], p')
    | (.error e, p') => (.error e, p')
  | .reset x => (.ok [], p.reset x)

/-- A PolynomialRateFilter instance (polynomial_rate_filter.py:90-91). -/
structure NanPolyRate where
  order : ℤ
  rate : Num ℝ

/-- PolynomialRateFilter.__init__ (polynomial_rate_filter.py:76-91). -/
noncomputable def NanPolyRate.new (rate : Num ℝ) (order : ℤ) : Res NanPolyRate :=
  if rate < val 0 then .error .valueError
  else if order ≤ 0 then .error .valueError
  else .ok { order := order, rate := rate }

/-- The rate setter (polynomial_rate_filter.py:70-74). -/
noncomputable def NanPolyRate.setRate (p : NanPolyRate) (rate : Num ℝ) : Res Unit × NanPolyRate :=
  if rate < val 0 then (.error .valueError, p) else (.ok (), { p with rate := rate })

/-- PolynomialRateFilter.filter (polynomial_rate_filter.py:93-138): line 110 raises for nan. -/
noncomputable def NanPolyRate.filter (polyfit : ℕ → List ℝ → List ℝ) (p : NanPolyRate) (x : Option (List ℝ)) : Res (List ℝ) :=
  match x with
  | none => .error .valueError
  | some x =>
    if x.length < 2 then .error .valueError
    else
      match p.rate with
      | nan => .error .valueError
      | val r => PolyRate.filter polyfit ⟨p.order, r⟩ (some x)

/-! ## Design of FirFilter and IirFilter -/

variable {α : Type _}

/-- The search of fir_filter.py:173-195 and iir_filter.py:171-184 for scales and deviations which may be nan (`search.loop` for numbers): a deviation of
nan is never less than the error, and makes the scale nan. -/
noncomputable def search.loopNan (cand : Num ℝ → Res α) (dev : α → Num ℝ) (rate : ℝ) : ℕ → Num ℝ → Option (α × ℝ) → Res (Option α)
  | 0, _, best => .ok (best.map Prod.fst)
  | n + 1, scale, best =>
    match cand scale with
    | .error e => .error e
    | .ok v =>
      let next := search.loopNan cand dev rate n (Num.map (max · search.eps) (scale + val rate * dev v))
      match dev v, best with
      | nan, best => next best
      | val e, none => if |e| < 10e3 * search.eps then .ok (some v) else next (some (v, |e|))
      | val e, some (w, error) =>
        if |e| < error then
          if |e| < 10e3 * search.eps then .ok (some v) else next (some (v, |e|))
        else next (some (w, error))

/-- One candidate of FirFilter (fir_filter.py:178-188): every entry of `firwin` is a product with the cut-off, nan if the cut-off is; line 187 rejects
nan. -/
noncomputable def fir.candidateNan (style : WStyle) (order : ℕ) (frequency scale : Num ℝ) : Res (List (Num ℝ)) := open scoped Classical in
  match scale * frequency, scale, frequency with
  | val _, val s, val f => (fir.candidate style order f s).map (List.map val)
  | _, _, _ =>
    let v : List (Num ℝ) := List.replicate (order + 1) nan
    if nan ∈ v then .error .valueError else .ok v

/-- FirFilter.__init__ without explicit coefficients (fir_filter.py:160-199), for a frequency which may be nan. -/
noncomputable def fir.designNan (style : Option WStyle) (frequency : Num ℝ) (order count : ℤ) (complement : Bool) (gain : ℝ) :
    Res (List (Num ℝ)) :=
  match frequency with
  | val f => (fir.design style f order count complement gain).map (List.map val)
  | nan =>
    match style with
    | none => .error .valueError
    | some style =>
      -- both comparisons of line 164 are false, and `1.0 - frequency` is nan
      if order ≤ 0 then .error .valueError
      else if count ≤ 0 then .error .valueError
      else
        match search.loopNan (fir.candidateNan style order.toNat nan) (fun _ => nan) 3.0e-2 500 (val 1) none with
        | .error e => .error e
        | .ok none => .error .typeError
        | .ok (some b) => .ok (b.map (· * val gain))

/-- IirFilter._evaluate (iir_filter.py:207-254) for a frequency which may be nan: `t` is nan, so that all poles are, and of the recursive coefficients
only the first, which is assigned zero (z_transform.py), is a number. -/
noncomputable def iir.evaluateNan (residue : List ℝ → List ℝ → List ℂ × List ℂ) (style : IStyle) (frequency : Num ℝ) (order : ℕ) :
    Res (List (Num ℝ) × List (Num ℝ)) :=
  match frequency with
  | val f => (iir.evaluate residue style f order).map fun uv => (uv.1.map val, uv.2.map val)
  | nan => .ok (val 0 :: List.replicate order nan, List.replicate (order + 1) nan)

/-- IirFilter.__init__ without explicit coefficients (iir_filter.py:160-191) for a frequency which may be nan.  If no candidate was kept the arrays are
empty: the quotient of line 188 is 0 / 0 of Python integers, and `a[0]` of line 200 raises IndexError. -/
noncomputable def iir.designNan (residue : List ℝ → List ℝ → List ℂ × List ℂ) (style : Option IStyle) (frequency : Num ℝ)
    (order count : ℤ) (complement : Bool) (gain : ℝ) : Res (List (Num ℝ) × List (Num ℝ)) :=
  match frequency with
  | val f => (iir.design residue style f order count complement gain).map fun ab => (ab.1.map val, ab.2.map val)
  | nan =>
    match style with
    | none => .error .valueError
    | some style =>
      if order ≤ 0 then .error .valueError
      else if count ≤ 0 then .error .valueError
      else
        match search.loopNan (fun scale => iir.evaluateNan residue style (scale * nan) order.toNat) (fun _ => nan)
          (iir.rate order.toNat count.toNat) 500 (val 1) none with
        | .error e => .error e
        | .ok none => if complement then .error .zeroDivisionError else .error .indexError
        | .ok (some (a, b)) => .ok (a, b.map (· * val gain))

/-! ## GoertzelFilter -/

/-- One and minus for numbers with nan, for the arrays of goertzel_filter.py:91-92. -/
instance numOne {R : Type _} [One R] : One (Num R) := ⟨val 1⟩
/-- Minus for numbers with nan (goertzel_filter.py:91-92). -/
instance numNeg {R : Type _} [Neg R] : Neg (Num R) := ⟨Num.map (- ·)⟩

/-- GoertzelFilter.__init__ (goertzel_filter.py:76-96) for a frequency which may be nan: `math.cos(nan)` and `numpy.exp(nan)` are nan. -/
noncomputable def Goertzel.newNan (b : List ℂ) (frequency : Num ℝ) : Res (Goertzel (Num ℂ) (Num ℝ)) := open scoped Classical in
  Goertzel.make (fun l => allClose0 (vals l)) (fun f => ¬ outside (-1) 1 f) (Num.map goertzelC) (Num.map goertzelE) (b.map val) frequency

end Verif
