import Verif.Model.Iir

/-
Model of diamondback/filters/goertzel_filter.py, class GoertzelFilter.
-/

namespace Verif

/-- A GoertzelFilter instance (goertzel_filter.py:63-96): the inherited IirFilter, the window `_w`, the number `_index`
of samples already consumed in the current block, and the stored frequency. -/
structure Goertzel (R F : Type _) where
  iir : Iir R
  index : Nat
  w : List R
  frequency : F

variable {R F : Type _}

/-- GoertzelFilter.__init__ (goertzel_filter.py:76-96), with the two trigonometric coefficients
`c = 2 cos(pi f)` and `e = exp(-j pi f)` already evaluated (see `Goertzel.new` in Verif/Lemmas/Goertzel.lean for `ℂ`).
`allZero b` is `numpy.isclose(b, 0.0).all()`, `inRange f` is `-1 <= f <= 1`. -/
def Goertzel.make [Zero R] [One R] [Neg R] [DecidableEq R] (allZero : List R → Bool) (inRange : F → Bool)
    (c e : F → R) (b : List R) (f : F) : Res (Goertzel R F) :=
  if b.length = 0 ∨ allZero b then .error .valueError
  else if ¬ inRange f then .error .valueError
  else
    match Iir.new id (some [0, c f, -1]) (some [1, -(e f), 0]) none with
    | .error err => .error err
    | .ok i => .ok { iir := i, index := 0, w := b, frequency := f }

/-- GoertzelFilter.frequency setter (goertzel_filter.py:70-74): stores the value, nothing else. -/
def Goertzel.setFrequency (inRange : F → Bool) (g : Goertzel R F) (f : F) : Res Unit × Goertzel R F :=
  if ¬ inRange f then (.error .valueError, g) else (.ok (), { g with frequency := f })

/-- Body of the loop of GoertzelFilter.filter (goertzel_filter.py:117-124), without the store into the output buffer;
`some v` is a completed block.  `self.s[:] = 0.0` keeps the state length. -/
def Goertzel.step [Zero R] [Add R] [Mul R] [Dot R] (u : R) (g : Goertzel R F) (x : R) :
    Res (Option R) × Goertzel R F :=
  match g.w[g.index]? with
  | none => (.error .indexError, g)
  | some wi =>
    match Iir.filter g.iir [u * wi * x] with
    | (.error e, i') => (.error e, { g with iir := i' })
    | (.ok v, i') =>
      let idx := g.index + 1
      if idx ≥ g.w.length then
        match v with
        | [] => (.error .indexError, { g with iir := i', index := idx })
        | v0 :: _ =>
          (.ok (some v0), { g with iir := { i' with s := i'.s.map (fun _ => i'.cast 0) }, index := 0 })
      else (.ok none, { g with iir := i', index := idx })

/-- The loop with its output buffer of `cap` entries: `acc` holds the values stored so far (`jj = len(acc)`); a store
beyond the buffer raises IndexError (goertzel_filter.py:114-124). -/
def Goertzel.loop [Zero R] [Add R] [Mul R] [Dot R] (u : R) (cap : Nat) :
    Goertzel R F → List R → List R → Res (List R) × Goertzel R F
  | g, acc, [] => (.ok acc, g)
  | g, acc, x :: xs =>
    match g.step u x with
    | (.error e, g') => (.error e, g')
    | (.ok none, g') => Goertzel.loop u cap g' acc xs
    | (.ok (some v), g') =>
      if acc.length < cap then Goertzel.loop u cap g' (acc ++ [v]) xs else (.error .indexError, g')

/-- GoertzelFilter.filter (goertzel_filter.py:98-127).  `gain n` is the factor `u` of line 115 for a window of length
`n` (`2/n` for real, `1/n` for complex signals).  The buffer has `ceil(len(x)/len(w)) + 1` entries (line 114; the float
division and `ceil` are taken as exact).  Lines 125-126 return the stored part. -/
def Goertzel.filter [Zero R] [Add R] [Mul R] [Dot R] (gain : Nat → R) (g : Goertzel R F) (x : List R) :
    Res (List R) × Goertzel R F :=
  if x.length = 0 then (.error .valueError, g)
  else Goertzel.loop (gain g.w.length) ((x.length + g.w.length - 1) / g.w.length + 1) g [] x

end Verif
