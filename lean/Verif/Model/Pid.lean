import Verif.Model.Fir

/-
Model of diamondback/filters/pid_filter.py, class PidFilter.
-/

namespace Verif

/-- A PidFilter instance (pid_filter.py:38-64).  `limit = none` is the initial `numpy.inf`.  Simplification: `b` and `s`
keep length 3 (the setters inherited from FirFilter are not used to change the length).  `cast` as in `Fir`. -/
structure Pid (R K : Type _) where
  cast : R → R
  b0 : R
  b1 : R
  b2 : R
  s0 : R
  s1 : R
  s2 : R
  limit : Option K

variable {R K : Type _}

/-- PidFilter.__init__ (pid_filter.py:51-64). -/
def Pid.new [Zero R] (cast : R → R) : List R → Res (Pid R K)
  | [b0, b1, b2] =>
    .ok { cast := cast, b0 := b0, b1 := b1, b2 := b2, s0 := cast 0, s1 := cast 0, s2 := cast 0, limit := none }
  | _ => .error .valueError

/-- PidFilter.limit setter (pid_filter.py:45-49), finite values. -/
def Pid.setLimit [LT K] [DecidableLT K] [Zero K] (f : Pid R K) (l : K) : Res Unit × Pid R K :=
  if l < 0 then (.error .valueError, f) else (.ok (), { f with limit := some l })

/-- A magnitude for which the comparison of pid_filter.py:85 with `inf` is false: nan, and `inf` itself.  Simplification:
they exist only in the number types which have an own instance (`Verif.Spec.Num`, `Verif.Spec.Ext`). -/
class IsNan (K : Type _) where
  isNan : K → Bool

/-- Numbers without nan (see `IsNan`, for pid_filter.py:85). -/
instance (priority := low) noNan : IsNan K := ⟨fun _ => false⟩

@[simp] theorem isNan_noNan (v : K) : @IsNan.isNan K noNan v = false := rfl

/-- `v < self.limit` (pid_filter.py:85); every number except nan (and `inf`) is below `inf`. -/
def belowLimit [LT K] [DecidableLT K] [IsNan K] (v : K) : Option K → Bool
  | none => !IsNan.isNan v
  | some l => decide (v < l)

/-- Body of the loop of PidFilter.filter (pid_filter.py:83-88); `mag` is `abs`. -/
def Pid.step [Add R] [Sub R] [Dot R] [LT K] [DecidableLT K] [IsNan K] (mag : R → K) (f : Pid R K) (x : R) : Res R × Pid R K :=
  let s2 := f.cast (x - f.s0)
  let s1 := if belowLimit (mag (f.s1 + x)) f.limit then f.cast (f.s1 + x) else f.s1
  let s0 := f.cast x
  (.ok (f.cast (dot [f.b0, f.b1, f.b2] [s0, s1, s2])), { f with s0 := s0, s1 := s1, s2 := s2 })

/-- PidFilter.filter (pid_filter.py:66-89). -/
def Pid.filter [Add R] [Sub R] [Dot R] [LT K] [DecidableLT K] [IsNan K] (mag : R → K) (f : Pid R K) (x : List R) :
    Res (List R) × Pid R K :=
  if x.length = 0 then (.error .valueError, f) else runLoop (Pid.step mag) f x

end Verif
