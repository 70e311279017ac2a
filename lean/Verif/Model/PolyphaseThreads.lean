import Verif.Model.Polyphase

/-!
The constructor of PolyphaseRateFilter run by several threads (polyphase_rate_filter.py:87, 113-134).

The class variable `B` is shared by every thread of a process, and is built by whichever constructor finds it zero.  A step below is a statement of the
constructor; the division of one row (line 130) is a step of its own, so that another thread may run between two rows.  Arrays are in a heap, since the
rows are divided in place and `B` refers to an array.

Simplifications.  The design of the prototype and `numpy.reshape` (lines 127, 128) touch only arrays which the thread has made itself, so they are one
step.  The instance itself (lines 132-134) is not shared, so its three assignments are not separate steps.  A statement runs without interruption: the
finer steps of a statement read one class variable or write rows of an array which C115 proves that no other thread refers to.
-/

namespace Verif

/-- Where a thread stands in the constructor (polyphase_rate_filter.py:121-134). -/
inductive PPAt
  /-- Before line 121. -/
  | start
  /-- Before line 124. -/
  | checked
  /-- Before line 126; `b` refers to the array `b`. -/
  | loaded (b : ℕ)
  /-- At lines 129-131 with `ii` rows done. -/
  | rows (b ii : ℕ)
  /-- Returned. -/
  | done
  /-- Raised. -/
  | raised (e : PyErr)

/-- The process: its arrays, the array which `PolyphaseRateFilter.B` refers to, and where every thread stands (polyphase_rate_filter.py:87, 121-134).
-/
structure PPProcess where
  arrays : List (List (List ℝ))
  cls : ℕ
  at_ : ℕ → PPAt

/-- The array at a location (polyphase_rate_filter.py:126, 130). -/
def PPProcess.read (p : PPProcess) (l : ℕ) : List (List ℝ) := p.arrays.getD l []

/-- The next statement of thread `t`, which constructs a filter of the rate `rate` (polyphase_rate_filter.py:121-134). -/
noncomputable def PPProcess.step (rr cc : ℕ) (rate : ℕ → ℝ) (p : PPProcess) (t : ℕ) : PPProcess := open scoped Classical in
  let go := fun s => Function.update p.at_ t s
  match p.at_ t with
  | .start => if rate t < 0 ∨ rate t > rr then { p with at_ := go (.raised .valueError) } else { p with at_ := go .checked }
  | .checked => { p with at_ := go (.loaded p.cls) }
  | .loaded b =>
    if (p.read b).all fun row => row.all fun v => decide (v = 0) then
      match fir.design (some .hann) (0.85 / rr) (cc * rr - 1) 1 false 1 with
      | .error e => { p with at_ := go (.raised e) }
      | .ok c => { p with arrays := p.arrays ++ [np.reshapeF rr cc c], at_ := go (.rows p.arrays.length 0) }
    else { p with at_ := go .done }
  | .rows b ii =>
    if ii < rr then { p with arrays := p.arrays.modify b fun a => a.modify ii fun row => row.map (· / row.sum), at_ := go (.rows b (ii + 1)) }
    else { p with cls := b, at_ := go .done }
  | .done => p
  | .raised _ => p

/-- The process when the module has been imported (polyphase_rate_filter.py:87). -/
def PPProcess.init (rr cc : ℕ) : PPProcess := ⟨[List.replicate rr (List.replicate cc 0)], 0, fun _ => .start⟩

end Verif
