import Mathlib.Algebra.Order.Archimedean.Real.Basic
import Mathlib.Algebra.Order.Floor.Ring

/-!
# Model of `EventInterval` (source/EventInterval.cc, source/EventInterval.h)

`double` is `ℝ`.  The conversion `(int)x` is undefined behaviour when the truncated
value does not fit in a 32-bit `int`; the model returns `none` there.
-/

namespace AMPE.EventInterval

/-- `enum INTERVAL_TYPE { CYCLE, TIME }`, source/EventInterval.h:24. -/
inductive Kind where
  | cycle
  | time
  deriving DecidableEq, Repr

/-- The data members of the class, source/EventInterval.h:46-53 (`d_name` is dropped: it is only
used in an error message). -/
structure State where
  intInterval : ℤ
  dblInterval : ℝ
  kind : Kind
  prevTime : ℝ
  lastEvent : ℝ
  includeFirst : Bool
  includeLast : Bool

/-- The optional entries of the input sub-database read by the constructor,
source/EventInterval.cc:29-47, 60-64, 70-74. -/
structure Input where
  intervalType : Option String := none
  includeFirst : Option Bool := none
  includeLast : Option Bool := none
  intInterval : Option ℤ := none
  dblInterval : Option ℝ := none

/-- C++ conversion of a double to `int`, truncating towards zero; `none` is the undefined
behaviour outside the range of a 32-bit `int`. -/
noncomputable def toInt (x : ℝ) : Option ℤ :=
  let n : ℤ := if 0 ≤ x then ⌊x⌋ else ⌈x⌉
  if -2147483648 ≤ n ∧ n ≤ 2147483647 then some n else none

/-- Constructor, source/EventInterval.cc:17-79.  `none` is `TBOX_ERROR` (line 52) or the undefined
conversion of line 25.  `interval_db` absent is the same as all its keys absent. -/
noncomputable def construct (inp : Input) (defaultValue : ℝ) (defaultType : String)
    (includeFirst includeLast : Bool) : Option State := do
  let dfltInt ← toInt (defaultValue + 0.5)
  let ty := inp.intervalType.getD defaultType
  let first := inp.includeFirst.getD includeFirst
  let last := inp.includeLast.getD includeLast
  if ty = "step" ∨ ty = "cycle" then
    some { intInterval := inp.intInterval.getD dfltInt, dblInterval := 0, kind := .cycle,
           prevTime := -1, lastEvent := -1, includeFirst := first, includeLast := last }
  else if ty = "time" ∨ ty = "dt" then
    some { intInterval := 0, dblInterval := inp.dblInterval.getD defaultValue, kind := .time,
           prevTime := -1, lastEvent := -1, includeFirst := first, includeLast := last }
  else none

/-- `isActive`, source/EventInterval.cc:81-90. -/
noncomputable def isActive (s : State) : Bool :=
  (s.kind = .cycle ∧ 0 < s.intInterval) ∨ (s.kind = .time ∧ 0 < s.dblInterval)

/-- `recordEvent`, source/EventInterval.cc:92-95. -/
def recordEvent (s : State) (t : ℝ) : State := { s with lastEvent := t }

/-- `eventOccurredAtTime`, source/EventInterval.cc:97-107. -/
noncomputable def eventOccurredAtTime (s : State) (t : ℝ) : Bool :=
  isActive s ∧ s.lastEvent = t

/-- `includeInitial`, source/EventInterval.cc:109-123. -/
noncomputable def includeInitial (s : State) (t : ℝ) : State × Bool :=
  let doIt : Bool := isActive s ∧ s.includeFirst ∧ ¬ eventOccurredAtTime s t
  let s := if doIt then recordEvent s t else s
  ({ s with prevTime := t }, doIt)

/-- `includeFinal`, source/EventInterval.cc:125-139. -/
noncomputable def includeFinal (s : State) (t : ℝ) : State × Bool :=
  let doIt : Bool := isActive s ∧ s.includeLast ∧ ¬ eventOccurredAtTime s t
  let s := if doIt then recordEvent s t else s
  ({ s with prevTime := t }, doIt)

/-- The decision part of `hasIntervalPassed`, source/EventInterval.cc:144-166.  `none` = undefined
behaviour of the two conversions to `int` in lines 160-161.  `Int.tmod` is the C++ `%`. -/
noncomputable def intervalPassed (s : State) (step : ℤ) (t : ℝ) : Option Bool :=
  if isActive s ∧ ¬ eventOccurredAtTime s t then
    if s.includeFirst ∧ s.prevTime < 0 then some true
    else if s.kind = .cycle then some (decide (step.tmod s.intInterval = 0))
    else if 0 ≤ s.prevTime then do
      let nPrev ← toInt (s.prevTime / s.dblInterval)
      let n ← toInt (t / s.dblInterval)
      some (decide (nPrev < n))
    else some false
  else some false

/-- `hasIntervalPassed`, source/EventInterval.cc:141-175. -/
noncomputable def hasIntervalPassed (s : State) (step : ℤ) (t : ℝ) : Option (State × Bool) := do
  let b ← intervalPassed s step t
  let s := { s with prevTime := t }
  some (if b then recordEvent s t else s, b)

/-- One call of the public interface. -/
inductive Op where
  | initial (t : ℝ)
  | poll (step : ℤ) (t : ℝ)
  | final (t : ℝ)

/-- The time argument of a call. -/
def Op.at : Op → ℝ
  | .initial t => t
  | .poll _ t => t
  | .final t => t

/-- Dispatch of one call. -/
noncomputable def exec (s : State) : Op → Option (State × Bool)
  | .initial t => some (includeInitial s t)
  | .poll k t => hasIntervalPassed s k t
  | .final t => some (includeFinal s t)

/-- A history of calls on one object: final state and all answers; `none` if some call hits
undefined behaviour. -/
noncomputable def run (s : State) : List Op → Option (State × List Bool)
  | [] => some (s, [])
  | op :: ops => do
    let (s1, b) ← exec s op
    let (s2, bs) ← run s1 ops
    some (s2, b :: bs)

end AMPE.EventInterval
