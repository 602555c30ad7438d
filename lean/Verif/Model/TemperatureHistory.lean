import Mathlib.Algebra.Order.Archimedean.Real.Basic

/-!
# Model of `TemperatureHistory::getTandGradT` (source/TemperatureHistory.cc:69-171)

All vector accesses are bounds checked: reading outside a vector gives the outcome `undefined`.
Indices are 32-bit `unsigned` in the code; the decrement of a zero index wraps around and the
model keeps that.  File parsing (`readCSV`, lines 14-67) is not modelled; the table is a parameter.
-/

namespace AMPE.TemperatureHistory

/-- `d_times`, `d_positions`, `d_temperatures` (source/TemperatureHistory.h). -/
structure Table where
  times : List ℝ
  positions : List ℝ
  temps : List (List ℝ)

/-- Result of a lookup: return code 0 with temperature and gradient, return code 1, or undefined
behaviour. -/
inductive Outcome where
  | ok (temperature gradT : ℝ)
  | outOfRange
  | undefined

/-- Return code 0 with the interpolated pair (lines 167-170) unless a read was out of bounds. -/
def Outcome.ofRead : Option (ℝ × ℝ) → Outcome
  | none => .undefined
  | some (t, g) => .ok t g

/-- `2^32`, the modulus of `unsigned`. -/
def wrap : ℕ := 4294967296

/-- `i--` on an `unsigned` (lines 89 and 115). -/
def dec (i : ℕ) : ℕ := if i = 0 then wrap - 1 else i - 1

/-- `i + 1` on an `unsigned` (lines 91, 98, 116, 124). -/
def inc (i : ℕ) : ℕ := (i + 1) % wrap

/-- The counting loop of lines 83-88 (`keep t` is `time >= t`) and 109-114 (`position > x`): the
number of leading entries that satisfy the test. -/
noncomputable def countWhile (keep : ℝ → Prop) [DecidablePred keep] (l : List ℝ) : ℕ :=
  (l.takeWhile (fun x => decide (keep x))).length

/-- `d_temperatures[i][j]`. -/
def Table.temp (tb : Table) (i j : ℕ) : Option ℝ := (tb.temps[i]?).bind fun r => r[j]?

/-- Lines 133-168: interpolation once the indices are known.  `none` = out-of-bounds read. -/
noncomputable def interpolate (tb : Table) (time position : ℝ) (itime ipos : ℕ) :
    Option (ℝ × ℝ) := do
  let tm ← tb.times[itime]?
  let tp ← tb.times[inc itime]?
  let tfrac := (time - tm) / (tp - tm)
  let xm ← tb.positions[ipos]?
  let xp ← tb.positions[inc ipos]?
  let xfrac := (position - xm) / (xp - xm)
  let tmxm ← tb.temp itime ipos
  let tmxp ← tb.temp itime (inc ipos)
  let tpxm ← tb.temp (inc itime) ipos
  let tpxp ← tb.temp (inc itime) (inc ipos)
  let temperature := (1 - tfrac) * ((1 - xfrac) * tmxm + xfrac * tmxp) +
    tfrac * ((1 - xfrac) * tpxm + xfrac * tpxp)
  let gradTm := (tmxp - tmxm) / (xp - xm)
  let gradTp := (tpxp - tpxm) / (xp - xm)
  if 0 < ipos ∧ xfrac < 0.5 then do
    let xmm ← tb.positions[ipos - 1]?
    let tmxmm ← tb.temp itime (ipos - 1)
    let gradTmXm := (tmxm - tmxmm) / (xm - xmm)
    let tpxmm ← tb.temp (inc itime) (ipos - 1)
    let gradTpXm := (tpxm - tpxmm) / (xm - xmm)
    let gradTm := (0.5 + xfrac) * gradTm + (0.5 - xfrac) * gradTmXm
    let gradTp := (0.5 + xfrac) * gradTp + (0.5 - xfrac) * gradTpXm
    some (temperature, (1 - tfrac) * gradTm + tfrac * gradTp)
  else if inc (inc ipos) < tb.positions.length ∧ 0.5 < xfrac then do
    let xpp ← tb.positions[inc (inc ipos)]?
    let tmxpp ← tb.temp itime (inc (inc ipos))
    let gradTmXp := (tmxpp - tmxp) / (xpp - xp)
    let tpxpp ← tb.temp (inc itime) (inc (inc ipos))
    let gradTpXp := (tpxpp - tpxp) / (xpp - xp)
    let gradTm := (1.5 - xfrac) * gradTm + (xfrac - 0.5) * gradTmXp
    let gradTp := (1.5 - xfrac) * gradTp + (xfrac - 0.5) * gradTpXp
    some (temperature, (1 - tfrac) * gradTm + tfrac * gradTp)
  else
    some (temperature, (1 - tfrac) * gradTm + tfrac * gradTp)

/-- `getTandGradT`, lines 69-171. -/
noncomputable def getTandGradT (tb : Table) (time position : ℝ) : Outcome :=
  match tb.times[0]? with
  | none => .undefined
  | some t0 =>
    if time < t0 then .outOfRange                                          -- lines 76-81
    else
      let itime := dec (countWhile (fun t => t ≤ time) tb.times)           -- lines 82-89
      if tb.times.length ≤ inc itime then .outOfRange                      -- lines 91-96
      else match tb.positions[0]? with
        | none => .undefined
        | some x0 =>
          if position < x0 then .outOfRange                                -- lines 102-107
          else
            let ipos := dec (countWhile (fun x => x < position) tb.positions) -- lines 108-115
            if tb.positions.length ≤ inc ipos then .outOfRange             -- lines 116-122
            else Outcome.ofRead (interpolate tb time position itime ipos)

end AMPE.TemperatureHistory
