import Verif.Model.EventInterval

/-!
# Model of the simulation driver `PFModel::Run` and of its restart data (source/PFModel.cc)

The numerical work of one cycle (`Advance`) is represented by the step size it returns: an
arbitrary function `dt` of the cycle number.  `QuatModel::Advance` (source/QuatModel.cc:2355-2363) adds
that step to the model time.  Diagnostics called outside the five event intervals
(`preRunDiagnostics`, `postAdvanceDiagnostics`, `postRunDiagnostics`, `WriteInitialConditionsFile`,
lines 440, 487, 508, 522-529) and message printing other than the periodic time info are dropped.
-/

namespace AMPE.RunLoop

open AMPE.EventInterval (includeInitial includeFinal hasIntervalPassed)

/-- Observable actions of a run, tagged with cycle and time. -/
inductive Out where
  | plot (cycle : ℤ) (time : ℝ)
  | info (cycle : ℤ) (time : ℝ)
  | restart (cycle : ℤ) (time : ℝ)
  | grains (cycle : ℤ) (time : ℝ)
  | regrid (cycle : ℤ) (time : ℝ)

/-- Settings that do not change during a run: `d_end_time`, `d_max_cycles` (source/PFModel.h:156-160),
`d_verbosity->notSilent()`, `getMaxNumberOfLevels()`, and the step-size oracle. -/
structure Params where
  endTime : ℝ
  maxCycles : ℤ
  notSilent : Bool
  maxLevels : ℕ
  dt : ℤ → ℝ

/-- The part of the `PFModel` object changed by `Run`. -/
structure S where
  cycle : ℤ
  time : ℝ
  prevDt : ℝ
  visit : EventInterval.State
  info : EventInterval.State
  restart : EventInterval.State
  grains : EventInterval.State
  regrid : EventInterval.State
  flagVisitDump : Bool
  log : List Out

/-- Append an action to the log if the flag is set. -/
def S.emit (s : S) (b : Bool) (o : Out) : S := { s with log := if b then s.log ++ [o] else s.log }

/-- Lines 442-446: initial plot. -/
noncomputable def initVisit (s : S) : S :=
  let r := includeInitial s.visit s.time
  { s with visit := r.1 }.emit r.2 (Out.plot s.cycle s.time)

/-- Lines 448-451: initial time info. -/
noncomputable def initInfo (p : Params) (s : S) : S :=
  if p.notSilent then
    let r := includeInitial s.info s.time
    { s with info := r.1 }.emit r.2 (Out.info s.cycle s.time)
  else s

/-- Lines 453-455: initial restart file.  The code asks `d_regrid_interval`. -/
noncomputable def initRestart (s : S) : S :=
  let r := includeInitial s.regrid s.time
  { s with regrid := r.1 }.emit r.2 (Out.restart s.cycle s.time)

/-- Lines 457-459: initial grain diagnostics. -/
noncomputable def initGrains (s : S) : S :=
  let r := includeInitial s.grains s.time
  { s with grains := r.1 }.emit r.2 (Out.grains s.cycle s.time)

/-- Lines 442-461 of source/PFModel.cc: the actions before the first cycle. -/
noncomputable def preamble (p : Params) (s : S) : S :=
  { initGrains (initRestart (initInfo p (initVisit s))) with flagVisitDump := true }

/-- Lines 464-468: new cycle number, `Advance` (source/QuatModel.cc:2355-2357 adds the step to the
time), remembered step. -/
def advance (p : Params) (s : S) : S :=
  { s with cycle := s.cycle + 1, time := s.time + p.dt (s.cycle + 1), prevDt := p.dt (s.cycle + 1) }

/-- Lines 470-475: periodic time info. -/
noncomputable def pollInfo (p : Params) (s : S) : Option S :=
  if p.notSilent then
    (hasIntervalPassed s.info s.cycle s.time).map fun r =>
      { s with info := r.1 }.emit r.2 (Out.info s.cycle s.time)
  else some s

/-- Lines 477-480: periodic restart file. -/
noncomputable def pollRestart (s : S) : Option S :=
  (hasIntervalPassed s.restart s.cycle s.time).map fun r =>
    { s with restart := r.1 }.emit r.2 (Out.restart s.cycle s.time)

/-- Lines 482-485: periodic grain diagnostics. -/
noncomputable def pollGrains (s : S) : Option S :=
  (hasIntervalPassed s.grains s.cycle s.time).map fun r =>
    { s with grains := r.1 }.emit r.2 (Out.grains s.cycle s.time)

/-- Lines 489-497: periodic plot. -/
noncomputable def pollVisit (s : S) : Option S :=
  (hasIntervalPassed s.visit s.cycle s.time).map fun r =>
    { s with visit := r.1, flagVisitDump := r.2 }.emit r.2 (Out.plot s.cycle s.time)

/-- Lines 499-503: periodic regridding. -/
noncomputable def pollRegrid (p : Params) (s : S) : Option S :=
  if 1 < p.maxLevels then
    (hasIntervalPassed s.regrid s.cycle s.time).map fun r =>
      { s with regrid := r.1 }.emit r.2 (Out.regrid s.cycle s.time)
  else some s

/-- The body of the `while` loop, source/PFModel.cc:464-503.  `none` is undefined behaviour inside an
event interval. -/
noncomputable def body (p : Params) (s : S) : Option S :=
  (pollInfo p (advance p s)).bind fun s =>
  (pollRestart s).bind fun s =>
  (pollGrains s).bind fun s =>
  (pollVisit s).bind fun s =>
  pollRegrid p s

/-- The loop condition, source/PFModel.cc:462. -/
def Continue (p : Params) (s : S) : Prop := s.time < p.endTime ∧ s.cycle < p.maxCycles

open Classical in
/-- The `while` loop of source/PFModel.cc:462-504, unrolled at most `fuel` times.  Because the body
increments the cycle, `(maxCycles - cycle)` is enough fuel (theorem `c04_loop_exits`). -/
noncomputable def loop (p : Params) : ℕ → S → Option S
  | 0, s => some s
  | n + 1, s => if Continue p s then (body p s).bind (loop p n) else some s

/-- Lines 510-514: final plot. -/
noncomputable def finalVisit (s : S) : S :=
  let r := includeFinal s.visit s.time
  { s with visit := r.1 }.emit (r.2 && !s.flagVisitDump) (Out.plot s.cycle s.time)

/-- Lines 516-518: final restart file. -/
noncomputable def finalRestart (s : S) : S :=
  let r := includeFinal s.restart s.time
  { s with restart := r.1 }.emit r.2 (Out.restart s.cycle s.time)

/-- Lines 510-518 of source/PFModel.cc. -/
noncomputable def finale (s : S) : S := finalRestart (finalVisit s)

/-- `PFModel::Run`, source/PFModel.cc:436-536. -/
noncomputable def run (p : Params) (s : S) : Option S :=
  (loop p (p.maxCycles - s.cycle).toNat (preamble p s)).map finale

/-! ### Observations on a log (specification side) -/

/-- The plots of a log, in order. -/
def plots : List Out → List (ℤ × ℝ)
  | [] => []
  | .plot c t :: l => (c, t) :: plots l
  | _ :: l => plots l

/-- The restart files of a log, in order. -/
def restarts : List Out → List (ℤ × ℝ)
  | [] => []
  | .restart c t :: l => (c, t) :: restarts l
  | _ :: l => restarts l

/-! ### Restart data -/

/-- Members of `PFModel` written to and read from the restart file. -/
structure Ctl where
  maxCycles : ℤ
  startTime : ℝ
  endTime : ℝ
  time : ℝ
  cycle : ℤ
  prevDt : ℝ
  amr : Bool

/-- The restart database entries used by `putToRestart`/`getFromRestart`, including the legacy
keys. -/
structure RestartDb where
  maxCycles : Option ℤ := none
  maxTimesteps : Option ℤ := none
  startTime : Option ℝ := none
  endTime : Option ℝ := none
  time : Option ℝ := none
  loopTime : Option ℝ := none
  cycle : Option ℤ := none
  iterationNumber : Option ℤ := none
  prevDt : Option ℝ := none
  amr : Option Bool := none

/-- The input-file entries used by `getFromInput`/`getFromRestart`.  `amrDb` is the optional
`Amr` sub-database with its optional key `enabled`. -/
structure InputDb where
  maxCycles : Option ℤ := none
  maxTimesteps : Option ℤ := none
  maxDeltaCycles : Option ℤ := none
  startTime : Option ℝ := none
  endTime : Option ℝ := none
  amrDb : Option (Option Bool) := none

/-- `INT_MAX` for a 32-bit `int`. -/
def intMax : ℤ := 2147483647

/-- `PFModel::putToRestart`, source/PFModel.cc:607-618. -/
def putToRestart (c : Ctl) : RestartDb :=
  { maxCycles := some c.maxCycles, startTime := some c.startTime, endTime := some c.endTime,
    time := some c.time, cycle := some c.cycle, prevDt := some c.prevDt, amr := some c.amr }

/-- `PFModel::getFromInput` (source/PFModel.cc:621-651) together with the initialisation of time,
previous step and cycle in `Initialize` (lines 115-119).  `none` is the `TBOX_ERROR` for a missing
`end_time`. -/
noncomputable def getFromInput (inp : InputDb) : Option Ctl := do
  let mc := match inp.maxCycles with
    | some m => m
    | none => match inp.maxTimesteps with
      | some m => m
      | none => intMax
  let mc := match inp.maxDeltaCycles with
    | some m => m
    | none => mc
  let st := inp.startTime.getD 0
  let et ← inp.endTime
  let amr := match inp.amrDb with
    | some e => e.getD true
    | none => false
  some { maxCycles := mc, startTime := st, endTime := et, time := st, cycle := 0, prevDt := 0,
         amr := amr }

/-- `PFModel::getFromRestart`, source/PFModel.cc:653-716.  `none` is a missing required key (SAMRAI
aborts).  The addition in line 704 is on unbounded integers (overflow not modelled). -/
noncomputable def getFromRestart (db : RestartDb) (inp : InputDb) : Option Ctl := do
  let mc ← match db.maxCycles with
    | some m => some m
    | none => db.maxTimesteps
  let st ← db.startTime
  let et ← db.endTime
  let t ← match db.time with
    | some t => some t
    | none => db.loopTime
  let cy ← match db.cycle with
    | some c => some c
    | none => db.iterationNumber
  let pd := db.prevDt.getD 0
  let amr := db.amr.getD true
  let mc := match inp.maxDeltaCycles with
    | some m => cy + m
    | none => mc
  let mc := match inp.maxCycles with
    | some m => m
    | none => match inp.maxTimesteps with
      | some m => m
      | none => mc
  let et := inp.endTime.getD et
  some { maxCycles := mc, startTime := st, endTime := et, time := t, cycle := cy, prevDt := pd,
         amr := amr }

end AMPE.RunLoop
