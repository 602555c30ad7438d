import Mathlib.Algebra.Order.Archimedean.Real.Basic

/-!
# The time integrator as the code drives it

source/samrai/CVODESolver.h (solve, setters), source/samrai/CVODESolver.cc:112-246 (initializeCVODE),
source/QuatIntegrator.cc (resetIntegrator 1676-1730, initialize 1940-1970, Advance 2096-2235, updateDependentVariables
2053-2093, setTimestep 2263-2269, resetHierarchyConfiguration 557-595), source/QuatModel.cc (Advance 2316-2366,
Initialize 648-672).

The library itself is abstract: created with a time, a state and a first step size, it keeps its own copy of the state
(`CVodeInit` copies the vector it is given) and in `ONE_STEP` mode each call takes one internal step of some length and writes
the new state into the output vector.  The initial-condition vector and the output vector handed to it are both the current
fields of the run (source/QuatIntegrator.cc:1699-1719, 1966-1968).  Fields are split into the temperature `T` and everything
else `Y`.  Simplifications: a failing call aborts (`none`); the eight counters are one number; fields read by the rates that are
not integrated (symmetry rotations, weights, mesh) are part of the abstract library and are not changed by `edit`.
-/

namespace AMPE.StepCall

/-- Result of one internal step: its length, the new state, the new history, the work done and the temperature used by the last
rate evaluation of the step (which is left in the scratch context). -/
structure Res (Y T H : Type) where
  h : ℝ
  y : Y
  th : T
  hist : H
  work : ℕ
  evalT : T

/-- The library: history made from the first step size; one step from time, state and history. -/
structure Lib (Y T H : Type) where
  hist0 : ℝ → H
  step : ℝ → Y → T → H → Option (Res Y T H)

/-- Memory of the library. -/
structure Mem (Y T H : Type) where
  t : ℝ
  y : Y
  th : T
  hist : H
  work : ℕ

/-- State of the run seen from the integrator. -/
structure Run (Y T H : Type) where
  /-- current fields -/
  y : Y
  th : T
  /-- `d_cvode_mem` -/
  mem : Mem Y T H
  /-- `d_CVODE_needs_initialization` -/
  pending : Bool
  /-- `d_t_0`, `d_init_step_size` of the wrapper -/
  t0 : ℝ
  h0 : ℝ
  /-- `d_current_time`, `d_previous_timestep` of the integrator -/
  cur : ℝ
  prev : ℝ
  /-- `d_cum_...` -/
  cum : ℕ
  /-- `d_time` of the model -/
  time : ℝ
  /-- counters printed for the last step -/
  shown : ℕ

variable {Y T H : Type}

/-- `initializeCVODE`, source/samrai/CVODESolver.cc:112-246: only if something was set since the last time. -/
def init (lib : Lib Y T H) (s : Run Y T H) : Run Y T H :=
  if s.pending then { s with mem := ⟨s.t0, s.y, s.th, lib.hist0 s.h0, 0⟩, pending := false } else s

/-- `resetIntegrator`, source/QuatIntegrator.cc:1676-1730 with `setSundialsOptions` 1571-1594: a new solver object is created
at the current time with the current fields and the last step length, and initialised at once; counters are set to zero. -/
def reset (lib : Lib Y T H) (s : Run Y T H) : Run Y T H :=
  { init lib { s with t0 := s.cur, h0 := s.prev, pending := true } with cum := 0 }

/-- `setTimestep`, source/QuatIntegrator.cc:2263-2269 and `setInitialStepSize`, source/samrai/CVODESolver.h:549-554. -/
def setTimestep (dt : ℝ) (s : Run Y T H) : Run Y T H := { s with prev := dt, h0 := dt, pending := true }

/-- `initialize`, source/QuatIntegrator.cc:1940-1970: reset, and the initial condition is set again at the end. -/
def start (lib : Lib Y T H) (s : Run Y T H) : Run Y T H := { reset lib s with pending := true }

/-- `QuatIntegrator::Advance`, source/QuatIntegrator.cc:2096-2235 (frame velocity left out, see C45): `unsteady` tells whether the
temperature is part of the state, `crs` is the coarsening of the new fields. -/
def advance (lib : Lib Y T H) (unsteady : Bool) (crs : Y → Y) (crsT : T → T) (s : Run Y T H) : Option (Run Y T H) :=
  let s := init lib s
  (lib.step s.mem.t s.mem.y s.mem.th s.mem.hist).map fun r =>
    -- the library writes the output vector; then the temperature is copied from scratch to current
    let T1 := r.evalT
    let work := s.mem.work + r.work
    { s with
      mem := ⟨s.mem.t + r.h, r.y, r.th, r.hist, work⟩
      y := crs r.y
      th := if unsteady then crsT T1 else T1
      cur := s.mem.t + r.h
      prev := r.h
      shown := work - s.cum
      cum := work
      time := s.time + r.h }

/-- Changing the current fields between two steps, as `makeQuatFundamental`, `resetGrains` do before the integrator is called,
source/QuatModel.cc:2326-2353; the call that would tell the integrator is commented out (2349-2353). -/
def edit (g : Y × T → Y × T) (s : Run Y T H) : Run Y T H := { s with y := (g (s.y, s.th)).1, th := (g (s.y, s.th)).2 }

/-- A regrid: fields are carried to the new mesh, then `resetHierarchyConfiguration` resets the integrator unless
`use_warm_start` is set, in which case a build with CVODE does nothing, source/QuatIntegrator.cc:584-594. -/
def regrid (lib : Lib Y T H) (warm : Bool) (g : Y × T → Y × T) (s : Run Y T H) : Run Y T H :=
  if warm then edit g s else reset lib (edit g s)

/-- What happens in a run after initialisation, source/PFModel.cc:462-504. -/
inductive Ev (Y T : Type)
  | advance
  | edit (g : Y × T → Y × T)
  | regrid (g : Y × T → Y × T)

/-- Effect of one event. -/
def ev (lib : Lib Y T H) (unsteady : Bool) (crs : Y → Y) (crsT : T → T) (s : Run Y T H) : Ev Y T → Option (Run Y T H)
  | .advance => advance lib unsteady crs crsT s
  | .edit g => some (edit g s)
  | .regrid g => some (regrid lib false g s)

/-- A sequence of events. -/
def evs (lib : Lib Y T H) (unsteady : Bool) (crs : Y → Y) (crsT : T → T) : List (Ev Y T) → Run Y T H → Option (Run Y T H)
  | [], s => some s
  | e :: l, s => (ev lib unsteady crs crsT s e).bind (evs lib unsteady crs crsT l)

end AMPE.StepCall
