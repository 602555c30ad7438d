import Mathlib.Data.Nat.Basic

/-!
# What the phase rate holds on to when the mesh changes

`QuatIntegrator::initialize` (source/QuatIntegrator.cc:1942-2003) creates the strategy that evaluates the phase rate, hands it a
pointer to the time integrator object and lets it create its coarsening schedules (`setup`,
source/PhaseRHSStrategyWithQ.cc:75-89, source/MultiOrderRHSStrategy.cc:70-84, source/ThreePhasesRHSStrategy.cc:70-84,
source/SinteringUWangRHSStrategy.cc:62-76).  Regridding (source/PFModel.cc:499-503, 565-570) replaces every level above
the coarsest one by a new object (`initializeLevelData`, source/QuatIntegrator.cc:1809-1824) and calls
`resetHierarchyConfiguration` (source/QuatIntegrator.cc:557-595), which renews the schedules of the integrator itself and, without
warm start, deletes the time integrator object and creates another one (`resetIntegrator`, source/QuatIntegrator.cc:1676-1719,
`createSundialsSolver`, 1598-1607).

Objects are numbered in the order of their creation.  Simplifications: one `resetHierarchyConfiguration` per regridding, called with
coarsest level 0 or 1 (the schedules of all pairs of levels are renewed in both cases); every level above the coarsest one is
replaced; the content of the fluxes is left out, only which pairs of levels are connected is kept.
-/

namespace AMPE.Remesh

/-- State of the run. -/
structure World where
  /-- number of levels -/
  n : ℕ
  /-- object in use for each level number -/
  level : ℕ → ℕ
  /-- whether the work arrays (`d_local_data`: fluxes, noise) are allocated on an object -/
  data : ℕ → Bool
  /-- number of level objects created so far -/
  next : ℕ
  /-- `d_flux_conc_coarsen_schedule` of the integrator: length and entries (pairs of objects, `none` is a null pointer) -/
  ownLen : ℕ
  own : ℕ → Option (ℕ × ℕ)
  /-- `d_flux_coarsen_schedule` of the strategy -/
  stratLen : ℕ
  strat : ℕ → Option (ℕ × ℕ)
  /-- the time integrator object in use (earlier ones are deleted) and the one the strategy points to -/
  solver : ℕ
  held : ℕ

/-- Schedules for all pairs of successive levels, as created by the loops `ln < finest`. -/
def pairs (n : ℕ) (level : ℕ → ℕ) (ln : ℕ) : Option (ℕ × ℕ) := if ln + 1 < n then some (level ln, level (ln + 1)) else none

/-- The run after `initialize` on `n` levels: source/QuatIntegrator.cc:1942-2003. -/
def start (n : ℕ) : World where
  n := n
  level := fun ln => ln
  data := fun t => decide (t < n)
  next := n
  ownLen := n
  own := pairs n fun ln => ln
  stratLen := n
  strat := pairs n fun ln => ln
  solver := 0
  held := 0

/-- New objects for the levels above the coarsest one: `initializeLevelData`, source/QuatIntegrator.cc:1815-1824: data are allocated on
the new object and released on the old one, if that level existed. -/
def install (n' : ℕ) (w : World) : World :=
  let level := fun ln => if ln = 0 then w.level 0 else w.next + ln
  { w with
    n := n'
    level := level
    data := fun t =>
      if w.next < t ∧ t < w.next + n' then true
      else if ∃ ln ∈ List.range (min w.n n'), 0 < ln ∧ w.level ln = t then false
      else w.data t
    next := w.next + n' + 1 }

/-- `resetHierarchyConfiguration`, source/QuatIntegrator.cc:557-595. -/
def reconfigure (warm : Bool) (w : World) : World :=
  { w with
    ownLen := w.n
    own := fun ln => if ln + 1 < w.n then some (w.level ln, w.level (ln + 1)) else if ln < w.ownLen then w.own ln else none
    solver := if warm then w.solver else w.solver + 1 }

/-- One regridding that ends with `n'` levels. -/
def regrid (warm : Bool) (w : World) (n' : ℕ) : World := reconfigure warm (install n' w)

/-- A run: number of levels at the start, and after each regridding. -/
def run (warm : Bool) (n : ℕ) (ns : List ℕ) : World := ns.foldl (regrid warm) (start n)

/-- The loop over levels `ln = finest … 0` with `schedule[ln]->coarsenData()` for `ln < finest`
(source/PhaseRHSStrategyWithQ.cc:126-137, source/QuatIntegrator.cc:2602-2621): the pairs of objects whose fluxes are matched, in this order;
`none`: an entry beyond the end of the vector, a null pointer or data that are not allocated is used. -/
def coarsen (len : ℕ) (v : ℕ → Option (ℕ × ℕ)) (data : ℕ → Bool) : ℕ → Option (List (ℕ × ℕ))
  | 0 => some []
  | k + 1 =>
    if k < len then
      match v k with
      | some p => if data p.1 && data p.2 then (coarsen len v data k).map (p :: ·) else none
      | none => none
    else none

/-- Flux matching in the phase rate; the strategy first asks the time integrator object for the time of the last step
(source/PhaseRHSStrategyWithQ.cc:110-112). -/
def phaseRate (w : World) : Option (List (ℕ × ℕ)) :=
  if w.held = w.solver then coarsen w.stratLen w.strat w.data (w.n - 1) else none

/-- The same with a valid pointer to the time integrator. -/
def phaseRateLive (w : World) : Option (List (ℕ × ℕ)) := coarsen w.stratLen w.strat w.data (w.n - 1)

/-- Flux matching in the composition rate: source/QuatIntegrator.cc:2615-2621. -/
def compositionRate (w : World) : Option (List (ℕ × ℕ)) := coarsen w.ownLen w.own w.data (w.n - 1)

/-- Number of regriddings of a run: source/PFModel.cc:499-503. -/
def regrids (maxLevels : ℕ) (due : List ℕ) : List ℕ := if 1 < maxLevels then due else []

end AMPE.Remesh
