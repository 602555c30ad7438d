import Verif.Model.Remesh
import Mathlib.Data.List.Basic

/-!
# Which mesh the multigrid solvers work on

`EllipticFACSolver` (source/EllipticFACSolver.cc) and `QuatSysSolver` (source/QuatSysSolver.cc) keep a state that belongs to the levels of
the mesh at the time of `initializeSolverState`: the range of levels, the transfer schedules, the boundaries between coarse and fine levels
and work arrays allocated on the level objects (`EllipticFACOps::initializeOperatorState`, source/EllipticFACOps.cc:466-772;
`FACPreconditioner::initializeSolverState`, source/samrai/FACPreconditioner.cc:152-219).  After a regridding
`QuatIntegrator::resetHierarchyConfiguration` (source/QuatIntegrator.cc:557-595) calls `resetSolversState` (1764-1805), which renews the
solvers of phase, temperature, composition and orientation, and calls `resetSolversState` of the temperature strategy.

The mesh is the one of `AMPE.Remesh`: level objects are numbered in the order of their creation.  Assumed about SAMRAI:
`getPatchLevel(ln)` is a null pointer for a level that was removed; a regridding replaces every level above the coarsest one; at its end
`resetHierarchyConfiguration` is called, except that it may be left out if only the coarsest level is left.  Simplifications: one hierarchy;
the numbers computed by a solve are left out, only which level objects it works on and which level objects its schedules connect is kept;
`isCell` stands for the patch data indices that belong to cell-centred variables of type double.
-/

namespace AMPE.SolverMesh

open AMPE.Remesh

/-- State that belongs to a mesh: the range of levels and, for each level number, the object the schedules were created for. -/
structure Bound where
  lo : ℕ
  hi : ℕ
  objs : ℕ → ℕ

/-- Boundary condition object in use: `d_simple_bc` or one given by the caller. -/
inductive Bc
  | simple
  | own
  deriving DecidableEq

/-- A solver object: source/EllipticFACSolver.h (private part). -/
structure Solver where
  /-- `d_bc_object` (`none`: null pointer) -/
  bc : Option Bc
  /-- `none`: `d_solver_is_initialized` is false and `d_hierarchy` is null -/
  st : Option Bound
  /-- component indices of the wrappers `d_uv`, `d_fv` -/
  uv : Option ℤ
  fv : Option ℤ
  /-- level objects that carry the work arrays of this solver (`d_m_id`, `d_c_id`, `d_d_id`, error and residual vectors) -/
  work : ℕ → Bool

/-- Constructor: source/EllipticFACSolver.cc:34-58. -/
def create : Solver := ⟨none, none, none, none, fun _ => false⟩

/-- `setBoundaries`: source/EllipticFACSolver.cc:199-211, source/QuatSysSolver.cc:253-265. -/
def setBoundaries (s : Solver) : Option Solver := if s.bc = some .own then none else some { s with bc := some .simple }

/-- `setBcObject` with an object: source/EllipticFACSolver.h:271-279. -/
def setBcObject (s : Solver) : Solver := { s with bc := some .own }

/-- `createVectorWrappers`: source/EllipticFACSolver.cc:325-369. -/
def createVectorWrappers (isCell : ℤ → Bool) (s : Solver) (u f : ℤ) : Option Solver :=
  if s.uv ≠ some u ∧ isCell u = false then none
  else if s.fv ≠ some f ∧ isCell f = false then none
  else some { s with uv := some u, fv := some f }

/-- `initializeSolverState`: source/EllipticFACSolver.cc:102-147, with `FACPreconditioner::initializeSolverState`
(source/samrai/FACPreconditioner.cc:152-219: the levels must exist) and `EllipticFACOps::initializeOperatorState`
(source/EllipticFACOps.cc:466-772: work arrays on the levels of the range, schedules between them). -/
def initState (isCell : ℤ → Bool) (w : World) (s : Solver) (sol rhs coarse fine : ℤ) : Option Solver :=
  if s.bc = none then none
  else if s.st.isSome then some s
  else if sol < 0 ∨ rhs < 0 then none
  else
    let lo := if coarse = -1 then 0 else coarse
    let hi := if fine = -1 then (w.n : ℤ) - 1 else fine
    if lo < 0 ∨ hi < 0 ∨ lo > hi then none
    else if (w.n : ℤ) ≤ hi then none
    else
      (createVectorWrappers isCell s sol rhs).map fun s =>
        { s with
          st := some ⟨lo.toNat, hi.toNat, w.level⟩
          work := fun t => s.work t || (List.range (hi.toNat + 1)).any fun ln => decide (lo.toNat ≤ ln) && decide (w.level ln = t) }

/-- `deallocateSolverState`: source/EllipticFACSolver.cc:165-178, source/QuatSysSolver.cc:236-250, with
`FACPreconditioner::deallocateSolverState` (source/samrai/FACPreconditioner.cc:118-150) and `EllipticFACOps::deallocateOperatorState`
(source/EllipticFACOps.cc:781-818), `QuatFACOps::deallocateOperatorState` (source/QuatFACOps.cc:831-870): the work arrays are released
through `d_hierarchy->getPatchLevel(ln)` for every level number of the range (`none`: a null pointer is used). -/
def deallocate (w : World) (s : Solver) : Option Solver :=
  match s.st with
  | none => some s
  | some b =>
    if w.n ≤ b.hi then none
    else some
      { s with
        st := none
        uv := none
        fv := none
        work := fun t => s.work t && !((List.range (b.hi + 1)).any fun ln => decide (b.lo ≤ ln) && decide (w.level ln = t)) }

/-- `resetSolverState`: source/EllipticFACSolver.cc:181-196, source/QuatSysSolver.cc:223-233. -/
def reset (isCell : ℤ → Bool) (w : World) (s : Solver) (sol rhs : ℤ) : Option Solver :=
  if s.st.isSome then
    if sol < 0 ∨ rhs < 0 then none
    else (deallocate w s).bind fun s => initState isCell w s sol rhs (-1) (-1)
  else some s

/-- What a solve works on: the patch data indices and, for each level number of the range, the level object whose cells are updated and the
level object the schedules of that level connect. -/
structure Solved where
  u : ℤ
  f : ℤ
  levels : List (ℕ × ℕ × ℕ)
  deriving DecidableEq

/-- `solveSystem(u_id, f_id)`: source/EllipticFACSolver.cc:225-274 (`FACPreconditioner::solveSystem`,
source/samrai/FACPreconditioner.cc:264-420: cycles over the levels of the range).  `none`: not initialised, bad indices, a level of the
range does not exist, or its object does not carry the work arrays. -/
def solve (isCell : ℤ → Bool) (w : World) (s : Solver) (u f : ℤ) : Option (Solver × Solved) :=
  match s.st with
  | none => none
  | some b =>
    if u < 0 ∨ f < 0 then none
    else
      (createVectorWrappers isCell s u f).bind fun s =>
        let lns := (List.range (b.hi + 1)).filter fun ln => decide (b.lo ≤ ln)
        if lns.all fun ln => decide (ln < w.n) && s.work (w.level ln) then
          some (s, ⟨u, f, lns.map fun ln => (ln, w.level ln, b.objs ln)⟩)
        else none

/-- `solveSystem(u_id, f_id, hierarchy, coarse_ln, fine_ln)`: source/EllipticFACSolver.cc:288-322. -/
def solveOnce (isCell : ℤ → Bool) (w : World) (s : Solver) (u f coarse fine : ℤ) : Option (Solver × Solved) :=
  if s.st.isSome then none
  else
    (initState isCell w s u f coarse fine).bind fun s =>
      (solve isCell w s u f).bind fun (s, r) => (deallocate w s).map fun s => (s, r)

/-- A solver of the preconditioner before the run: `setSolversBoundaries` with periodic boundaries only
(source/QuatIntegrator.cc:1353-1383), `initializeNonPeriodicBC` otherwise (1862-1886), then `initializeSolvers` with the range `0 … finest`
(1901-1934; source/QuatSysSolver.cc:172-220).  The `resetSolversState` of `resetIntegrator` before that has no effect. -/
def startSolver (isCell : ℤ → Bool) (periodic : Bool) (w : World) (sol rhs : ℤ) : Option Solver :=
  (if periodic then setBoundaries create else some (setBcObject create)).bind fun s =>
    (reset isCell w s sol rhs).bind fun s => initState isCell w s sol rhs 0 ((w.n : ℤ) - 1)

/-- The solver of the steady temperature before the run: constructor and `initialize`,
source/SteadyStateTemperatureStrategy.cc:20-46, 57-65; source/QuatIntegrator.cc:1962. -/
def startSteady (isCell : ℤ → Bool) (bcGiven : Bool) (w : World) (sol rhs : ℤ) : Option Solver :=
  (if bcGiven then some (setBcObject create) else setBoundaries create).bind fun s =>
    initState isCell w s sol rhs 0 ((w.n : ℤ) - 1)

/-- The kinds of solvers. -/
inductive Kind
  /-- phase, composition, temperature, orientation: preconditioner of the time integrator -/
  | precond
  /-- the temperature at steady state -/
  | steady
  deriving DecidableEq

/-- What `resetSolversState` of the integrator (source/QuatIntegrator.cc:1764-1805) does for a solver.  For the steady temperature it calls
`d_temperature_strategy->resetSolversState(hierarchy, coarsest_level, finest_level)`, which is the empty function of the base class
(source/TemperatureStrategy.h:46-53): `SteadyStateTemperatureStrategy::resetSolversState` (source/SteadyStateTemperatureStrategy.h:76-77,
source/SteadyStateTemperatureStrategy.cc:69-75) has one argument and does not override it. -/
def resetOf (isCell : ℤ → Bool) (k : Kind) (w : World) (s : Solver) (sol rhs : ℤ) : Option Solver :=
  match k with
  | .precond => reset isCell w s sol rhs
  | .steady => some s

/-- The repair: the function of one argument is called. -/
def resetFixed (isCell : ℤ → Bool) (_ : Kind) (w : World) (s : Solver) (sol rhs : ℤ) : Option Solver := reset isCell w s sol rhs

/-- One regridding that ends with `n'` levels, and the next solve.  `called`: whether `resetHierarchyConfiguration` is called; with warm
start it does not reset the solvers unless the code is built with CPODES and the time is positive (source/QuatIntegrator.cc:584-594). -/
def cycle (rst : World → Solver → ℤ → ℤ → Option Solver) (isCell : ℤ → Bool) (warm : Bool) (sol rhs : ℤ)
    (x : World × Solver) (e : ℕ × Bool) : Option ((World × Solver) × Solved) :=
  let w := regrid warm x.1 e.1
  (if e.2 && !warm then rst w x.2 sol rhs else some x.2).bind fun s =>
    (solve isCell w s sol rhs).map fun (s, r) => ((w, s), r)

/-- A run: the meshes it passes and what the solves worked on, in order; `none` if one of them fails. -/
def cycles (rst : World → Solver → ℤ → ℤ → Option Solver) (isCell : ℤ → Bool) (warm : Bool) (sol rhs : ℤ) :
    World × Solver → List (ℕ × Bool) → Option (List (World × Solved))
  | _, [] => some []
  | x, e :: es => do
    let (y, r) ← cycle rst isCell warm sol rhs x e
    let l ← cycles rst isCell warm sol rhs y es
    pure ((y.1, r) :: l)

end AMPE.SolverMesh
