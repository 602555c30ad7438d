import Verif.Model.OrientSolve
import Verif.Model.PhaseRHS

/-! # The projection after a solver step, on the whole hierarchy

CVODE calls `applyProjection` after each accepted nonlinear solve with the state `y`, a correction to be filled and the
estimated local error; the step continues with `y + corr` (contract of `CVodeSetProjFn`, source/samrai/CVODESolver.cc:233-236 and
source/samrai/CVODESolver.h:1175-1185; the function is always installed, source/QuatIntegrator.cc:1592).  The hierarchy is the number of
levels and, for each level, its patches with their cells; a cell is any label.  `double` is ℝ. -/

namespace AMPE.Projection

open AMPE.Tagging AMPE.OrientSolve AMPE.PhaseRHS

variable {Cell : Type} [DecidableEq Cell] {n : ℕ}

/-- Patches of the levels as lists of cells, finest level number `finest`. -/
structure Hier (Cell : Type) where
  finest : ℕ
  patches : ℕ → List (List Cell)

/-- The vectors CVODE hands over, by level and cell: three order parameters, orientation, and everything else (temperature, composition, …),
source/QuatIntegrator.cc:1622-1670. -/
structure Vec (Cell : Type) (n : ℕ) where
  phase : ℕ → Cell → Fin 3 → ℝ
  quat : ℕ → Cell → QVec n
  other : ℕ → Cell → ℝ

/-- Cells of one level in the order of the loops over patches and cells. -/
def levelCells (H : Hier Cell) (ln : ℕ) : List (ℕ × Cell) := (H.patches ln).flatten.map fun c => (ln, c)

/-- `for (ln = d_ln_max; ln >= d_ln_min; ln--)`, source/QuatSysSolver.cc:387-389 with the range set in source/QuatSysSolver.cc:190-191, and the
loops of source/QuatFACOps.cc:2384-2432. -/
def quatCells (H : Hier Cell) : List (ℕ × Cell) := (List.range (H.finest + 1)).reverse.flatMap (levelCells H)

/-- `getPatchLevel(0)`, source/ThreePhasesRHSStrategy.cc:266-270: the only level visited for the phases. -/
def phaseCells (H : Hier Cell) : List (ℕ × Cell) := levelCells H 0

/-- Correction and error during the call. -/
structure Work (Cell : Type) (n : ℕ) where
  corr : Vec Cell n
  err : Vec Cell n

/-- Write one entry. -/
def set2 {α : Type} (u : ℕ → Cell → α) (k : ℕ × Cell) (v : α) : ℕ → Cell → α := fun ln c => if (ln, c) = k then v else u ln c

/-- `project2d` / `project3d` in one cell, source/fortran/2d/quatfacops.m4:963-994; `none` is the division by zero at a vanishing
quaternion. -/
noncomputable def quatStep (y : Vec Cell n) (w : Work Cell n) (k : ℕ × Cell) : Option (Work Cell n) :=
  (project (y.quat k.1 k.2) (w.err.quat k.1 k.2)).map fun r =>
    { corr := { w.corr with quat := set2 w.corr.quat k r.2 }, err := { w.err with quat := set2 w.err.quat k r.1 } }

/-- `projectphi2d` / `projectphi3d` in one cell with depth 3, source/ThreePhasesRHSStrategy.cc:287-300, source/fortran/2d/phase.m4:75-106. -/
noncomputable def phaseStep (y : Vec Cell n) (w : Work Cell n) (k : ℕ × Cell) : Work Cell n :=
  { corr := { w.corr with phase := set2 w.corr.phase k (projectCorr 3 (y.phase k.1 k.2)) },
    err := { w.err with phase := set2 w.err.phase k (projectErr 3 (w.err.phase k.1 k.2)) } }

/-- `corr->setToScalar(0.)`, source/QuatIntegrator.cc:3918. -/
def zeroVec : Vec Cell n := ⟨fun _ _ _ => 0, fun _ _ _ => 0, fun _ _ => 0⟩

/-- The orientation part of the callback: only quaternions or 2D rotation pairs that evolve, source/QuatIntegrator.cc:3920-3938. -/
noncomputable def quatPart (evolveQuat : Bool) (H : Hier Cell) (y : Vec Cell n) (w : Work Cell n) : Option (Work Cell n) :=
  if 1 < n ∧ evolveQuat = true then (quatCells H).foldlM (quatStep y) w else some w

/-- The phase part, source/QuatIntegrator.cc:3940-3960. -/
noncomputable def phasePart (threePhases : Bool) (H : Hier Cell) (y : Vec Cell n) (w : Work Cell n) : Work Cell n :=
  if threePhases then (phaseCells H).foldl (phaseStep y) w else w

/-- `QuatIntegrator::applyProjection`, source/QuatIntegrator.cc:3911-3963. -/
noncomputable def applyProjection (evolveQuat threePhases : Bool) (H : Hier Cell) (y err : Vec Cell n) : Option (Work Cell n) :=
  (quatPart evolveQuat H y ⟨zeroVec, err⟩).map (phasePart threePhases H y)

/-- The state CVODE goes on with. -/
def corrected (y corr : Vec Cell n) : Vec Cell n where
  phase := fun ln c m => y.phase ln c m + corr.phase ln c m
  quat := fun ln c m => y.quat ln c m + corr.quat ln c m
  other := fun ln c => y.other ln c + corr.other ln c

end AMPE.Projection
