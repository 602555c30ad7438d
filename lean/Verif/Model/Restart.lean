import Mathlib.Algebra.Order.Archimedean.Real.Basic

/-!
# What a run that continues from a restart file starts from

`QuatModel::Initialize` (source/QuatModel.cc:457-749), restart branch; the cell data put in the file by
`registerPatchDataForRestart` (source/QuatModel.cc:1743-1776); the allocation of everything else
(`AllocateLocalPatchData`, `AllocateQuatLocalPatchData`, `AllocateAndZeroData`, source/QuatModel.cc:3015-3298, 3340-3358);
`initializeLevelData` (source/QuatModel.cc:2880-3018); `preRunDiagnostics` (source/QuatModel.cc:2378-2438) with
`evaluateEnergy` (source/QuatModel.cc:4888-4952); the start of `Advance` and of `resetGrains` (source/QuatModel.cc:2182-2196,
2316-2343).  The content of one variable on one level is an element of a type `α`; kernels (phase equilibrium, partition
coefficient, interpolation) are arbitrary functions on it.  The scalars of the file are those of `AMPE.RunLoop`.

Not modelled: scratch copies, visualisation data, solver work space; the frame velocity and the frozen gradient
(`AMPE.Thermal`, property C70); which boxes a level consists of (taken from the file by SAMRAI).
-/

namespace AMPE.Restart

/-- Cell data that a step or a diagnostic reads. -/
inductive Fld where
  | phase | eta | temperature | quat | conc | concL | concA | concB | concLRef | concARef | concBRef | quatRelax
  | partition | velocity
  deriving DecidableEq

/-- Input settings that decide what is stored and how it is initialised.  `prescribed` is the field written by
`setCurrentTemperature` for the uniform, Gaussian and gradient types (source/QuatModel.cc:676-680); the `…Ref` settings are
`concL_ref`, `concA_ref`, `concB_ref` when not negative (source/QuatModel.cc:728-748). -/
structure Config (α : Type) where
  withPhase : Bool
  withThird : Bool
  withOrient : Bool
  evolveQuat : Bool
  withConc : Bool
  needsPhaseConc : Bool
  calphad : Bool
  withPhaseB : Bool
  withPartition : Bool
  withVelocity : Bool
  prescribed : Option (ℝ → α)
  concLRef : Option α
  concARef : Option α
  concBRef : Option α
  maxLevels : ℕ
  initialDiag : Bool
  energyFile : Bool

variable {α : Type}

/-- `registerPatchDataForRestart`, source/QuatModel.cc:1743-1776. -/
def saved (c : Config α) : Fld → Bool
  | .phase => c.withPhase
  | .eta => c.withThird
  | .temperature => true
  | .quat => c.withOrient
  | .conc => c.withConc
  | .concL => c.withConc && c.needsPhaseConc
  | .concA => c.withConc && c.needsPhaseConc
  | .concB => c.withConc && c.needsPhaseConc && c.withPhaseB
  | _ => false

/-- Data cleared when it was not in the file, source/QuatModel.cc:3126-3135, 3147-3178, 3226-3240; the others are only allocated
(3029-3033, 3088-3112).  `partition` and `velocity` are cleared in any case. -/
def cleared (c : Config α) : Fld → Bool
  | .conc => c.withConc
  | .concL => c.withConc && c.needsPhaseConc
  | .concA => c.withConc && c.needsPhaseConc
  | .concB => c.withConc && c.needsPhaseConc && c.withPhaseB
  | .concLRef => c.withConc && c.needsPhaseConc && c.calphad
  | .concARef => c.withConc && c.needsPhaseConc && c.calphad
  | .concBRef => c.withConc && c.needsPhaseConc && c.calphad && c.withPhaseB
  | .partition => c.withConc && c.withPartition
  | .velocity => c.withVelocity
  | _ => false

/-- The restart file: content of the registered data, level by level. -/
def write (c : Config α) (s : ℕ → Fld → α) : ℕ → Fld → Option α := fun ln f => if saved c f then some (s ln f) else none

/-- A level after `initializeHierarchy` (which reads the file) and `AllocateLocalPatchData`; `junk` is what the memory held. -/
def allocate [Zero α] (c : Config α) (file : ℕ → Fld → Option α) (junk : ℕ → Fld → α) (ln : ℕ) (f : Fld) : α :=
  match file ln f with
  | some v => v
  | none => if cleared c f then 0 else junk ln f

/-- Variables registered for regridding, source/QuatModel.cc:2737-2784. -/
def regridded (c : Config α) : Fld → Bool
  | .phase => true
  | .temperature => true
  | .eta => c.withThird
  | .quat => c.withOrient
  | .quatRelax => c.withOrient && c.evolveQuat
  | .conc => c.withConc
  | _ => false

/-- `initializeLevelData` with `initial_time = false` and no old level, source/QuatModel.cc:2913-2930, 2988-2998.  `alg` is
`d_regrid_refine_alg`: a null pointer (`none`) until the first `Regrid` (source/QuatModel.cc:2735), otherwise the
interpolation of each variable from the next coarser level. -/
def initLevel [Zero α] (c : Config α) (alg : Option (Fld → α → α)) (file : ℕ → Fld → Option α) (junk : ℕ → Fld → α)
    (lower : ℕ → Fld → α) (ln : ℕ) : Option (Fld → α) :=
  if 0 < ln then
    alg.map fun r f => if regridded c f then r f (lower (ln - 1) f) else allocate c file junk ln f
  else some (allocate c file junk ln)

/-- The loop over all levels up to the maximum, source/QuatModel.cc:658-663. -/
def initLevels [Zero α] (c : Config α) (alg : Option (Fld → α → α)) (file : ℕ → Fld → Option α) (junk : ℕ → Fld → α) :
    ℕ → Option (ℕ → Fld → α)
  | 0 => some junk
  | n + 1 => (initLevels c alg file junk n).bind fun s =>
      (initLevel c alg file junk s n).map fun l => fun k => if k = n then l else s k

/-- `setCurrentTemperature(hierarchy, 0.0)`, source/QuatModel.cc:674-680. -/
def setTemperature (c : Config α) (s : Fld → α) : Fld → α := fun f =>
  match c.prescribed, f with
  | some T, .temperature => T 0
  | _, _ => s f

/-- Reference compositions given in the input: source/QuatModel.cc:728-748. -/
def setReferences (c : Config α) (s : Fld → α) : Fld → α := fun f =>
  match f with
  | .concLRef => c.concLRef.getD (s .concLRef)
  | .concL => c.concLRef.getD (s .concL)
  | .concARef => c.concARef.getD (s .concARef)
  | .concA => c.concARef.getD (s .concA)
  | .concBRef => c.concBRef.getD (s .concBRef)
  | .concB => c.concBRef.getD (s .concB)
  | _ => s f

/-- `Initialize` of a resumed run; the refine algorithm is null at that point. -/
def resume [Zero α] (c : Config α) (file : ℕ → Fld → Option α) (junk : ℕ → Fld → α) : Option (ℕ → Fld → α) :=
  (initLevels c none file junk c.maxLevels).map fun s ln => setReferences c (setTemperature c (s ln))

/-- Kernels used by the diagnostics before the run. -/
structure Kernels (α : Type) where
  /-- `computePhaseConcentrations`: guess for the compositions of the phases, temperature, phase, composition -/
  solve : α × α × α → α → α → α → α × α × α
  /-- `d_partition_coeff_strategy->evaluate`: velocity, temperature -/
  partitionCoeff : α → α → α
  /-- the equilibrium pair found by `computeCeq`, if it is found -/
  equilibrium : Option (α × α × α)

/-- The equilibrium references, `preRunDiagnostics`, source/QuatModel.cc:2395-2424: only in a run that is not resumed. -/
def equilibriumRefs (c : Config α) (k : Kernels α) (resumed : Bool) (s : Fld → α) : Fld → α := fun f =>
  if c.energyFile && c.withConc && c.calphad && !resumed then
    match k.equilibrium, f with
    | some e, .concLRef => e.1
    | some e, .concARef => e.2.1
    | some e, .concBRef => if c.withPhaseB then e.2.2 else s f
    | _, _ => s f
  else s f

/-- The guess handed to the CALPHAD phase-equilibrium solver,
source/CALPHADequilibriumPhaseConcentrationsStrategy.cc:366-373. -/
def guess (s : Fld → α) : α × α × α := (s .concLRef, s .concARef, s .concBRef)

/-- The change of the data by `evaluateEnergy` (CALPHAD), source/QuatModel.cc:4920-4937. -/
def evaluateEnergy (c : Config α) (k : Kernels α) (s : Fld → α) : Fld → α := fun f =>
  match f with
  | .partition => if c.withConc && c.withPartition then k.partitionCoeff (s .velocity) (s .temperature) else s .partition
  | .concL => if c.withConc && c.needsPhaseConc then (k.solve (guess s) (s .temperature) (s .phase) (s .conc)).1 else s .concL
  | .concA => if c.withConc && c.needsPhaseConc then (k.solve (guess s) (s .temperature) (s .phase) (s .conc)).2.1 else s .concA
  | .concB => if c.withConc && c.needsPhaseConc && c.withPhaseB then
      (k.solve (guess s) (s .temperature) (s .phase) (s .conc)).2.2 else s .concB
  | _ => s f

/-- `preRunDiagnostics`, source/QuatModel.cc:2378-2438: references, then the printed energy (`printScalarDiagnostics`). -/
def preRun (c : Config α) (k : Kernels α) (resumed : Bool) (s : Fld → α) : Fld → α :=
  if c.initialDiag then evaluateEnergy c k (equilibriumRefs c k resumed s) else equilibriumRefs c k resumed s

/-- The data the printed energy is computed from: temperature, phase, composition and the compositions of the phases. -/
def energyData (s : Fld → α) : α × α × α × α × α × α := (s .temperature, s .phase, s .conc, s .concL, s .concA, s .concB)

/-- `resetRefPhaseConcentrations` at the start of `Advance`, source/QuatModel.cc:2320-2324, 5218-5233. -/
def startStep (c : Config α) (s : Fld → α) : Fld → α := fun f =>
  if c.withConc && c.calphad then
    match f with
    | .concLRef => s .concL
    | .concARef => s .concA
    | .concBRef => if c.withPhaseB then s .concB else s .concBRef
    | _ => s f
  else s f

/-! ## Number of grains -/

/-- `INT_MAX`. -/
def intMax : ℤ := 2147483647

/-- `d_number_of_grains` before the first step: source/QuatModel.cc:158 (constructor) and 598 (not when resumed). -/
def grainCount0 (resumed : Bool) : ℤ := if resumed then -1 else intMax

/-- The decision of `resetGrains`, source/QuatModel.cc:2188-2196: `new` is the number known to the grain object (`-1` before grains
are first numbered), `passed` the answer of the grain-extension schedule (not asked when the number has dropped).  Returns
the new member and whether the orientation is reset. -/
def resetDecision (old new : ℤ) (passed : Bool) : ℤ × Bool := (new, decide (new < old) || passed)

/-- The decisions of successive steps. -/
def resetDecisions : ℤ → List (ℤ × Bool) → List Bool
  | _, [] => []
  | old, x :: xs => (resetDecision old x.1 x.2).2 :: resetDecisions (resetDecision old x.1 x.2).1 xs

/-! ## Mesh refinement switch -/

/-- `d_amr_enabled` after `QuatModel::Initialize` and `PFModel::Initialize`: `input` is the value of the `Amr` block (absent: `none`,
switch absent: true), `file` the value in the restart file.  source/QuatModel.cc:492-501, source/PFModel.cc:109-117, 645-650, 694-698. -/
def amrEnabled (input : Option Bool) (file : Option (Option Bool)) : Bool :=
  match file with
  | none => input.getD false
  | some v => v.getD true

/-- The blocks read afterwards, source/PFModel.cc:222-237, 249-264: `none` is the error for a missing `Amr` block; otherwise whether a
mesh with several levels is set up. -/
def setupAmr (input : Option Bool) (file : Option (Option Bool)) : Option Bool :=
  if amrEnabled input file then (if input.isSome then some true else none) else some false

end AMPE.Restart
