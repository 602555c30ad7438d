import Verif.Model.PhaseRHS
import Verif.Model.Quat
import Verif.Model.OrientSolve

/-!
# Options of the model and who uses them (source/QuatModelParameters.cc: `readModelParameters`, `initializeOrientation`;
source/QuatModel.cc: `setIntegratorModelParameters`)

An input block is a pair of partial functions from key names to values.  `TBOX_ERROR` is `none`.  Only keys read by the
functions named above are used; `printDeprecated` prints a message and is left out.
-/

namespace AMPE.Options

open AMPE.Functions AMPE.Flux AMPE.PhaseRHS

/-- The block `ModelParameters` of an input. -/
structure DB where
  str : String → Option String
  num : String → Option ℝ

/-- `s[0]`, and the character a Fortran routine looks at; the null character for an empty text. -/
def first (s : String) : Char := s.toList.headD '\x00'

/-- An entry added to the input, or replaced. -/
def DB.setStr (db : DB) (k v : String) : DB := { db with str := fun k' => if k' = k then some v else db.str k' }

/-- The same for a number. -/
noncomputable def DB.setNum (db : DB) (k : String) (v : ℝ) : DB := { db with num := fun k' => if k' = k then some v else db.num k' }

/-- `phi_well_func_type`, source/QuatModelParameters.cc:886-895. -/
def readWell (db : DB) : Option String :=
  let t := match db.str "phi_well_func_type" with
    | some v => v
    | none => (db.str "energy_well_func_type").getD "double"
  if first t ≠ 's' ∧ first t ≠ 'd' then none else some t

/-- `Thermo4PFM::EnergyInterpolationType`. -/
inductive Interp | linear | pbg | harmonic | undefined
  deriving DecidableEq

/-- `energyInterpChar`, `concInterpChar` of the library Thermo4PFM for the three kinds it defines; the text of the library is not part
of the repository, `undefined` is left without a letter. -/
def Interp.char : Interp → Option Char
  | .linear => some 'l'
  | .pbg => some 'p'
  | .harmonic => some 'h'
  | .undefined => none

/-- The text of `phi_interp_func_type`, source/QuatModelParameters.cc:914-921: the old name wins. -/
def energyText (db : DB) : String := (db.str "energy_interp_func_type").getD ((db.str "phi_interp_func_type").getD "pbg")

/-- The switch, source/QuatModelParameters.cc:922-946. -/
def readEnergy (db : DB) : Option Interp :=
  match first (energyText db) with
  | 'l' => some .linear
  | 'L' => some .linear
  | 'p' => some .pbg
  | 'P' => some .pbg
  | 'h' => some .harmonic
  | 'H' => some .harmonic
  | 'u' => some .undefined
  | 'U' => some .undefined
  | _ => none

/-- `conc_interp_func_type`, source/QuatModelParameters.cc:949-972. -/
def readConc (db : DB) : Option Interp :=
  match first ((db.str "conc_interp_func_type").getD (energyText db)) with
  | 'l' => some .linear
  | 'L' => some .linear
  | 'p' => some .pbg
  | 'P' => some .pbg
  | 'h' => some .harmonic
  | 'H' => some .harmonic
  | _ => none

/-- `diffusion_interp_func_type` and the letter handed on, source/QuatModelParameters.cc:1014-1034,
source/CompositionDiffusionStrategy.h:34-45. -/
def readDiffusion (db : DB) : Option Char :=
  match first ((db.str "diffusion_interp_func_type").getD "linear") with
  | 'l' => some 'l'
  | 'L' => some 'l'
  | 'p' => some 'p'
  | 'P' => some 'p'
  | 'b' => some 'b'
  | _ => none

/-- `avg_func_type`, source/QuatModelParameters.cc:1039-1044. -/
def readAvg (db : DB) : Option String :=
  let t := (db.str "avg_func_type").getD "harmonic"
  if first t ≠ 'a' ∧ first t ≠ 'h' then none else some t

/-- `diffq_avg_func_type`, source/QuatModelParameters.cc:1046-1050. -/
def readDiffqAvg (db : DB) : Option String := do
  let a ← readAvg db
  let t := (db.str "diffq_avg_func_type").getD a
  if first t ≠ 'a' ∧ first t ≠ 'h' then none else some t

/-- What `initializeOrientation` sets when `H_parameter > 0`. `maxMobility`, `expScale` are `none` where the code leaves them unset. -/
structure Orient where
  mobility : ℝ
  minMobility : ℝ
  epsQ : ℝ
  floor : ℝ
  floorType : String
  /-- `quat_grad_modulus_from_cells()`, source/QuatModelParameters.h:213-216 -/
  modulusCells : Bool
  interp1 : String
  interp2 : String
  mobilityKind : String
  maxMobility : Option ℝ
  expScale : Option ℝ

/-- `orient_mobility`, source/QuatModelParameters.cc:638-649. -/
noncomputable def readMobility (db : DB) : Option ℝ :=
  match db.num "orient_mobility", db.num "quat_mobility", db.num "tau_quat" with
  | some v, _, _ => some v
  | none, some v, _ => some v
  | none, none, some tau => some (1 / tau)
  | none, none, none => none

/-- `epsilon_orient`, source/QuatModelParameters.cc:659-669. -/
def readEpsilon (db : DB) : Option ℝ :=
  match db.num "epsilon_orient", db.num "epsilon_q", db.num "epsilon_quat" with
  | some v, _, _ => some v
  | none, some v, _ => some v
  | none, none, v => v

/-- A number with a new and an old name: the new one wins. source/QuatModelParameters.cc:651-657, 671-677, 740-746, 751-762. -/
noncomputable def newOrOld (db : DB) (new old : String) (d : ℝ) : ℝ :=
  match db.num new with
  | some v => v
  | none => (db.num old).getD d

/-- `orient_interp_func_type1`, source/QuatModelParameters.cc:695-707: the oldest name wins. -/
def interp1Text (db : DB) : String :=
  match db.str "diff_interp_func_type" with
  | some v => v
  | none => match db.str "orient_interp_func_type" with
    | some v => v
    | none => (db.str "orient_interp_func_type1").getD "quadratic"

/-- `orient_mobility_func_type`, source/QuatModelParameters.cc:723-732: the old name wins. -/
def kindText (db : DB) : String := (db.str "quat_mobility_func_type").getD ((db.str "orient_mobility_func_type").getD "pbg")

/-- The letters accepted for `orient_interp_func_type1`, source/QuatModelParameters.cc:712-719. -/
def interp1Letters : List Char := ['q', 'w', 'p', 'l', 't', 's', '3', 'c']

/-- `initializeOrientation` when `H_parameter > 0`, source/QuatModelParameters.cc:628-768. -/
noncomputable def readOrientation (db : DB) : Option Orient := do
  let mob ← readMobility db
  let eps ← readEpsilon db
  let t1 := interp1Text db
  if first t1 ∉ interp1Letters then none else
    let k := kindText db
    if first k ≠ 'p' ∧ first k ≠ 'i' ∧ first k ≠ 'e' then none else
      some
        { mobility := mob
          minMobility := newOrOld db "min_orient_mobility" "min_quat_mobility" 1e-6
          epsQ := eps
          floor := newOrOld db "orient_grad_floor" "quat_grad_floor" 1e-2
          floorType := (db.str "orient_grad_floor_type").getD "max"
          modulusCells := (db.str "quat_grad_modulus_type").getD "cells" = "cells"
          interp1 := t1
          interp2 := (db.str "orient_interp_func_type2").getD "constant"
          mobilityKind := k
          maxMobility := if first k = 'i' then some (newOrOld db "max_orient_mobility" "max_quat_mobility" 1e6) else none
          expScale := if first k = 'e' then some (newOrOld db "exp_scale_orient_mobility" "exp_scale_quat_mobility" 1e6) else none }

/-- `quatMobilityScaleFactor`, source/QuatModelParameters.cc:1207-1219; `none` is the signaling NaN of the last line. -/
noncomputable def Orient.scaleFactor (o : Orient) : Option ℝ :=
  if first o.mobilityKind = 'e' ∨ first o.mobilityKind = 'E' then o.expScale
  else if first o.mobilityKind = 'i' ∨ first o.mobilityKind = 'I' then o.maxMobility
  else none

/-- Floor and average handed to an integrator: the one of the run, source/QuatModel.cc:887-900. -/
def mainIntegrator (o : Orient) (diffqAvg : String) : String × String := (o.floorType, diffqAvg)

/-- The one used to relax the orientations alone, source/QuatModel.cc:902-919. -/
def quatOnlyIntegrator (_ : Orient) (_ : String) : String × String := ("s", "a")

/-- The well type of the phase rate, source/PhaseRHSStrategyWithQ.cc:243, whatever the input. -/
def rateWell (_ : String) : Char := 'd'

/-- `total_energy` with the well of the input (source/TwoPhasesEnergyEvaluationStrategy.cc:163), otherwise `energy2`. -/
noncomputable def reportedEnergy (well : String) (interp : Char) (eps scale dx dy : ℝ) (fl fa : Field2) (weight : ℤ × ℤ → ℝ)
    (lo0 hi0 lo1 hi1 : ℤ) (u : Field2) : Option ℝ := do
  let cells := loop2 lo0 hi0 lo1 hi1
  let a ← accumulate (fun c => some (interfaceCell eps dx dy u c.1 c.2)) weight cells
  let b ← accumulate (fun c => wellCell (first well) scale (u c.1 c.2)) weight cells
  let d ← accumulate (fun c => bulkCell interp (fl c.1 c.2) (fa c.1 c.2) (u c.1 c.2)) weight cells
  some (a + b + d)

/-- The phase rate before the mobility, with the well of `rateWell`. -/
noncomputable def rate (well : String) (interp : Char) (scale dx dy : ℝ) (f0 f1 fl fa phi : Field2) (i j : ℤ) : Option ℝ := do
  let r ← pbgCell (rateWell well) (rateWell well) interp 'c' 'c' scale 0 0 0 false false (div2 dx dy f0 f1 i j) (phi i j) 0 0 0
  fenergyCell interp (fl i j) (fa i j) (phi i j) r

/-- `avg_func_type` of the `ConcentrationModel` database `cdb`, source/QuatModelParameters.cc:293-297; `avg` is the one of the model. -/
def readConcAvg (cdb : DB) (avg : String) : Option String :=
  let t := (cdb.str "avg_func_type").getD avg
  if first t ≠ 'a' ∧ first t ≠ 'h' then none else some t

/-- The average handed to the diffusion coefficients and fluxes of the composition: `avg_func_type()` of the model
(source/CompositionRHSStrategyFactory.h:54, 71, 81, 88, 96, source/CompositionDiffusionStrategyFactory.h:42, 72, 79, 98); the accessor
`conc_avg_func_type` (source/QuatModelParameters.h:246) has no caller. -/
def soluteAvg (db cdb : DB) : Option String := do
  let a ← readAvg db
  let _ ← readConcAvg cdb a
  some a

/-- What the input says about the mobility of the phase when it is a number: `phi_mobility` (source/QuatModelParameters.cc:1113-1116) and
`q0_phi_mobility` (884). -/
noncomputable def readPhaseMobility (db : DB) : Option (ℝ × ℝ) :=
  (db.num "phi_mobility").map fun m => (m, (db.num "q0_phi_mobility").getD 0)

/-- `QuatModel::computePhaseMobilityPatch`, source/QuatModel.cc:4295-4352: the formula for these two numbers; no caller. -/
noncomputable def activated (R : ℝ) (m : ℝ × ℝ) (temp : ℝ) : ℝ := m.1 * Real.exp (-m.2 / (temp * R))

/-- `QuatModel::computeUniformPhaseMobility`, source/QuatModel.cc:4277-4291, called by `SimpleQuatMobilityStrategy`
(source/SimpleQuatMobilityStrategy.cc:46-58): the same number in all cells. -/
def uniform (m : ℝ × ℝ) (_temp : ℝ) : ℝ := m.1

end AMPE.Options
