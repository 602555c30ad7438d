import Mathlib.Algebra.Order.Archimedean.Real.Basic

/-! # Settings of a run and the strategies chosen from them

`QuatModelParameters` reads the `ModelParameters` block (source/QuatModelParameters.cc:167-400, 811-1178, 1180-1206); the
factories choose one class per task from what was read. A `TBOX_ERROR` is `none`. `assert`s are not modelled: they are
compiled out in optimised builds. Runs have order parameters (`with_phase()`). Settings that only carry numbers are represented by whether they were given. -/

namespace AMPE.Selection

/-- `ConcModel`, source/QuatModelParameters.h:35-44. -/
inductive ConcModel | calphad | quadratic | linear | independent | dilute | cahnHilliard | wangSintering
  deriving DecidableEq

/-- `ConcRHSstrategy`, source/QuatModelParameters.h:46-54 (`UNKNOWN` is the error). -/
inductive Rhs | kks | ebs | spinodal | beckermann | cahnHilliard | wangSintering
  deriving DecidableEq

/-- `ConcDiffusionType`, source/QuatModelParameters.h:64-69. -/
inductive Diff | td | ctd | mob | undefined
  deriving DecidableEq

/-- Settings of a run that decide which classes are used. `none` stands for an absent key or block. -/
structure Input where
  /-- `ConcentrationModel { model }`; `none` without that block -/
  model : Option String
  /-- number of composition fields, `nspecies - 1` -/
  ncomp : ℕ
  rhsForm : Option String
  diffusionType : Option String
  phaseConcentrationModel : Option String
  partition : Option String
  norderp : ℤ
  norderpA : Option ℤ
  threePhases : Bool
  /-- `PhaseMobility { type }`; `none` without that block -/
  mobilityType : Option String
  /-- whether the value of `interface_mobility` read or computed is positive -/
  finiteMobility : Bool
  antitrapping : Bool
  /-- temperature type `heat` -/
  heat : Bool
  /-- `equation_type` is `steady` (the default) -/
  steady : Bool
  latentGiven : Bool
  freeEnergyType : String
  /-- whether `alpha` (linear model) or `bias_well_alpha` (no composition) is positive -/
  biasAlpha : Bool
  /-- whether `gamma` or `bias_well_gamma` was given (and, in the linear model, is not negative) -/
  gammaGiven : Bool
  /-- whether `liquidus_slope` of the linear model differs from zero -/
  slopeNonzero : Bool
  /-- what `Thermo4PFM::checkSublattice` answers for the CALPHAD file -/
  sublattice : Bool

/-- Comparison with the first character of a string; an empty `std::string` has `s[0] == '\0'`. -/
def firstIs (s : String) (c : Char) : Bool := s.toList.head? == some c

/-- `model` key, source/QuatModelParameters.cc:176-198. -/
def readModel (s : String) : Option ConcModel :=
  if s = "calphad" then some .calphad
  else if s = "quadratic" then some .quadratic
  else if s = "linear" then some .linear
  else if s = "independent" then some .independent
  else if s = "dilute" then some .dilute
  else if s = "cahn_hilliard" then some .cahnHilliard
  else if s = "wang_sintering" then some .wangSintering
  else none

/-- `rhs_form` key, source/QuatModelParameters.cc:200-236. -/
def readRhs (m : ConcModel) (o : Option String) : Option Rhs :=
  let s := o.getD "kks"
  if m = .wangSintering then some .wangSintering
  else if s = "kks" then some .kks
  else if s = "ebs" then some .ebs
  else if s = "cahn_hilliard" then some .cahnHilliard
  else if s = "spinodal" then some .spinodal
  else if firstIs s 'u' || firstIs s 'B' || firstIs s 'b' then some .beckermann
  else none

/-- `diffusion_type` key, source/QuatModelParameters.cc:238-250: any other text leaves the type undefined. -/
def readDiff (r : Rhs) (o : Option String) : Diff :=
  let s := o.getD (if r = .ebs then "composition_dependent" else "temperature_dependent")
  if s = "composition_dependent" then .ctd
  else if s = "mobility" then .mob
  else if s = "temperature_dependent" then .td
  else .undefined

/-- Number of order parameters of phase B, source/QuatModelParameters.cc:818-829. -/
def norderpB (i : Input) : ℤ :=
  let a := i.norderpA.getD (if i.norderp = 1 then 1 else i.norderp - 1)
  if 0 < a then (if i.norderp - a - 1 < 0 then 0 else i.norderp - a - 1) else -1

/-- `withPhaseB()`, source/QuatModelParameters.h:85; the field of the composition of phase B exists exactly then
(source/QuatModel.cc:1207-1215, 1252-1259). -/
def phaseB (i : Input) : Bool := i.threePhases || decide (0 < norderpB i)

/-- `withMultipleOrderP()`, source/QuatModelParameters.h:86. -/
def multiple (i : Input) : Bool := decide (1 < i.norderp)

/-- `norderp()`, source/QuatModelParameters.h:81. -/
def nparams (i : Input) : ℤ := if i.threePhases then 3 else i.norderp

/-- `phase_concentration_model`, source/QuatModelParameters.cc:346-361. -/
def phaseConc (m : ConcModel) (o : Option String) : String :=
  o.getD (if m = .calphad ∨ m = .quadratic ∨ m = .dilute then "kks" else "none")

/-- What `readConcDB` makes of the block: model, form of the right-hand side, type of diffusion
(source/QuatModelParameters.cc:167-250). -/
def readConc (i : Input) (s : String) : Option (ConcModel × Rhs × Diff) :=
  (readModel s).bind fun m => (readRhs m i.rhsForm).map fun r => (m, r, readDiff r i.diffusionType)

/-- `readConcDB` followed by the rest of `readModelParameters`, without the block:
`none` outside is an error, `none` inside means no composition. -/
def read (i : Input) : Option (Option (ConcModel × Rhs × Diff)) :=
  match i.model with
  | none => some none
  | some s => (readConc i s).map some

/-- `isPhaseMobilityScalar()`, source/QuatModelParameters.h:246-249, with the reading of the type,
source/QuatModelParameters.cc:1100-1136: `some true` scalar, `some false` Kim, `none` error. -/
def mobilityScalar (i : Input) : Option Bool :=
  match i.mobilityType with
  | none => some true
  | some s => if s = "scalar" then some true else if s = "Kim" ∨ s = "kim" then some false else none

/-! ## Thermodynamic description -/

/-- Classes of free energies of the phases (`Thermo4PFM::CALPHADFreeEnergyFunctions…`,
`KKSFreeEnergyFunctionDiluteBinary`, and the quadratic energies of the strategies themselves). -/
inductive Thermo
  | binary | binary2Ph1Sl | binaryThreePhase | binary3Ph2Sl | ternary | dilute | quadratic | quadraticThreePhase
  deriving DecidableEq

/-- Free-energy strategies. -/
inductive Energy
  | alloy (t : Thermo)
  | biasBeckermann | biasUTRC | deltaTemperature | temperature | phase
  deriving DecidableEq

/-- `FreeEnergyStrategyFactory::create` for a CALPHAD model, source/FreeEnergyStrategyFactory.h:72-161. -/
def calphadEnergy (i : Input) : Thermo :=
  if i.ncomp = 1 then
    if multiple i then
      if phaseB i then .binaryThreePhase else .binary2Ph1Sl
    else if phaseB i then
      if i.sublattice then .binary3Ph2Sl else .binaryThreePhase
    else
      if i.sublattice then .binary2Ph1Sl else .binary
  else .ternary

/-- `with_bias_well()`: set for a positive `alpha` in the linear model (source/QuatModelParameters.cc:371-376) or a
positive `bias_well_alpha` without composition (source/QuatModelParameters.cc:893-902). -/
def biasWell (i : Input) (c : Option ConcModel) : Bool :=
  match c with
  | none => i.biasAlpha
  | some m => decide (m = .linear) && i.biasAlpha

/-- `wellBiasBeckermann()`: linear model with a negative or absent `gamma`, source/QuatModelParameters.cc:377-382. -/
def beckermannWell (i : Input) : Bool := !i.gammaGiven

/-- The part of `FreeEnergyStrategyFactory::create` before the pure-element case,
source/FreeEnergyStrategyFactory.h:45-256; `none` is a null pointer. -/
def baseEnergy (i : Input) (c : Option ConcModel) : Option Energy :=
  match c with
  | some m =>
    if m = .calphad then some (.alloy (calphadEnergy i))
    else if m = .dilute then some (.alloy .dilute)
    else if m = .quadratic then
      some (.alloy (if 1 < nparams i then (if phaseB i then .quadraticThreePhase else .quadratic) else .quadratic))
    else if biasWell i c then some (if beckermannWell i then .biasBeckermann else .biasUTRC)
    else none
  | none =>
    if i.heat then
      if biasWell i none then some .biasUTRC
      else if firstIs i.freeEnergyType 'l' then some .deltaTemperature
      else some .temperature
    else if firstIs i.freeEnergyType 's' then some .phase
    else none

/-- `FreeEnergyStrategyFactory::create`, source/FreeEnergyStrategyFactory.h:36-266. -/
def energy (i : Input) (c : Option ConcModel) : Option Energy :=
  if firstIs i.freeEnergyType 'l' then some .deltaTemperature else baseEnergy i c

/-- Ways to split a composition between the phases. -/
inductive Split | equilibrium (t : Thermo) | partition | same
  deriving DecidableEq

/-- `PhaseConcentrationsStrategyFactory::create`, source/PhaseConcentrationsStrategyFactory.h:38-226; `none` is a null
pointer. -/
def split (i : Input) (m : ConcModel) : Option Split :=
  if phaseConc m i.phaseConcentrationModel = "kks" then
    if m = .calphad then
      if i.ncomp = 1 then
        some (.equilibrium
          (if phaseB i then (if i.sublattice then .binary3Ph2Sl else .binaryThreePhase)
           else if 1 < nparams i then .binary
           else if i.sublattice then .binary2Ph1Sl else .binary))
      else if i.ncomp = 2 then some (.equilibrium .ternary)
      else none
    else if m = .dilute then some (.equilibrium .dilute)
    else if m = .quadratic then
      some (.equilibrium (if 1 < nparams i then (if phaseB i then .quadraticThreePhase else .quadratic) else .quadratic))
    else none
  else if phaseConc m i.phaseConcentrationModel = "partition" then some .partition
  else some .same

/-- Mobilities of the order parameters: a number, or Kim's formula with a free energy; for the latter whether the
diffusion coefficient of the liquid enters. -/
inductive Mobility | scalar | kim (t : Thermo) (usesD : Bool)
  deriving DecidableEq

/-- `MobilityFactory::create`, source/MobilityFactory.h:31-163 (called in source/QuatModel.cc:826-832). The first letter
`c` of the model also covers `cahn_hilliard`. Without a `ConcentrationModel` block the database is null and Kim's
mobility cannot be built. -/
def mobility (i : Input) (c : Option (ConcModel × Rhs × Diff)) : Option Mobility :=
  (mobilityScalar i).bind fun s =>
    if s then some .scalar
    else match c with
      | none => none
      | some (m, _, d) =>
        if d = .ctd then none
        else
          let usesD := !i.finiteMobility || i.antitrapping
          if m = .calphad ∨ m = .cahnHilliard then
            if 1 < i.ncomp then some (.kim .ternary usesD)
            else if i.threePhases then some (.kim .binary3Ph2Sl false)
            else some (.kim .binary usesD)
          else some (.kim .dilute usesD)

/-- `QuatModel::setupAziz`, source/QuatModel.cc:426-457. -/
def aziz (i : Input) (m : ConcModel) : Thermo :=
  if m = .calphad then (if 1 < i.ncomp then .ternary else .binary) else .dilute

/-! ## Constants -/

/-- Constants of `QuatModelParameters` that start out as signalling NaN or uninitialised
(source/QuatModelParameters.cc:33-96). `dSolidA` etc. -/
inductive Const
  | dLiquid | qLiquid | dSolidA | qSolidA | dSolidB | qSolidB
  | dLA | qLA | dAA | qAA | dLB | qLB | dAB | qAB | dBB | qBB
  | latentHeat | freeEnergyLiquid | freeEnergySolidA | freeEnergySolidB
  | gamma | averageConcentration
  deriving DecidableEq

/-- Constants that the reader assigns: diffusion (source/QuatModelParameters.cc:252-297), latent heat (611-624),
free energies (1180-1206), bias well (371-382, 893-902). `gamma` of the linear model has the default −1. -/
def assigned (i : Input) (c : Option (ConcModel × Rhs × Diff)) : Const → Bool
  | .dLiquid | .dSolidA => match c with
    | some (_, r, d) => decide (r = .beckermann) || decide (d = .td)
    | none => false
  | .qLiquid | .qSolidA | .dLA | .qLA | .dAA | .qAA => match c with
    | some (_, _, d) => decide (d = .td)
    | none => false
  | .dSolidB | .qSolidB | .dLB | .qLB | .dAB | .qAB | .dBB | .qBB => match c with
    | some (_, _, d) => decide (d = .td) && phaseB i
    | none => false
  | .latentHeat => i.latentGiven
  | .freeEnergyLiquid => firstIs i.freeEnergyType 's'
  | .freeEnergySolidA => firstIs i.freeEnergyType 's' || firstIs i.freeEnergyType 'l'
  | .freeEnergySolidB => firstIs i.freeEnergyType 's' && i.threePhases
  | .gamma => match c with
    | some (m, _, _) => decide (m = .linear)
    | none => i.gammaGiven
  | .averageConcentration => match c with
    | some (m, _, _) => decide (m = .linear) && i.slopeNonzero
    | none => false

/-- `concentrationModelNeedsPhaseConcentrations()`, source/QuatModelParameters.h:326-333. -/
def needsPhaseConc (m : ConcModel) : Bool :=
  decide (m = .calphad) || decide (m = .quadratic) || decide (m = .linear) || decide (m = .dilute) ||
    decide (m = .independent)

/-- Classes for the diffusion of solute in the phases (source/CompositionDiffusionStrategyFactory.h:34-100), built for
the EBS and the sintering forms only (source/QuatModel.cc:384-397). -/
inductive Diffusion | mobilities | temperature | sintering | scalar
  deriving DecidableEq

/-- `CompositionDiffusionStrategyFactory::create`, source/CompositionDiffusionStrategyFactory.h:34-100. -/
def diffusion (m : ConcModel) (r : Rhs) (d : Diff) : Option Diffusion :=
  if r = .ebs ∨ r = .wangSintering then
    some (if d = .ctd then .mobilities
      else if r = .ebs then .temperature
      else if m = .wangSintering then .sintering
      else .scalar)
  else none

/-- `CompositionRHSStrategyFactory::create`, source/CompositionRHSStrategyFactory.h:26-110: `false` is the
`TBOX_ERROR`. -/
def rhsExists (m : ConcModel) (r : Rhs) : Bool :=
  decide (r = .kks) || decide (r = .ebs) || decide (r = .beckermann) || decide (r = .cahnHilliard) ||
    decide (m = .wangSintering)

/-- Constants used by the time stepping of the composition: KKS form
(source/CompositionRHSStrategyFactory.h:46-58), Beckermann's form (82-91), temperature-dependent diffusion
(source/TbasedCompositionDiffusionStrategy.cc:119-330; phase B is present when its diffusion field was registered,
source/QuatModel.cc:1290-1301, 1419-1421), sintering (source/CompositionDiffusionStrategyFactory.h:73-80). -/
def diffusionUses (i : Input) (m : ConcModel) (r : Rhs) (d : Diff) (k : Const) : Bool :=
  match r with
  | .kks => k = .dLiquid || k = .dSolidA || k = .qLiquid || k = .qSolidA
  | .beckermann => k = .dLiquid || k = .dSolidA
  | _ => match diffusion m r d with
    | some .temperature =>
      if phaseB i && needsPhaseConc m then
        k = .dLiquid || k = .qLiquid || k = .dSolidA || k = .qSolidA || k = .dSolidB || k = .qSolidB ||
          k = .dLA || k = .qLA || k = .dAA || k = .qAA || k = .dLB || k = .qLB || k = .dAB || k = .qAB ||
          k = .dBB || k = .qBB
      else if 1 < nparams i then
        k = .dLiquid || k = .qLiquid || k = .dSolidA || k = .qSolidA || k = .dLA || k = .qLA || k = .dAA || k = .qAA
      else k = .dLiquid || k = .qLiquid || k = .dSolidA || k = .qSolidA
    | some .sintering => k = .dLiquid || k = .dSolidA || k = .dLA || k = .dAA
    | _ => false

/-- Constants used by a free-energy strategy: source/FreeEnergyStrategyFactory.h:214-262; a bias well of the linear model
takes the average composition for its melting line (source/QuatModel.cc:322-328). -/
def energyUses (c : Option ConcModel) (e : Option Energy) (k : Const) : Bool :=
  match e with
  | some .biasBeckermann => k = .averageConcentration && c = some .linear
  | some .biasUTRC => k = .gamma || (k = .averageConcentration && c = some .linear)
  | some .deltaTemperature => k = .latentHeat
  | some .temperature => k = .freeEnergySolidA || k = .latentHeat
  | some .phase => k = .freeEnergyLiquid || k = .freeEnergySolidA
  | _ => false

/-- Constants used by Kim's mobilities, source/MobilityFactory.h:100-138. -/
def mobilityUses (o : Option Mobility) (k : Const) : Bool :=
  match o with
  | some (.kim _ true) => k = .dLiquid || k = .qLiquid
  | _ => false

/-- Constants used in a run; the latent heat also enters the time-dependent heat equation
(source/QuatIntegrator.cc:2005-2008). -/
def uses (i : Input) (c : Option (ConcModel × Rhs × Diff)) (k : Const) : Bool :=
  (match c with | some (m, r, d) => diffusionUses i m r d k | none => false) ||
    (k = .latentHeat && i.heat && !i.steady) ||
    energyUses (c.map Prod.fst) (energy i (c.map Prod.fst)) k || mobilityUses (mobility i c) k

/-- The run starts: the settings are read, and the factories that stop with an error do not stop
(source/QuatModel.cc:291-424, 815-832). -/
def starts (i : Input) (c : Option (ConcModel × Rhs × Diff)) : Prop :=
  read i = some c ∧ (mobility i c).isSome ∧ (∀ m r d, c = some (m, r, d) → rhsExists m r)

end AMPE.Selection
