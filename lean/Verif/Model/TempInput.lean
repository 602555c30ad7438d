import Mathlib.Data.Real.Basic

/-!
# Choice of the temperature model from the input

source/QuatModelParameters.cc (`readTemperatureModel`, 461-625) followed by `QuatModel::initializeTemperature` (source/QuatModel.cc:205-240),
`TemperatureStrategyFactory::create` (source/TemperatureStrategyFactory.cc:73-166), the constructors of the steady sources and the first use of
the source (source/SteadyStateTemperatureCompositionSource.cc, source/SteadyStateTemperatureGaussianSource.cc,
source/fortran/2d/temperature.m4:12-42).

Simplifications: texts are lists of characters; the entries inside the blocks `cp`, `HeatSource` and `TemperatureSysSolver`, the melting
temperature and the latent heat are taken as present and valid; the profiles of the other models (temperature0, gradient, ...) likewise.
-/

namespace AMPE.TempInput

/-- The entries read.  `block` is `type` of the block `Temperature`, `none` without the block; `old` is `temperature_type` of
`ModelParameters`.  An empty `source` is a missing entry.  `vol` is `d_molar_volume_liquid`, `none` is not a number
(source/QuatModelParameters.cc:61). -/
structure In where
  block : Option (List Char) := none
  old : Option (List Char) := none
  eqType : Option (List Char) := none
  sourceType : Option (List Char) := none
  source : List ℝ := []
  heatSource : Bool := false
  solver : Bool := false
  bc : Bool := false
  conc : Bool := false
  vol : Option ℝ := none

/-- `d_temperature_type` with `d_with_heat_equation` and `d_with_steady_temperature`. -/
inductive Kind
  | scalar | gaussian | gradient | constant
  | heat (steady : Bool)
  deriving DecidableEq

/-- Small first letter, source/QuatModelParameters.cc:475-480. -/
def small : List Char → List Char
  | [] => []
  | c :: cs => (if c = 'S' then 's' else if c = 'F' then 'f' else if c = 'G' then 'g' else if c = 'C' then 'c' else if c = 'H' then 'h' else c) :: cs

/-- `temperature_type`, source/QuatModelParameters.cc:464-480. -/
def In.typ (i : In) : List Char := small (i.block.getD (i.old.getD "scalar".toList))

/-- The test of the type, source/QuatModelParameters.cc:482-491. -/
def valid (t : List Char) : Bool :=
  t == "scalar".toList || t == "frozen".toList || t == "gaussian".toList || t == "constant".toList || t == "heat".toList || t == "file".toList

/-- The branches on the type, source/QuatModelParameters.cc:496-609; `none` is `TBOX_ERROR`. -/
def In.kind (i : In) : Option Kind :=
  if valid i.typ then
    if i.typ = "scalar".toList then some .scalar
    else if i.typ = "gaussian".toList then some .gaussian
    else if i.typ = "frozen".toList then some .gradient
    else if i.typ = "heat".toList then some (.heat (i.eqType.getD "steady".toList == "steady".toList))
    else if i.typ = "constant".toList then some .constant
    else none
  else none

/-- The object made by the factory.  The coefficients of the source are `none` when not a number. -/
inductive Strategy
  | uniform | gaussian | gradient | constant
  | sourceComposition (s1 s2 : Option ℝ)
  | sourceGaussian

/-- End of the start: an error message or failed assertion, undefined behaviour, or a run with the given temperature. -/
inductive Outcome
  | stops
  | undefined
  | uses (s : Strategy)

/-- A coefficient of the source, source/QuatModelParameters.cc:589-593. -/
noncomputable def scaled (vol : Option ℝ) (s : ℝ) : Option ℝ := vol.map fun v => s * (1e-6 / v)

/-- `isHeatSourceCompositionDependent()`, source/QuatModelParameters.h:431-434; `d_heat_source_type` is empty unless read. -/
def In.byComposition (i : In) : Bool := i.sourceType.getD [] == "composition".toList

/-- Stops while the source is read, source/QuatModelParameters.cc:583-597: `getDoubleArray` of a missing entry, or the assertion. -/
def In.badSource (checks : Bool) (i : In) : Bool :=
  match i.sourceType with
  | none => false
  | some t => if t = "composition".toList then i.source.isEmpty else checks && t != "gaussian".toList

/-- The first two entries as read by `source_temperature`, source/fortran/2d/temperature.m4:35-37; the number of entries `nsp` is not tested.
`none`: outside of the array. -/
def firstTwo : List ℝ → Option (ℝ × ℝ)
  | a :: b :: _ => some (a, b)
  | _ => none

open Classical in
/-- Assertions on the molar volume, source/QuatModelParameters.cc:514-516; `true`: they hold. -/
noncomputable def In.volOk (i : In) : Bool :=
  match i.vol with
  | none => false
  | some v => decide (0 < v ∧ v < 1e15)

/-- The steady equation: source/TemperatureStrategyFactory.cc:127-156; constructor of the composition source
(source/SteadyStateTemperatureCompositionSource.cc:38), without a composition `getPatchData(-1)` (:79-81); constructor of the Gaussian one, which
dereferences the block of the solver (source/SteadyStateTemperatureGaussianSource.cc:68).  `checks`: assertions are compiled. -/
noncomputable def In.steady (checks : Bool) (i : In) : Outcome :=
  if i.badSource checks then .stops
  else if checks && !i.bc then .stops
  else if i.byComposition then
    if checks && !i.conc then .stops
    else if !i.conc then .undefined
    else match firstTwo i.source with
      | some (a, b) => .uses (.sourceComposition (scaled i.vol a) (scaled i.vol b))
      | none => .undefined
  else if !i.heatSource then .stops
  else if !i.solver then .undefined
  else .uses .sourceGaussian

/-- The whole choice. -/
noncomputable def In.create (checks : Bool) (i : In) : Outcome :=
  match i.kind with
  | none => .stops
  | some .scalar => .uses .uniform
  | some .gaussian => .uses .gaussian
  | some .gradient => .uses .gradient
  | some .constant => .uses .constant
  | some (.heat st) =>
    if checks && !i.volOk then .stops
    else if st then i.steady checks else .uses .constant

/-- The entries for the value of a uniform temperature. -/
structure Value where
  temperature0 : Option ℝ := none
  tParameter : Option ℝ := none
  temperature : Option ℝ := none
  initial : Option ℝ := none

/-- `readTemperature0`, source/TemperatureStrategyFactory.cc:46-71; `none` is `TBOX_ERROR`. -/
def Value.read (v : Value) : Option ℝ :=
  match v.temperature0 with
  | some t => some t
  | none => match v.tParameter with
    | some t => some t
    | none => match v.temperature with
      | some t => some t
      | none => v.initial

end AMPE.TempInput
