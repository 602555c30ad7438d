import Verif.Model.PhaseRHS
import Verif.Model.Thermal
import Verif.Model.Boundary
import Verif.Model.DiffCoeff
import Verif.Model.FieldsFile

/-! # Temperature in units of the melting temperature

With the time-dependent heat equation and a melting temperature in the input, the run works with `T / meltingT`
(`with_rescaled_temperature`).  Sources: source/QuatModelParameters.cc (`readTemperatureModel`, `readConcDB`), source/QuatModel.cc (`Tref`,
the boundary strategy, the initial field), source/QuatIntegrator.cc (`initializeCoarseRefineOperators`),
source/QuatRefinePatchStrategy.{h,cc}.  `double` is ℝ.  Only the parameters that change with the unit of temperature are listed; the
heat capacity is a constant one (the temperature-dependent terms are treated with C68). -/

namespace AMPE.Rescale

open AMPE.Flux

/-- Temperature-related values of the input. -/
structure Input where
  /-- `type = "heat"`, source/QuatModelParameters.cc:510-519 -/
  heat : Bool
  /-- `equation_type`, default `"steady"`, source/QuatModelParameters.cc:523-524 -/
  steady : Bool
  /-- `meltingT` in K, `-1` when missing, source/QuatModelParameters.cc:493-494 -/
  meltingT : ℝ
  /-- molar volume of the liquid, source/QuatModelParameters.cc:557-560 -/
  vm : ℝ
  /-- constant heat capacity in J/(mol K), source/QuatModelParameters.cc:540 -/
  cpA : ℝ
  /-- `H_parameter`, source/QuatModelParameters.cc:831 -/
  H : ℝ
  /-- `latent_heat` in J/mol, source/QuatModelParameters.cc:612-623 -/
  latent : ℝ
  /-- a `ConcentrationModel` of type linear, source/QuatModelParameters.cc:363; otherwise the well parameters come from the
  model database, source/QuatModelParameters.cc:896-906 -/
  linear : Bool
  /-- `alpha` or `bias_well_alpha` -/
  alpha : ℝ
  /-- `gamma` (default −1, source/QuatModelParameters.cc:373) or `bias_well_gamma` -/
  gamma : ℝ
  /-- `liquidus_slope`, source/QuatModelParameters.cc:366 -/
  slope : ℝ
  /-- `average_concentration`, source/QuatModelParameters.cc:367-368 -/
  cref : ℝ

/-- The values the run works with. -/
structure Params where
  cp : ℝ
  H : ℝ
  latent : ℝ
  tref : ℝ
  alpha : ℝ
  gamma : ℝ
  slope : ℝ
  cref : ℝ
  beckermann : Bool

/-- `d_with_rescaled_temperature` and `d_rescale_factorT`, source/QuatModelParameters.cc:530-537. -/
noncomputable def factor (i : Input) : Option ℝ :=
  if i.heat = true ∧ i.steady = false ∧ 0 < i.meltingT then some i.meltingT else none

/-- The parameters after reading, given whether temperatures are rescaled: source/QuatModelParameters.cc:552-571 (heat capacity),
602-604 (`H_parameter`), 363-383 (well and liquidus, linear model only), 612-623 (latent heat); source/QuatModel.cc:292-295 (`Tref`).
Without a linear model the wells use a constant melting temperature (source/QuatModel.cc:337-342), slope 0, and never the
Beckermann form (source/FreeEnergyStrategyFactory.h:229-233). -/
noncomputable def read (f : Option ℝ) (i : Input) : Params where
  cp := match f with
    | some f => i.cpA * (1e-6 / i.vm) * f
    | none => i.cpA * (1e-6 / i.vm)
  H := match f with
    | some f => i.H * f
    | none => i.H
  latent := i.latent * (1e-6 / i.vm)
  tref := match f with
    | some f => i.meltingT / f
    | none => i.meltingT
  alpha := i.alpha
  gamma := match f with
    | some f => if i.linear then i.gamma * f else i.gamma
    | none => i.gamma
  slope := if i.linear then (match f with
    | some f => i.slope / f
    | none => i.slope) else 0
  cref := i.cref
  beckermann := i.linear && decide (i.gamma < 0)

/-! ## Where the temperature is used -/

/-- `linearmeltingline`, source/fortran/2d/temperature.m4:237 (`ConstantMeltingTemperatureStrategy`: slope 0). -/
noncomputable def equilibriumT (p : Params) (c : ℝ) : ℝ := p.tref + p.slope * (c - p.cref)

/-- The well force of source/BiasDoubleWellUTRCFreeEnergyStrategy.cc:71-107 and
source/BiasDoubleWellBeckermannFreeEnergyStrategy.cc:67-100, chosen in source/FreeEnergyStrategyFactory.h:212-233. -/
noncomputable def wellForce (p : Params) (c temp phi : ℝ) : ℝ :=
  if p.beckermann then PhaseRHS.biasWellBeckermann p.alpha (equilibriumT p c) temp phi
  else PhaseRHS.biasWell p.alpha p.gamma (equilibriumT p c) temp phi

/-- The driving force of source/DeltaTemperatureFreeEnergyStrategy.cc:131-140. -/
noncomputable def meltForce (p : Params) (interp : Char) (temp : Field2) (phi : ℝ) (i j : ℤ) : Option ℝ :=
  PhaseRHS.deltaTemperature interp p.tref p.latent temp phi i j

/-- Free energy of the liquid minus that of the solid, source/TemperatureFreeEnergyStrategy.cc:47-54. -/
noncomputable def meltDifference (p : Params) (temp : ℝ) : ℝ := p.latent * (p.tref - temp) * (1 / p.tref)

/-- The first orientation term of the phase equation, source/fortran/2d/quatrhs.m4:391-395. -/
def orientTerm (p : Params) (temp p1 gradMod : ℝ) : ℝ := p.H * temp * p1 * gradMod

/-- The rate of the temperature with the constant heat capacity, 2D and 3D, source/SimpleTemperatureRHSStrategy.cc:85-94. -/
noncomputable def tempRate2 (p : Params) (dx dy diff : ℝ) (withPhase : Bool) (T phiRhs : Field2) : Field2 :=
  Thermal.rhsTemp2 dx dy diff p.latent withPhase T (fun _ _ => p.cp) phiRhs

/-- Same, 3D. -/
noncomputable def tempRate3 (p : Params) (dx dy dz diff : ℝ) (withPhase : Bool) (T phiRhs : Field3) : Field3 :=
  Thermal.rhsTemp3 dx dy dz diff p.latent withPhase T (fun _ _ _ => p.cp) phiRhs

/-! ## Boundary values -/

/-- The coefficients of one side after the constructor of `QuatRefinePatchStrategy`, source/QuatRefinePatchStrategy.cc:111-130: `g` is
multiplied by the coefficient when that is positive. -/
noncomputable def strategyBc (_nghosts : ℤ) (coeff : ℝ) (c : Boundary.Coef) : Boundary.Coef :=
  if 0 < coeff then ⟨c.a, c.b, c.g * coeff⟩ else c

/-- The default of the last constructor argument, source/QuatRefinePatchStrategy.h:38. -/
def defaultCoeff : ℝ := -1

/-- Conversion of a `double` argument to `int` (truncation). -/
noncomputable def toInt (x : ℝ) : ℤ := if 0 ≤ x then ⌊x⌋ else ⌈x⌉

/-- `factor` of source/QuatModel.cc:575-577 and source/QuatIntegrator.cc:1341-1343. -/
noncomputable def bcFactor (f : Option ℝ) : ℝ := match f with
  | some f => 1 / f
  | none => -1

/-- The boundary strategy of the model: nine arguments, source/QuatModel.cc:578-584. -/
noncomputable def modelBc (f : Option ℝ) (nghosts : ℤ) (c : Boundary.Coef) : Boundary.Coef := strategyBc nghosts (bcFactor f) c

/-- The boundary strategy of the integrator: eight arguments, source/QuatIntegrator.cc:1345-1350.  The eighth parameter of the
constructor is `const int nghosts` (source/QuatRefinePatchStrategy.h:37-38). -/
noncomputable def integratorBc (f : Option ℝ) (c : Boundary.Coef) : Boundary.Coef := strategyBc (toInt (bcFactor f)) defaultCoeff c

/-- `d_nghosts` of that object, returned by `getRefineOpStencilWidth` (source/QuatRefinePatchStrategy.h:95-98). -/
noncomputable def integratorStencil (f : Option ℝ) : ℤ := toInt (bcFactor f)

/-! ## The coupled equations of a pure melt -/

/-- Time derivatives of the order parameter and of the temperature on one patch: ghost cells of the temperature are filled with the
coefficients `bc` (source/QuatIntegrator.cc:2931-2952; the temperature uses SAMRAI's `CartesianRobinBcHelper`, taken to satisfy the
same contract as source/CartesianRobinBcHelperWithDepth.cc:165-174), the driving force enters the phase equation, whose other terms do not
contain the temperature and are the arbitrary function `G` of the phase field and the force (source/PhaseRHSStrategyWithQ.cc), and the
temperature equation takes the phase rate (source/SimpleTemperatureRHSStrategy.cc:85-94). -/
noncomputable def meltRates (p : Params) (bc : Boundary.Side → Boundary.Coef) (B : Boundary.Box) (touch : Boundary.Side → Bool) (interp : Char)
    (G : Field2 → (ℤ → ℤ → Option ℝ) → Field2) (dx dy diff : ℝ) (phi T : Field2) : Field2 × Field2 :=
  let Tg := Boundary.fillDepth B touch bc dx dy T
  let dphi := G phi fun i j => meltForce p interp Tg (phi i j) i j
  (dphi, tempRate2 p dx dy diff true Tg dphi)

/-- The temperature in a plot file or a field file: the stored field, source/QuatModel.cc:1961-1967, source/FieldsWriter.cc:424-440. -/
def written (T : ℝ) : ℝ := T

end AMPE.Rescale
