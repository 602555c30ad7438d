import Verif.Model.PhaseRHS
import Verif.Model.Alloy
import Verif.Model.DiffCoeff
import Verif.Model.Coupling

/-!
# An isothermal alloy: phase equation and composition equation together

One order parameter, one composition, no orientation, one level, no moving frame, one temperature for all cells.  The molar free energies
and the split of the composition between the phases come from the external library Thermo4PFM; the energies are parameters, the split is
described by its equations (in the properties).
-/

namespace AMPE.AlloyFlow

open AMPE.Functions AMPE.Flux AMPE.PhaseRHS AMPE.Alloy AMPE.DiffCoeff

/-- The molar free energies of liquid and solid at the temperature of the run, and what `computeDerivFreeEnergy` returns for them. -/
structure Energies where
  fL : ℝ → ℝ
  dfL : ℝ → ℝ
  fA : ℝ → ℝ
  dfA : ℝ → ℝ

/-- The strategies: `QuadraticFreeEnergyStrategy`, or `CALPHADFreeEnergyStrategyBinary` and `KKSdiluteBinary`
(source/FreeEnergyStrategyFactory.h:60-222). -/
inductive Kind where
  | quadratic
  | calphad
  deriving DecidableEq

/-- `f_l` in a cell: source/QuadraticFreeEnergyStrategy.cc:168-256 with the factor of line 65. -/
noncomputable def fLiquid (E : Energies) (vmL cl : ℝ) : ℝ := invVm vmL * E.fL cl

/-- `f_a` in a cell: the same routine with the factor of line 79. -/
noncomputable def fSolid (E : Energies) (vmA ca : ℝ) : ℝ := invVm vmA * E.fA ca

/-- What `addDrivingForceOnPatch` adds in a cell: source/QuadraticFreeEnergyStrategy.cc:500-530,
source/CALPHADFreeEnergyStrategyBinary.cc:638-683. -/
noncomputable def drive (kind : Kind) (ty : Char) (E : Energies) (vmL vmA phi cl ca : ℝ) : Option ℝ :=
  match kind with
  | .quadratic => driveQuadratic ty vmL E.dfL phi (fLiquid E vmL cl) (fSolid E vmA ca) cl ca
  | .calphad => driveCalphad ty vmA E.dfA phi (fLiquid E vmL cl) (fSolid E vmA ca) cl ca

/-- `PhaseRHSStrategyWithQ::evaluateRHS` in one cell, source/PhaseRHSStrategyWithQ.cc:242-300: interfacial part with the well 'd',
driving force, then the product with the mobility of the cell. -/
noncomputable def phaseRate2 (kind : Kind) (ty : Char) (E : Energies) (eps scale dx dy vmL vmA : ℝ) (mob phi cl ca : Field2) (i j : ℤ) :
    Option ℝ :=
  (pbgCell 'd' 'd' ty 'c' 'c' scale 0 0 0 false false (div2 dx dy (gradFluxX eps dx phi) (gradFluxY eps dy phi) i j)
      (phi i j) 0 0 0).bind fun r =>
    (drive kind ty E vmL vmA (phi i j) (cl i j) (ca i j)).map fun d => mob i j * (r + d)

/-- Flux of `EBSCompositionRHSStrategy::computeFluxOnPatch` with the regular stencil, two phases, one composition, x faces:
source/EBSCompositionRHSStrategy.cc:231-291. -/
noncomputable def ebsX (dx : ℝ) (dl da cl ca : Field2) : Field2 :=
  addFluxX dx 1 (fun _ => ca) (fun _ => da) (addFluxX dx 1 (fun _ => cl) (fun _ => dl) (fun _ _ _ => 0)) 1

/-- The same on y faces. -/
noncomputable def ebsY (dy : ℝ) (dl da cl ca : Field2) : Field2 :=
  addFluxY dy 1 (fun _ => ca) (fun _ => da) (addFluxY dy 1 (fun _ => cl) (fun _ => dl) (fun _ _ _ => 0)) 1

/-- The energy reported for a patch: `energy2` with the energies of the phases, source/fortran/2d/quatenergy.m4:140-420. -/
noncomputable def energy (ty : Char) (E : Energies) (eps scale dx dy vmL vmA w : ℝ) (lo0 hi0 lo1 hi1 : ℤ) (phi cl ca : Field2) :
    Option ℝ :=
  energy2 ty eps scale dx dy (fun i j => fLiquid E vmL (cl i j)) (fun i j => fSolid E vmA (ca i j)) (fun _ => w) lo0 hi0 lo1 hi1 phi

end AMPE.AlloyFlow
