import Verif.Model.PhaseRHS
import Verif.Model.Thermal

/-!
# A pure melt: phase equation and heat equation together

One order parameter, no orientation, no composition, one level, no moving frame.  The two free energy strategies a run with
`HeatEquation` can get without a biased well (source/FreeEnergyStrategyFactory.h:228-243, 254-260).
-/

namespace AMPE.MeltFlow

open AMPE.Functions AMPE.Flux AMPE.PhaseRHS AMPE.Thermal

/-- The free energy strategy: `free_energy_type` beginning with `l` gives `DeltaTemperatureFreeEnergyStrategy`, any other
`TemperatureFreeEnergyStrategy` (source/FreeEnergyStrategyFactory.h:234-243). -/
inductive Kind where
  | delta
  | temperature
  deriving DecidableEq

/-- `computerhsdeltatemperature`, source/fortran/3d/quatrhs.m4:1036-1087, what is added in one cell. -/
noncomputable def deltaTemperature3 (interp : Char) (tm latent : ℝ) (temp : Field3) (phi : ℝ) (i j k : ℤ) : Option ℝ := do
  let woff : ℝ := 0.25 / 6
  let w := 0.75 * temp i j k + woff * (temp (i - 1) j k + temp i (j - 1) k + temp (i + 1) j k + temp i (j + 1) k
    + temp i j (k - 1) + temp i j (k + 1))
  let hp ← derivInterpFunc interp phi
  some (latent / tm * (tm - w) * hp)

/-- `TemperatureFreeEnergyStrategy::computeValFreeEnergyLiquid`, source/TemperatureFreeEnergyStrategy.cc:47-55. -/
noncomputable def freeLiquid (fa latent tm temp : ℝ) : ℝ := fa + latent * (tm - temp) * (1 / tm)

/-- `addDrivingForce` of the two strategies in one cell of a 2D patch: source/DeltaTemperatureFreeEnergyStrategy.cc:88-140, and
source/TemperatureFreeEnergyStrategy.cc:58-96 (energies of the phases) followed by 107-160. -/
noncomputable def addForce2 (kind : Kind) (interp : Char) (fa tm latent : ℝ) (temp phi : Field2) (i j : ℤ) (rhs : ℝ) :
    Option ℝ :=
  match kind with
  | .delta => (deltaTemperature interp tm latent temp (phi i j) i j).map fun m => rhs + m
  | .temperature => fenergyCell interp (freeLiquid fa latent tm (temp i j)) fa (phi i j) rhs

/-- The same in 3D. -/
noncomputable def addForce3 (kind : Kind) (interp : Char) (fa tm latent : ℝ) (temp phi : Field3) (i j k : ℤ) (rhs : ℝ) :
    Option ℝ :=
  match kind with
  | .delta => (deltaTemperature3 interp tm latent temp (phi i j k) i j k).map fun m => rhs + m
  | .temperature => fenergyCell interp (freeLiquid fa latent tm (temp i j k)) fa (phi i j k) rhs

/-- `PhaseRHSStrategyWithQ::evaluateRHS` in one cell, source/PhaseRHSStrategyWithQ.cc:242-300: interfacial part with the well 'd',
driving force, then the product with the mobility of the cell. -/
noncomputable def phaseRate2 (kind : Kind) (interp : Char) (eps scale dx dy fa tm latent : ℝ) (mob temp phi : Field2) (i j : ℤ) :
    Option ℝ :=
  (pbgCell 'd' 'd' interp 'c' 'c' scale 0 0 0 false false
      (div2 dx dy (gradFluxX eps dx phi) (gradFluxY eps dy phi) i j) (phi i j) 0 0 0).bind fun r =>
    (addForce2 kind interp fa tm latent temp phi i j r).map fun r => mob i j * r

/-- The same in 3D. -/
noncomputable def phaseRate3 (kind : Kind) (interp : Char) (eps scale dx dy dz fa tm latent : ℝ) (mob temp phi : Field3)
    (i j k : ℤ) : Option ℝ :=
  (pbgCell 'd' 'd' interp 'c' 'c' scale 0 0 0 false false
      (div3 dx dy dz (gradFlux3X eps dx phi) (gradFlux3Y eps dy phi) (gradFlux3Z eps dz phi) i j k) (phi i j k) 0 0 0).bind fun r =>
    (addForce3 kind interp fa tm latent temp phi i j k r).map fun r => mob i j k * r

/-- `total_phi_e + total_well_e` of `quatenergy`, source/fortran/2d/quatenergy.m4:140-176, 378-395: the energy of the interface. -/
noncomputable def interfaceEnergy2 (eps scale dx dy : ℝ) (weight : ℤ × ℤ → ℝ) (lo0 hi0 lo1 hi1 : ℤ) (u : Field2) : Option ℝ :=
  (accumulate (fun c => some (interfaceCell eps dx dy u c.1 c.2)) weight (loop2 lo0 hi0 lo1 hi1)).bind fun a =>
    (accumulate (fun c => wellCell 'd' scale (u c.1 c.2)) weight (loop2 lo0 hi0 lo1 hi1)).map fun b => a + b

/-- The same in 3D, source/fortran/3d/quatenergy.m4:143-224 and the well loop of `quatenergy`. -/
noncomputable def interfaceEnergy3 (eps scale dx dy dz : ℝ) (weight : ℤ × ℤ × ℤ → ℝ) (lo0 hi0 lo1 hi1 lo2 hi2 : ℤ)
    (u : Field3) : Option ℝ :=
  (accumulate (fun c => some (interfaceCell3 eps dx dy dz u c.1 c.2.1 c.2.2)) weight
      (loop3 lo0 hi0 lo1 hi1 lo2 hi2)).bind fun a =>
    (accumulate (fun c => wellCell 'd' scale (u c.1 c.2.1 c.2.2)) weight (loop3 lo0 hi0 lo1 hi1 lo2 hi2)).map fun b => a + b

end AMPE.MeltFlow
