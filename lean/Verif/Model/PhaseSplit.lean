import Verif.Model.DiffCoeff
import Verif.Model.AlloyThree

/-! # Fractions used to split the composition into phases, and the solute flux of the sum over phases

The equations of Kim, Kim and Suzuki are solved in the external library Thermo4PFM: given fractions `w`, it returns phase
compositions `x` with `sum w x = c` and equal potentials (`Kks`). Its `interp_func` is taken to be the function of the same
name in source/fortran/functions.f. -/

namespace AMPE.PhaseSplit

open AMPE.Functions AMPE.Flux AMPE.DiffCoeff

/-- What the solver returns: mixture rule and equal potentials, for `nc` compositions and `n` phases. -/
structure Kks {n nc : ℕ} (w : Fin n → ℝ) (mu : Fin n → (Fin nc → ℝ) → Fin nc → ℝ) (c : Fin nc → ℝ) (x : Fin n → Fin nc → ℝ) : Prop where
  mixture : ∑ p, w p • x p = c
  equal : ∀ p q, mu p (x p) = mu q (x q)

/-- One order parameter: `hphi` is the fraction of the solid, the library uses `1 - hphi` for the liquid.
source/CALPHADequilibriumPhaseConcentrationsStrategy.cc:359-362, source/QuadraticEquilibriumPhaseConcentrationsStrategy.cc:127-132. -/
noncomputable def splitOne (it : Char) (phi : ℝ) : Option (Fin 2 → ℝ) := (interpFunc it phi).map fun h => ![1 - h, h]

/-- Several order parameters, two phases, source/EquilibriumPhaseConcentrationsBinaryMultiOrder.cc:113-123: `solids` are all but
the last order parameter. -/
noncomputable def splitMany (it : Char) (solids : List ℝ) : Option (Fin 2 → ℝ) :=
  splitOne it (solids.foldl (· + ·) 0)

/-- Three order parameters of three phases (liquid, A, B): `hphi[i] = interp_func(phi[i])`,
source/CALPHADequilibriumPhaseConcentrationsStrategy.cc:355-362. -/
noncomputable def splitThree (it : Char) (phi : Fin 3 → ℝ) : Option (Fin 3 → ℝ) := do
  let a ← interpFunc it (phi 0)
  let b ← interpFunc it (phi 1)
  let c ← interpFunc it (phi 2)
  some ![a, b, c]

/-- First letter of `conc_interp_func_type`, default the energy interpolation with default `pbg`;
source/QuatModelParameters.cc:914-973. -/
def concInterp (conc energy : Option Char) : Option Char :=
  match (conc.getD (energy.getD 'p')).toLower with
  | 'l' => some 'l'
  | 'p' => some 'p'
  | 'h' => some 'h'
  | _ => none

/-- First letter of `diffusion_interp_func_type` and the character handed to the Fortran routines;
source/QuatModelParameters.cc:1014-1034, source/CompositionDiffusionStrategy.h:34-45. -/
def diffusionInterp (t : Option Char) : Option Char :=
  match t.getD 'l' with
  | 'l' => some 'l'
  | 'L' => some 'l'
  | 'p' => some 'p'
  | 'P' => some 'p'
  | 'b' => some 'b'
  | _ => none

/-- Default of `avg_func_type`, source/QuatModelParameters.cc:1036-1044. -/
def averageKind (t : Option Char) : Char := t.getD 'h'

/-- Statements of one face of `concentration_pfmdiffusion_scalar_2phases`, source/fortran/2d/concentrationdiffusion.m4:191-206. -/
noncomputable def scalarTwo (it at_ : Char) (dl da : ℝ) (solids : List Pair) (liquid : Pair) : Option ℝ := do
  let va ← sumAvg at_ solids
  let ha ← interpFunc it va
  let vl ← avgP at_ liquid
  let hl ← interpFunc it vl
  some (hl * dl + ha * da)

/-- Statements of one face of `concentration_pfmdiffusion_scalar_3phases`, source/fortran/2d/concentrationdiffusion.m4:680-701. -/
noncomputable def scalarThree (it at_ : Char) (dl da db : ℝ) (pa pb : List Pair) (liquid : Pair) : Option ℝ := do
  let va ← sumAvg at_ pa
  let ha ← interpFunc it va
  let vb ← sumAvg at_ pb
  let hb ← interpFunc it vb
  let vl ← avgP at_ liquid
  let hl ← interpFunc it vl
  some (hl * dl + ha * da + hb * db)

/-- `EBSCompositionRHSStrategy::computeFluxOnPatch` on an x face for one composition, source/EBSCompositionRHSStrategy.cc:231-327:
the flux starts at zero and gets one contribution per phase. `x` are the phase compositions in the two cells, `d` the coefficients. -/
noncomputable def fluxSum {n : ℕ} (dx : ℝ) (d : Fin n → Field2) (x : Fin n → Field2) : Field2 :=
  (List.finRange n).foldl (fun f p => addFluxX dx 1 (fun _ => x p) (fun _ => d p) (fun _ => f) 1) (fun _ _ => 0)

end AMPE.PhaseSplit
