import Verif.Model.Precond
import Verif.Model.SmoothLevel

/-!
# The equations that the preconditioner asks the multigrid solver to solve on a level (2D)

The phase and temperature blocks are `Precond.phaseCoef` and `Precond.tempCoef`; this file adds the composition block.
-/

namespace AMPE.PrecondLevel

open AMPE.Smoother

/-- `ConcFACOps::setOperatorCoefficients`, source/ConcFACOps.cc:28-62, called by `setCompositionOperatorCoefficients`,
source/QuatIntegrator.cc:3378-3387: diffusion `-gamma` times the face diffusion of the species, scalar field 1, mobility
`d_conc_mobility`. -/
noncomputable def concCoef (dx dy gamma mobility : ℝ) (Dx Dy rhs : ℤ × ℤ → ℝ) : Coef2 :=
  { dx := dx, dy := dy, fx := dx, fy := dy, xdc := fun p => -gamma * Dx p, ydc := fun p => -gamma * Dy p,
    m := fun _ => mobility, sf := fun _ => 1, rhs := rhs }

/-- Well scale handed to the phase block, source/QuatIntegrator.cc:3321-3322: zero with several order parameters. -/
noncomputable def blockScale (norderp : ℕ) (scale : ℝ) : ℝ := if norderp > 1 then 0 else scale

end AMPE.PrecondLevel
