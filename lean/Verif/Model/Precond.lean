import Verif.Model.PhaseRHS
import Verif.Model.Thermal
import Verif.Model.Smoother
import Verif.Model.LevelSolve

/-! # Preconditioner of the time integrator: phase and temperature blocks (2D)

The multigrid solvers are modelled by what they compute when they converge exactly: a field whose residual
(`Smoother.Coef2.levelResidual`, source/EllipticFACOps.cc:2144-2290) is zero.  One level whose spacing is that of the grid
geometry (C59 is about the others). -/

namespace AMPE.Precond

open AMPE.Functions AMPE.Flux AMPE.PhaseRHS AMPE.Smoother AMPE.LevelSolve

/-- Cell value of `setCOnPatchPrivate`, source/PhaseFACOps.cc:165-179. -/
noncomputable def phaseC (ty : Char) (gamma m scale phi : ℝ) : Option ℝ := do
  let g ← secondDerivWellFunc ty phi
  let gamma_m := gamma * m
  some (1.0 + gamma_m * scale * g)

/-- Cell value of `setCOnPatchForPreconditionODE`, source/PhaseTemperatureFACOps.cc:157-163. -/
noncomputable def phaseTempC (ty : Char) (latent m scale phi : ℝ) : Option ℝ := do
  let g ← secondDerivWellFunc ty phi
  some (latent * m * scale * g)

/-- `PhaseFACOps::setOperatorCoefficients`, source/PhaseFACOps.cc:33-52, called from source/QuatIntegrator.cc:3318-3326:
mobility `M`, diffusion `- gamma eps^2`, cell coefficient `C` (values of `phaseC`). -/
noncomputable def phaseCoef (dx dy eps gamma : ℝ) (M C rhs : ℤ × ℤ → ℝ) : Coef2 :=
  { dx := dx, dy := dy, fx := dx, fy := dy, xdc := fun _ => -gamma * eps * eps, ydc := fun _ => -gamma * eps * eps,
    m := M, sf := C, rhs := rhs }

/-- `TemperatureFACOps::setOperatorCoefficients(1, 1, -gamma D)`, source/TemperatureFACOps.cc:33-45,
source/QuatIntegrator.cc:3339-3344. -/
noncomputable def tempCoef (dx dy diff gamma : ℝ) (rhs : ℤ × ℤ → ℝ) : Coef2 :=
  { dx := dx, dy := dy, fx := dx, fy := dy, xdc := fun _ => -gamma * diff, ydc := fun _ => -gamma * diff,
    m := fun _ => 1, sf := fun _ => 1, rhs := rhs }

/-- `PhaseTemperatureFACOps::setOperatorCoefficients`, source/PhaseTemperatureFACOps.cc:31-46: diffusion `- L eps^2`, mobility
`M/cp` (`computePhaseTemperatureMobility`, source/QuatMobilityStrategy.cc:16-27). -/
noncomputable def phaseTempCoef (dx dy eps latent : ℝ) (M cp C : ℤ × ℤ → ℝ) : Coef2 :=
  { dx := dx, dy := dy, fx := dx, fy := dy, xdc := fun _ => -latent * eps * eps, ydc := fun _ => -latent * eps * eps,
    m := fun p => M p / cp p, sf := C, rhs := fun _ => 0 }

/-- `accumopvarsca2d`, source/fortran/2d/ellipticfacops.m4:448-492. -/
noncomputable def accumOp (K : Coef2) (F G : ℤ × ℤ → ℝ) (accum : ℝ) (u : ℤ × ℤ → ℝ) (p : ℤ × ℤ) : ℝ :=
  accum - K.m p * (1 / K.dx * (F (p.1 + 1, p.2) - F p) + 1 / K.dy * (G (p.1, p.2 + 1) - G p)) - K.sf p * u p

/-- `multiplyDTDPhiBlock` = `evaluateRHS`, source/PhaseTemperatureFACOps.cc:172-176, source/EllipticFACOps.cc:2279-2291:
output set to zero, then the operator accumulated. -/
noncomputable def timesDTDPhi (K : Coef2) (dphi : ℤ × ℤ → ℝ) (p : ℤ × ℤ) : ℝ :=
  accumOp K (K.xflux dphi) (K.yflux dphi) 0 dphi p

/-- The phase block, source/QuatIntegrator.cc:3408-3423 (one order parameter, no dependence on temperature): `z` has
zero residual for the right-hand side `r`. -/
def PhaseSolved (dx dy eps gamma : ℝ) (M C : ℤ × ℤ → ℝ) (cells : Set (ℤ × ℤ)) (r z : ℤ × ℤ → ℝ) : Prop :=
  ∀ p ∈ cells, (phaseCoef dx dy eps gamma M C r).levelResidual z p = 0

/-- The temperature block with `precond_has_dTdphi`, source/QuatIntegrator.cc:3488-3541: right-hand side
`r + gamma * (block times phase correction)`.  `zphi` is the phase correction with the ghost values filled by
`evaluateRHS`. -/
def TempSolved (dx dy diff gamma : ℝ) (K : Coef2) (cells : Set (ℤ × ℤ)) (r zphi z : ℤ × ℤ → ℝ) : Prop :=
  ∀ p ∈ cells, (tempCoef dx dy diff gamma (fun p => gamma * timesDTDPhi K zphi p + r p)).levelResidual z p = 0

/-- Without it: right-hand side `r`. -/
def TempSolvedPlain (dx dy diff gamma : ℝ) (cells : Set (ℤ × ℤ)) (r z : ℤ × ℤ → ℝ) : Prop :=
  ∀ p ∈ cells, (tempCoef dx dy diff gamma r).levelResidual z p = 0

end AMPE.Precond
