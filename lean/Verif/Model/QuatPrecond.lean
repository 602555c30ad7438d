import Verif.Model.QuatFlow
import Verif.Model.OrientSolve
import Verif.Model.LevelSolve

/-! # Preconditioner of the time integrator: orientation block and order of the blocks (2D)

One level, one component of the orientation.  The multigrid solver is modelled by what it computes when it converges exactly: a
field with zero residual (`LevelSolve.QuatLevel.residual`). -/

namespace AMPE.QuatPrecond

open AMPE.Functions AMPE.Quat AMPE.Tagging AMPE.QuatFlow AMPE.OrientSolve AMPE.LevelSolve

/-- `compute_flux2d`, source/fortran/2d/quatfacops.m4:173-230, x faces. -/
noncomputable def fluxX (hx : ℝ) (fc q : Cell → ℝ) (c : Cell) : ℝ := fc c * (1 / hx) * (q c - q (c.1 - 1, c.2))
/-- The same, y faces. -/
noncomputable def fluxY (hy : ℝ) (fc q : Cell → ℝ) (c : Cell) : ℝ := fc c * (1 / hy) * (q c - q (c.1, c.2 - 1))

/-- `add_quat_op2d`, source/fortran/2d/quatfacops.m4:487-540: the new value of `rhs(i,j,m)`. -/
noncomputable def addOp (hx hy : ℝ) (mobility : Cell → ℝ) (F G : Cell → ℝ) (rhs : ℝ) (c : Cell) : ℝ :=
  let divergence := (F (c.1 + 1, c.2) - F c) * (1 / hx) + (G (c.1, c.2 + 1) - G c) * (1 / hy)
  rhs - mobility c * divergence

/-- `quatdiffusionderiv`, source/fortran/2d/quatdiffusion.m4:11-150, one face (called with `2 H` for the misorientation factor,
source/DerivDiffusionCoeffForQuat.cc:129-147). -/
noncomputable def coefDeriv {n : ℕ} (P : CoefParams) (phi1 phi2 temp1 temp2 : ℝ) (gx gy : QVec n) : Option (ℝ × ℝ) :=
  if phi1 < threshold ∨ phi2 < threshold then some (0, 0)
  else do
    let phi ← averageFunc P.avg phi1 phi2
    let t := 0.5 * (temp1 + temp2)
    let dp ← derivInterpFunc P.interp1 phi
    let dDeriv := P.misorientation * t * dp
    let gradNorm2 := acc (fun m => gx m ^ 2) + acc (fun m => gy m ^ 2)
    let gradNormi ← evalGradNormi P.floorType gradNorm2 (P.gradientFloor ^ 2) (1 / P.gradientFloor)
    let fac := gradNormi * dDeriv
    let d1 ← derivAverageFunc P.avg phi phi1
    let d2 ← derivAverageFunc P.avg phi phi2
    some (fac * d1, fac * d2)

/-- `compute_dquatdphi_face_coef2d`, source/fortran/2d/quatfacops.m4:124-171, one face. -/
def coupleCoef (d : ℝ × ℝ) (z1 z2 : ℝ) : ℝ := -d.1 * z1 - d.2 * z2

/-- The coefficients made from the phase correction, x faces and y faces. -/
def coupleX (dX : Cell → ℝ × ℝ) (z : Cell → ℝ) (c : Cell) : ℝ := coupleCoef (dX c) (z (c.1 - 1, c.2)) (z c)
@[inherit_doc coupleX]
def coupleY (dY : Cell → ℝ × ℝ) (z : Cell → ℝ) (c : Cell) : ℝ := coupleCoef (dY c) (z (c.1, c.2 - 1)) (z c)

/-- `multiplyDQuatDPhiBlock`, source/QuatFACOps.cc:1892-1958, one level: output 0; operator with the derivative of the mobility;
times the phase correction (`multicomponent_multiply2d`, source/fortran/2d/quatfacops.m4:1020-1047); operator with the array
`d_sqrt_m_id` as mobility and the coefficients made from the phase correction. -/
noncomputable def block (hx hy : ℝ) (mDeriv sqrtM : Cell → ℝ) (fc : Off) (dX dY : Cell → ℝ × ℝ) (q z : Cell → ℝ) (c : Cell) : ℝ :=
  let out := addOp hx hy mDeriv (fluxX hx fc.x q) (fluxY hy fc.y q) 0 c
  let out := out * z c
  addOp hx hy sqrtM (fluxX hx (coupleX dX z) q) (fluxY hy (coupleY dY z) q) out c

/-- Right-hand side of the orientation solve, source/QuatIntegrator.cc:3607-3631 (`axpy(rhs, gamma, rhs, r)` or a copy). -/
def quatRhs (coupled : Bool) (gamma : ℝ) (product r : Cell → ℝ) (c : Cell) : ℝ :=
  if coupled then gamma * product c + r c else r c

open Classical in
/-- `QuatFACOps::setOperatorCoefficients`, source/QuatFACOps.cc:735-827: aborts when a mobility is not positive; keeps `gamma`, the
face coefficients and the square root of the mobility (`take_square_root2d`, source/fortran/2d/quatfacops.m4:999-1018). -/
noncomputable def setCoefs (hx hy gamma : ℝ) (cells : Finset Cell) (M : Cell → ℝ) (fc : Off) : Option QuatLevel :=
  if ∃ c ∈ cells, M c ≤ 0 then none
  else some { hx := hx, hy := hy, gamma := gamma, fc := fc, m := fun c => Real.sqrt (M c) }

/-- `QuatSysSolver::solveSystem`, source/QuatSysSolver.cc:290-348: the right-hand side is divided by `sqrt_m`
(`divideMobilitySqrt`, source/QuatFACOps.cc:2318-2383), the system is solved, the solution is multiplied by `sqrt_m`, ghost cells
included (`multiplyMobilitySqrt`, source/QuatFACOps.cc:2277-2315). -/
def Solved (L : QuatLevel) (cells : Finset Cell) (rhs z : Cell → ℝ) : Prop :=
  ∃ u : Cell → ℝ, (∀ c ∈ cells, L.residual (fun c => rhs c / L.m c) u c = 0) ∧ ∀ c, z c = u c * L.m c

/-! ## Order of the blocks -/

/-- The blocks of `CVSpgmrPrecondSolve`. -/
inductive Block
  | temperature | phase | eta | quat | concentration
  deriving DecidableEq, Repr

/-- What decides which blocks run. -/
structure Config where
  withPhase : Bool
  withThird : Bool
  evolveQuat : Bool
  unsteadyT : Bool
  withConc : Bool
  dPhidT : Bool
  dTdphi : Bool
  dquatdphi : Bool
  deriving DecidableEq

/-- The order of the blocks for `lr = 1` or `2`, source/QuatIntegrator.cc:3694-3762. -/
def order (g : Config) : List Block :=
  (if g.unsteadyT && g.dPhidT then [.temperature] else []) ++ (if g.withPhase then [.phase] else [])
    ++ (if g.withThird then [.eta] else []) ++ (if g.evolveQuat then [.quat] else [])
    ++ (if g.unsteadyT && !g.dPhidT then [.temperature] else []) ++ (if g.withConc then [.concentration] else [])

/-- The corrections a block reads: `d_phase_sol_id` (source/QuatIntegrator.cc:3494-3502, 3607-3613), `d_temperature_sol_id`
(source/QuatIntegrator.cc:3408-3417). -/
def reads (g : Config) : Block → List Block
  | .temperature => if g.dTdphi then [.phase] else []
  | .phase => if g.dPhidT then [.temperature] else []
  | .quat => if g.dquatdphi then [.phase] else []
  | _ => []

/-- The return code: every block that ran combines its own with `(converged == 0 && retcode == 0) ? 0 : 1`, starting from 0
(source/QuatIntegrator.cc:3685-3762); another `lr` copies the vector and returns 0. -/
def retcode (lr : ℤ) (codes : List ℤ) : ℤ :=
  if lr = 1 ∨ lr = 2 then codes.foldl (fun rc converged => if converged = 0 ∧ rc = 0 then 0 else 1) 0 else 0

/-- `PhasePrecondSolve`, source/QuatIntegrator.cc:3425-3443: one solve per order parameter, all into the one-component array
`d_phase_sol_id`, whose final content is what the coupled blocks read; `none` when nothing was solved. -/
def phaseSol {α : Type*} (corrections : List α) : Option α :=
  corrections.foldl (fun _ z => some z) none

end AMPE.QuatPrecond
