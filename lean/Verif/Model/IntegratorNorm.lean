import Verif.Model.ScalarDiag
import Mathlib.Analysis.Real.Sqrt

/-! # Norms and tolerances of the time integrator

The vector handed to CVODE has one entry per slot (component and depth of it: order parameters, temperature, compositions,
quaternion, source/QuatIntegrator.cc:1623-1670) and cell of every patch of every level, covered cells included.  Every
component is added with the same control volume array `d_weight_id`, computed by `QuatModel::computeVectorWeights`
(C39, `Model/Weights.lean`).  SAMRAI is trusted for the sums its vector class is documented to return (comments of
source/samrai/Sundials_SAMRAIVector.h:165-205, repeated from there); CVODE for the documented meaning of the scalar
tolerances, of the norm factor and of the tolerance it hands to the preconditioner.  Reductions over processes are sums over
all patches. -/

namespace AMPE.IntegratorNorm

open AMPE.Weights AMPE.ScalarDiag

variable {D n : ℕ}

/-- A vector: slot, level, cell. -/
abbrev Vec (D n : ℕ) := Fin n → Comp D

/-- `Sundials_SAMRAIVector::dotWith`, source/samrai/Sundials_SAMRAIVector.cc:156-159: every product is multiplied by the control
volume of the cell. -/
noncomputable def dot (dx0 : Fin D → ℝ) (levels : List (Level D)) (x y : Vec D n) : ℝ :=
  ∑ s, integral dx0 (fun l c => x s l c * y s l c) levels

/-- `pointwiseMultiply`, source/samrai/Sundials_SAMRAIVector.cc:126-131. -/
def prod (x y : Vec D n) : Vec D n := fun s l c => x s l c * y s l c

/-- `setToScalar`, source/samrai/Sundials_SAMRAIVector.cc:106-109. -/
def const (a : ℝ) : Vec D n := fun _ _ _ => a

/-- `weightedRMSNorm`, source/samrai/Sundials_SAMRAIVector.cc:177-181: weighted L2 norm (:171-175) over the square root of the sum of
the control volumes, one per entry. -/
noncomputable def wrms (dx0 : Fin D → ℝ) (levels : List (Level D)) (x w : Vec D n) : ℝ :=
  Real.sqrt (∑ s, integral dx0 (fun l c => (w s l c * x s l c) ^ 2) levels) /
    Real.sqrt (∑ _s : Fin n, totalWeight dx0 levels)

/-- Error weights of `CVodeSStolerances(mem, d_relative_tolerance, d_absolute_tolerance_scalar)`,
source/samrai/CVODESolver.cc:180-181, with the values of source/QuatIntegrator.cc:1577-1578. -/
noncomputable def errorWeights (rtol atol : ℝ) (y : Vec D n) : Vec D n := fun s l c => 1 / (rtol * |y s l c| + atol)

/-- Test of the local error of a step. -/
def accepts (dx0 : Fin D → ℝ) (levels : List (Level D)) (rtol atol : ℝ) (y err : Vec D n) : Prop :=
  wrms dx0 levels err (errorWeights rtol atol y) ≤ 1

/-- Factor from the norm of the step test to the norm of the Krylov solver: `CVodeSetLSNormFactor(d_cvode_mem, -1.0)`,
source/samrai/CVODESolver.cc:243, makes CVODE take the root of the dot product of the vector of ones with itself. -/
noncomputable def normFactor (n : ℕ) (dx0 : Fin D → ℝ) (levels : List (Level D)) : ℝ :=
  Real.sqrt (dot dx0 levels (const 1 : Vec D n) (const 1))

/-- Tolerance of the Krylov solver, and the `delta` handed on to the preconditioner: `eps` in the norm of the step test times the
factor above. -/
noncomputable def delta (n : ℕ) (eps : ℝ) (dx0 : Fin D → ℝ) (levels : List (Level D)) : ℝ := eps * normFactor n dx0 levels

/-- Stopping test of `SUNSPGMR` (source/samrai/CVODESolver.cc:183): L2 norm of the residual scaled by the error weights. -/
def krylovStops (eps : ℝ) (dx0 : Fin D → ℝ) (levels : List (Level D)) (w r : Vec D n) : Prop :=
  Real.sqrt (dot dx0 levels (prod w r) (prod w r)) ≤ delta n eps dx0 levels

/-- Sum over all cells of all patches without control volumes. -/
noncomputable def plainSum (f : Comp D) (levels : List (Level D)) : ℝ := (levels.map fun l => levelSum l fun _ c => f l c).sum

/-- Norm of the multigrid residual, `residual.RMSNorm()`, source/EllipticFACOps.cc:1784, source/QuatFACOps.cc:1220: the vectors are
made without control volumes (`vol_id = -1`, source/EllipticFACSolver.cc:323-324, :345, :364; `weight_id = -1`,
source/QuatSysSolver.cc:411, :438, :464), so that the norm is the root mean square over all entries. `m` slots. -/
noncomputable def facNorm {m : ℕ} (levels : List (Level D)) (r : Vec D m) : ℝ :=
  Real.sqrt ((∑ s, plainSum (fun l c => r s l c ^ 2) levels) / (∑ _s : Fin m, plainSum (fun _ _ => 1) levels))

/-- Loop condition of `FACPreconditioner::solveSystem`, source/samrai/FACPreconditioner.cc:409-410, with the tolerance
`setResidualTolerance(delta)` of source/QuatIntegrator.cc:3424, 3516, 3574, 3631 and no relative tolerance (default -1,
source/samrai/FACPreconditioner.cc:90-91): no further cycle. -/
def facStops {m : ℕ} (del : ℝ) (levels : List (Level D)) (r : Vec D m) : Prop := facNorm levels r ≤ del

/-- What CVODE asks of a preconditioner that solves iteratively: scaled norm of its residual at most `delta`. -/
def precondContract (del : ℝ) (dx0 : Fin D → ℝ) (levels : List (Level D)) (w r : Vec D n) : Prop :=
  Real.sqrt (dot dx0 levels (prod w r) (prod w r)) ≤ del

end AMPE.IntegratorNorm
