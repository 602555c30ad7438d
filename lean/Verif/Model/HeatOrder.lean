import Verif.Model.Thermal
import Verif.Model.PhaseBounds

/-!
# The two equations for the temperature on a mesh

source/QuatIntegrator.cc (`evaluateTemperatureRHS`), source/SimpleTemperatureRHSStrategy.cc, source/MovingFrameRHS.cc: the rate of the
temperature followed in time.  source/SteadyStateTemperatureGaussianSource.cc, source/SteadyStateTemperatureCompositionSource.cc,
source/TemperatureFACOps.cc: the system solved for the steady temperature.  `double` is ℝ; one level.
-/

namespace AMPE.HeatOrder

open AMPE.Flux AMPE.PhaseBounds
open AMPE.Thermal (laplacian2 laplacian3 rhsTemp2 rhsTemp3)

/-- `QuatIntegrator::evaluateTemperatureRHS`, source/QuatIntegrator.cc:2550-2566: `computerhstemp` and the term of the moving frame, 2D. -/
noncomputable def heatRate2 (fr : Frame) (dx dy diff L : ℝ) (withPhase : Bool) (T cp phiRhs : Field2) (i j : ℤ) : ℝ :=
  rhsTemp2 dx dy diff L withPhase T cp phiRhs i j + frameTerm fr dx (fun a => T a j) i

/-- source/QuatIntegrator.cc:2550-2566, 3D. -/
noncomputable def heatRate3 (fr : Frame) (dx dy dz diff L : ℝ) (withPhase : Bool) (T cp phiRhs : Field3) (i j k : ℤ) : ℝ :=
  rhsTemp3 dx dy dz diff L withPhase T cp phiRhs i j k + frameTerm fr dx (fun a => T a j k) i

/-- Left-hand side of the steady system, `m div(d grad T) + c T` with `m = 1`, `c = 0`, `d = -1 * D`:
source/SteadyStateTemperatureCompositionSource.cc:53-56, source/SteadyStateTemperatureGaussianSource.cc:110-114,
source/TemperatureFACOps.cc:30-44; on one level with a constant `d` the divergence of the flux is the five-point Laplacian. -/
noncomputable def steadyLhs2 (dx dy D : ℝ) (T : Field2) (i j : ℤ) : ℝ := laplacian2 dx dy (-1 * D) T i j

/-- What is prescribed on a side of the domain (`LocationIndexRobinBcCoefs` of SAMRAI, made from the input `BoundaryConditions`):
`a T + b dT/dn = g`; `g` may depend on the index along the side. -/
structure Side where
  a : ℝ
  b : ℝ
  g : ℤ → ℝ

/-- The value put in a ghost cell next to a cell of value `u` for a mesh size `h`: `settype1cells` of SAMRAI, called in
source/CartesianRobinBcHelperWithDepth.cc:233-306. -/
noncomputable def Side.ghost (s : Side) (h u : ℝ) (n : ℤ) : ℝ :=
  (h * s.g n + (s.b - h * s.a / 2) * u) / (s.b + h * s.a / 2)

/-- The four sides of a domain. -/
structure Sides where
  west : Side
  east : Side
  south : Side
  north : Side

/-- The field with the ghost cells filled, for a domain of the cells `0..nx-1`, `0..ny-1`; the corners are not read by the stencil. -/
noncomputable def fill (S : Sides) (dx dy : ℝ) (nx ny : ℤ) (x : Field2) : Field2 := fun i j =>
  if 0 ≤ i ∧ i < nx ∧ 0 ≤ j ∧ j < ny then x i j
  else if i < 0 then S.west.ghost dx (x 0 j) j
  else if nx ≤ i then S.east.ghost dx (x (nx - 1) j) j
  else if j < 0 then S.south.ghost dy (x i 0) i
  else S.north.ghost dy (x i (ny - 1)) i

end AMPE.HeatOrder
