import Verif.Model.EnergyReport
import Verif.Model.QuatFlow
import Verif.Model.PhaseRHS

/-!
# Orientation energy and orientation force on the phase (source/fortran/2d/quatenergy.m4: `quatenergy`; source/fortran/2d/quatrhs.m4:
`computerhspbg`; source/fortran/2d/quatgrad.m4: `quatgrad_modulus`, `quatgrad_modulus_from_sides_compact`;
source/PhaseRHSStrategyWithQ.cc, source/TwoPhasesEnergyEvaluationStrategy.cc, source/QuatGradModulusStrategy.cc)

2D, one order parameter, one level.
-/

namespace AMPE.GrainEnergy

open AMPE.Functions AMPE.Flux AMPE.PhaseRHS AMPE.EnergyReport AMPE.QuatFlow AMPE.Tagging AMPE.OrientSolve

/-- The run's parameters: `H` is the input `H_parameter`; energy and rate are both called with `2 H`
(source/TwoPhasesEnergyEvaluationStrategy.cc:158, source/PhaseRHSStrategyWithQ.cc:251). -/
structure Params where
  H : ℝ
  epsQ : ℝ
  floorType : Char
  floor : ℝ
  interp1 : Char
  interp2 : Char
  avg : Char

/-- `o2` on the x sides before the floor is added: sum over the two directions and all components,
source/fortran/2d/quatenergy.m4:287-292. -/
noncomputable def sideSqX {n : ℕ} (g : SideGrad n) : Field2 := fun i j =>
  acc (fun m => g.xx i j m * g.xx i j m) + acc (fun m => g.yx i j m * g.yx i j m)

/-- The same on the y sides, source/fortran/2d/quatenergy.m4:311-316. -/
noncomputable def sideSqY {n : ℕ} (g : SideGrad n) : Field2 := fun i j =>
  acc (fun m => g.xy i j m * g.xy i j m) + acc (fun m => g.yy i j m * g.yy i j m)

/-- One cell of the orientation energy, source/fortran/2d/quatenergy.m4:282-336. -/
noncomputable def orientEnergyCell (P : Params) (sX sY T phi : Field2) (i j : ℤ) : Option ℝ := do
  let wx ← faceW P.interp1 P.avg (phi (i - 1) j) (phi i j)
  let wx1 ← faceW P.interp1 P.avg (phi i j) (phi (i + 1) j)
  let wy ← faceW P.interp1 P.avg (phi i (j - 1)) (phi i j)
  let wy1 ← faceW P.interp1 P.avg (phi i j) (phi i (j + 1))
  some (orientCell2 (floor2 P.floorType P.floor) (T i j) (2 * P.H) (sX i j) (sX (i + 1) j) (sY i j) (sY i (j + 1))
    wx wx1 wy wy1)

/-- One cell of the second orientation energy, source/fortran/2d/quatenergy.m4:346-366. -/
noncomputable def qintEnergyCell (P : Params) (sX sY phi : Field2) (i j : ℤ) : Option ℝ := do
  let p ← interpFunc P.interp2 (phi i j)
  some ((sX i j + sX (i + 1) j + sY i j + sY i (j + 1)) * 0.25 * (0.5 * P.epsQ * P.epsQ) * p)

/-- `total_energy` of `quatenergy` and `bulkenergy` for one patch with orientations (`misorientation_factor > 0`,
source/fortran/2d/quatenergy.m4:277) and without anisotropy: `energy2` and the two orientation energies. -/
noncomputable def grainEnergy (P : Params) (interp : Char) (eps scale dx dy : ℝ) (fl fa : Field2) (weight : ℤ × ℤ → ℝ)
    (lo0 hi0 lo1 hi1 : ℤ) (sX sY T u : Field2) : Option ℝ := do
  let cells := loop2 lo0 hi0 lo1 hi1
  let a ← energy2 interp eps scale dx dy fl fa weight lo0 hi0 lo1 hi1 u
  let b ← accumulate (fun c => orientEnergyCell P sX sY T u c.1 c.2) weight cells
  let d ← accumulate (fun c => qintEnergyCell P sX sY u c.1 c.2) weight cells
  some (a + b + d)

/-- `quatgrad_modulus`, source/fortran/2d/quatgrad.m4:882-920: used with `quat_grad_modulus_type = "cells"`, the default
(source/QuatIntegrator.cc:2813-2817). -/
noncomputable def modCells {n : ℕ} (gx gy : QField n) : Field2 := fun i j =>
  Real.sqrt ((List.finRange n).foldl (fun s m => s + gx i j m * gx i j m + gy i j m * gy i j m) 0)

/-- `quatgrad_modulus_from_sides_compact`, source/fortran/2d/quatgrad.m4:825-877: used with every other value
(source/QuatIntegrator.cc:2819-2823). -/
noncomputable def modCompact {n : ℕ} (g : SideGrad n) : Field2 := fun i j =>
  Real.sqrt (0.5 * (acc (fun m => g.xx i j m * g.xx i j m) + acc (fun m => g.xx (i + 1) j m * g.xx (i + 1) j m)
    + acc (fun m => g.yy i j m * g.yy i j m) + acc (fun m => g.yy i (j + 1) m * g.yy i (j + 1) m)))

/-- The modulus in a run without symmetry, from the orientations: `computeQuatGradients`, source/QuatIntegrator.cc:2782-2826. -/
noncomputable def modulus {n : ℕ} (cells : Bool) (hx hy : ℝ) (q : QField n) : Field2 :=
  let dX := qdiffX (fun _ _ => id) q
  let dY := qdiffY (fun _ _ => id) q
  if cells then modCells (qgradCellX hx (fun _ _ => id) dX) (qgradCellY hy (fun _ _ => id) dY)
  else modCompact (sideGrad false hx hy (RotOps.plain n) dX dY dX dY)

/-- `PhaseRHSStrategyWithQ::evaluateRHS` before the mobility is applied, with orientations
(source/PhaseRHSStrategyWithQ.cc:205-276, source/fortran/2d/quatrhs.m4:266-405): `mod` is the cell array of moduli. -/
noncomputable def grainRate (P : Params) (interp : Char) (scale dx dy : ℝ) (f0 f1 fl fa T mod phi : Field2) (i j : ℤ) :
    Option ℝ := do
  let r ← pbgCell 'd' 'd' interp P.interp1 P.interp2 scale 0 (2 * P.H) P.epsQ false true (div2 dx dy f0 f1 i j) (phi i j) 0
    (T i j) (mod i j)
  fenergyCell interp (fl i j) (fa i j) (phi i j) r

/-- The parameters handed to `compute_face_coef2d` (source/QuatIntegrator.cc:496-502, source/QuatFaceCoeff.cc:95-121). -/
def Params.coef (P : Params) (diffAvg : Char) : CoefParams :=
  ⟨P.epsQ, 2 * P.H, P.floor, P.floorType, P.interp1, P.interp2, diffAvg⟩

end AMPE.GrainEnergy
