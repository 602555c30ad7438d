import Verif.Model.PhaseBounds

/-!
# The rates of three phases, all terms

`ThreePhasesRHSStrategy::evaluateRHS` (source/ThreePhasesRHSStrategy.cc:146-264) followed by the moving frame term
(source/QuatIntegrator.cc:2524-2527; source/MovingFrameRHS.cc:71-131, every component).  The tilting functions are those of Folch
and Plapp, the only ones a run can have (source/FreeEnergyStrategyFactory.h:104-133).
-/

namespace AMPE.ThreeBounds

open AMPE.Functions AMPE.Flux AMPE.PhaseRHS AMPE.PhaseBounds

/-- Rate of phase `p` in a cell before the moving frame term: interface and wells (source/ThreePhasesRHSStrategy.cc:201-212), driving
force (lines 219-238; source/CALPHADFreeEnergyStrategyBinaryThreePhase.cc:637-659), mobility (lines 245-263).  `w` is `f - mu c` in
each phase. -/
noncomputable def cellRate3 (scale mob : ℝ) (diff phi w : Fin 3 → ℝ) (p : Fin 3) : ℝ :=
  (threeCell scale diff phi p + threeDriving fpD00 fpD01 phi (w 0) (w 1) (w 2) p) * mob

/-- The rate in 2D. -/
noncomputable def rateThree2 (st : Stencil) (fr : Frame) (eps scale dx dy : ℝ) (mob : Field2) (w phi : Fin 3 → Field2) (p : Fin 3) (i j : ℤ) : ℝ :=
  cellRate3 scale (mob i j) (fun k => diffTerm2 st eps dx dy (phi k) i j) (fun k => phi k i j) (fun k => w k i j) p
    + frameTerm fr dx (fun a => phi p a j) i

/-- The rate in 3D (source/fortran/3d/quatrhs.m4:518-620; the isotropic stencil stops the run). -/
noncomputable def rateThree3 (fr : Frame) (eps scale dx dy dz : ℝ) (mob : Field3) (w phi : Fin 3 → Field3) (p : Fin 3) (i j k : ℤ) : ℝ :=
  cellRate3 scale (mob i j k)
    (fun m => div3 dx dy dz (gradFlux3X eps dx (phi m)) (gradFlux3Y eps dy (phi m)) (gradFlux3Z eps dz (phi m)) i j k)
    (fun m => phi m i j k) (fun m => w m i j k) p
    + frameTerm fr dx (fun a => phi p a j k) i

end AMPE.ThreeBounds
