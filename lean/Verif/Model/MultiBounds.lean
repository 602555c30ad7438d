import Verif.Model.PhaseBounds

/-!
# The rates of the order parameters of grains, all terms

`MultiOrderRHSStrategy::evaluateRHS` (source/MultiOrderRHSStrategy.cc:146-255) and `SinteringUWangRHSStrategy::evaluateRHS`
(source/SinteringUWangRHSStrategy.cc:150-240), each followed by the moving frame term (source/QuatIntegrator.cc:2524-2527;
source/MovingFrameRHS.cc:71-131, every component).  Not included: the rigid body motion of sintering particles
(source/QuatIntegrator.cc:2480-2522) and noise.
-/

namespace AMPE.MultiBounds

open AMPE.Flux AMPE.PhaseRHS AMPE.PhaseBounds

/-- What the free energy strategy of a run with several order parameters contributes in a cell
(source/FreeEnergyStrategyFactory.h:60-222, the choices with `norderp > 1`). -/
inductive GrainForce where
  /-- no strategy -/
  | none
  /-- `PhaseFreeEnergyStrategy` (source/PhaseFreeEnergyStrategy.cc:120-160) and `QuadraticFreeEnergyStrategyMultiOrder`
  (source/QuadraticFreeEnergyStrategyMultiOrder.cc:461-540): liquid and solid. -/
  | two (fl fa : ℝ)
  /-- `CALPHADFreeEnergyStrategyMultiOrder` (source/CALPHADFreeEnergyStrategyMultiOrder.cc:167-241) and
  `QuadraticFreeEnergyStrategyMultiOrderTernaryThreePhase` (source/QuadraticFreeEnergyStrategyMultiOrderTernaryThreePhase.cc:455-510):
  the first `nA` order parameters in phase A, the others but the last in phase B. -/
  | three (nA : ℕ) (dfl dfa dfb : ℝ)

/-- The driving force on order parameter `p`. -/
noncomputable def drive (n : ℕ) (f : GrainForce) (phi : Fin (n + 1) → ℝ) (p : Fin (n + 1)) : ℝ :=
  match f with
  | .none => 0
  | .two fl fa => multiDriving n fl fa phi p
  | .three nA dfl dfa dfb => ternaryDriving n nA dfl dfa dfb phi p

/-- Rate in a cell before the moving frame term: interface and wells (source/MultiOrderRHSStrategy.cc:190-215;
source/fortran/2d/multiorder.m4:67-101), driving force (source/MultiOrderRHSStrategy.cc:221-233), mobility (lines 236-254). -/
noncomputable def cellRateM (n : ℕ) (gamma m mob : ℝ) (f : GrainForce) (diff phi : Fin (n + 1) → ℝ) (p : Fin (n + 1)) : ℝ :=
  (diff p + multiWell (n + 1) gamma m phi p + drive n f phi p) * mob

/-- The rate in 2D. -/
noncomputable def rateMulti2 (n : ℕ) (st : Stencil) (fr : Frame) (eps gamma m dx dy : ℝ) (mob : Field2) (f : ℤ → ℤ → GrainForce)
    (phi : Fin (n + 1) → Field2) (p : Fin (n + 1)) (i j : ℤ) : ℝ :=
  cellRateM n gamma m (mob i j) (f i j) (fun k => diffTerm2 st eps dx dy (phi k) i j) (fun k => phi k i j) p
    + frameTerm fr dx (fun a => phi p a j) i

/-- The rate in 3D (source/fortran/3d/multiorder.m4; the isotropic stencil stops the run). -/
noncomputable def rateMulti3 (n : ℕ) (fr : Frame) (eps gamma m dx dy dz : ℝ) (mob : Field3) (f : ℤ → ℤ → ℤ → GrainForce)
    (phi : Fin (n + 1) → Field3) (p : Fin (n + 1)) (i j k : ℤ) : ℝ :=
  cellRateM n gamma m (mob i j k) (f i j k)
    (fun q => div3 dx dy dz (gradFlux3X eps dx (phi q)) (gradFlux3Y eps dy (phi q)) (gradFlux3Z eps dz (phi q)) i j k) (fun q => phi q i j k) p
    + frameTerm fr dx (fun a => phi p a j k) i

/-- Sintering, 2D: source/fortran/2d/sintering.m4:16-102 and mobility, source/SinteringUWangRHSStrategy.cc:189-239. -/
noncomputable def rateSinter2 (n : ℕ) (st : Stencil) (fr : Frame) (eps beta b dx dy : ℝ) (mob conc : Field2) (phi : Fin n → Field2) (p : Fin n)
    (i j : ℤ) : ℝ :=
  wangRate n beta b (conc i j) (fun k => diffTerm2 st eps dx dy (phi k) i j) (fun k => phi k i j) p * mob i j
    + frameTerm fr dx (fun a => phi p a j) i

/-- Sintering, 3D: source/fortran/3d/sintering.m4. -/
noncomputable def rateSinter3 (n : ℕ) (fr : Frame) (eps beta b dx dy dz : ℝ) (mob conc : Field3) (phi : Fin n → Field3) (p : Fin n)
    (i j k : ℤ) : ℝ :=
  wangRate n beta b (conc i j k)
    (fun q => div3 dx dy dz (gradFlux3X eps dx (phi q)) (gradFlux3Y eps dy (phi q)) (gradFlux3Z eps dz (phi q)) i j k) (fun q => phi q i j k) p
    * mob i j k + frameTerm fr dx (fun a => phi p a j k) i

end AMPE.MultiBounds
