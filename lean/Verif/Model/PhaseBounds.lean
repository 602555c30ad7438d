import Verif.Model.PhaseRHS
import Verif.Model.Alloy

/-!
# The rate of one order parameter, all terms

`PhaseRHSStrategyWithQ::evaluateRHS` (source/PhaseRHSStrategyWithQ.cc:150-310) followed by the moving frame term of
`QuatIntegrator::evaluatePhaseRHS` (source/QuatIntegrator.cc:2524-2527; source/MovingFrameRHS.cc:61-131).  Put together from the
cell routines of `Model/PhaseRHS.lean`.  Not included: noise (C103), third phase through `eta` (dead code), anisotropic interface
energy (C63).
-/

namespace AMPE.PhaseBounds

open AMPE.Functions AMPE.Flux AMPE.PhaseRHS AMPE.Alloy

/-- What the free energy strategy of the run contributes in a cell (source/FreeEnergyStrategyFactory.h:60-222). -/
inductive Force where
  /-- no strategy (`d_free_energy_strategy` null) -/
  | none
  /-- `PhaseFreeEnergyStrategy`, `TemperatureFreeEnergyStrategy`: energies of liquid and solid. -/
  | energies (fl fa : ℝ)
  /-- `DeltaTemperatureFreeEnergyStrategy`; `w` is the weighted temperature of the cell. -/
  | melting (tm latent w : ℝ)
  /-- `QuadraticFreeEnergyStrategy`. -/
  | quadratic (vmL : ℝ) (dfL : ℝ → ℝ) (fl fa cl ca : ℝ)
  /-- `CALPHADFreeEnergyStrategyBinary`, `KKSdiluteBinary`. -/
  | calphad (vmA : ℝ) (dfA : ℝ → ℝ) (fl fa cl ca : ℝ)
  /-- `CALPHADFreeEnergyStrategyTernary`. -/
  | ternary (vmA : ℝ) (dfA : ℝ × ℝ → ℝ × ℝ) (fl fa : ℝ) (cl ca : ℝ × ℝ)
  /-- `BiasDoubleWellUTRCFreeEnergyStrategy`. -/
  | bias (alpha gamma te temp : ℝ)
  /-- `BiasDoubleWellBeckermannFreeEnergyStrategy`. -/
  | biasBeckermann (alpha te temp : ℝ)

/-- `addDrivingForce` in a cell: source/fortran/2d/quatrhs.m4:587-632, 810-941, source/QuadraticFreeEnergyStrategy.cc:500-530,
source/CALPHADFreeEnergyStrategyBinary.cc:638-683, source/CALPHADFreeEnergyStrategyTernary.cc:546-566. -/
noncomputable def addForce (interp : Char) (f : Force) (phi rhs : ℝ) : Option ℝ :=
  match f with
  | .none => some rhs
  | .energies fl fa => fenergyCell interp fl fa phi rhs
  | .melting tm latent w => (derivInterpFunc interp phi).map fun hp => rhs + latent / tm * (tm - w) * hp
  | .quadratic vmL dfL fl fa cl ca => (driveQuadratic interp vmL dfL phi fl fa cl ca).map fun d => rhs + d
  | .calphad vmA dfA fl fa cl ca => (driveCalphad interp vmA dfA phi fl fa cl ca).map fun d => rhs + d
  | .ternary vmA dfA fl fa cl ca => (driveTernary interp vmA dfA phi fl fa cl ca).map fun d => rhs + d
  | .bias alpha gamma te temp => some (rhs + biasWell alpha gamma te temp phi)
  | .biasBeckermann alpha te temp => some (rhs + biasWellBeckermann alpha te temp phi)

/-- Constants of a run: interpolation of the energies and of the orientation term (`orient_interp_func_type1`, `2`), well scale,
`2 H`, `epsilon_q`, `evolve_quat`. -/
structure Setting where
  interp : Char
  o1 : Char
  o2 : Char
  scale : ℝ
  misor : ℝ
  epsq : ℝ
  orient : Bool

/-- The rate in a cell before the moving frame term: source/PhaseRHSStrategyWithQ.cc:242-300.  `diff` is the divergence of the phase
flux, `ogm` the modulus of the orientation gradient. -/
noncomputable def cellRate (S : Setting) (f : Force) (mob diff phi temp ogm : ℝ) : Option ℝ :=
  (pbgCell 'd' 'd' S.interp S.o1 S.o2 S.scale 0 S.misor S.epsq false S.orient diff phi 0 temp ogm).bind fun r =>
    (addForce S.interp f phi r).map fun r => mob * r

/-- `PhaseFluxStrategySimple` or `PhaseFluxStrategyIsotropic` (source/PhaseFluxStrategyFactory.h:29-33). -/
inductive Stencil where
  | simple
  | isotropic

/-- Divergence of the phase flux in 2D. -/
noncomputable def diffTerm2 (st : Stencil) (eps dx dy : ℝ) (phi : Field2) (i j : ℤ) : ℝ :=
  match st with
  | .simple => div2 dx dy (gradFluxX eps dx phi) (gradFluxY eps dy phi) i j
  | .isotropic => div2 dx dy (isoFluxX eps dx phi) (isoFluxY eps dy phi) i j

/-- The moving frame: no term, `add_vdphidx_2nd` or `add_vdphidx_upwind3` (source/MovingFrameRHS.cc:15-67). -/
inductive Frame where
  | fixed
  | centred (vel : ℝ)
  | upwind (vel : ℝ) (physb : Bool) (ilast : ℤ)

/-- What the moving frame adds in cell `i` of a row. -/
noncomputable def frameTerm (fr : Frame) (dx : ℝ) (row : ℤ → ℝ) (i : ℤ) : ℝ :=
  match fr with
  | .fixed => 0
  | .centred vel => convect dx vel row i
  | .upwind vel physb ilast => convectUpwind3 dx vel row physb ilast i

/-- The rate of the phase in a cell, 2D. -/
noncomputable def rate2 (S : Setting) (st : Stencil) (fr : Frame) (eps dx dy : ℝ) (f : ℤ → ℤ → Force) (mob temp ogm phi : Field2)
    (i j : ℤ) : Option ℝ :=
  (cellRate S (f i j) (mob i j) (diffTerm2 st eps dx dy phi i j) (phi i j) (temp i j) (ogm i j)).map fun r =>
    r + frameTerm fr dx (fun a => phi a j) i

/-- The rate of the phase in a cell, 3D (source/fortran/3d/quatrhs.m4:12-64, 357-516; the isotropic stencil stops the run, lines 89-91). -/
noncomputable def rate3 (S : Setting) (st : Stencil) (fr : Frame) (eps dx dy dz : ℝ) (f : ℤ → ℤ → ℤ → Force) (mob temp ogm phi : Field3)
    (i j k : ℤ) : Option ℝ :=
  match st with
  | .isotropic => none
  | .simple =>
    (cellRate S (f i j k) (mob i j k) (div3 dx dy dz (gradFlux3X eps dx phi) (gradFlux3Y eps dy phi) (gradFlux3Z eps dz phi) i j k)
      (phi i j k) (temp i j k) (ogm i j k)).map fun r => r + frameTerm fr dx (fun a => phi a j k) i

end AMPE.PhaseBounds
