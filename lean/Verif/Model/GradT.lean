import Verif.Model.Coefficients
import Verif.Model.Flux
import Verif.Model.Functions
import Verif.Model.Selection

/-! # Optional terms of the solute flux: thermal diffusion and anti-trapping

Which class computes the flux is decided by source/CompositionRHSStrategyFactory.h; the terms are requested by the keys
`gradT_Q0`, `gradT_Q1` and `antitrapping`. A `TBOX_ERROR` is `none`. -/

namespace AMPE.GradT

open AMPE.Selection AMPE.Coefficients AMPE.Functions AMPE.Flux

/-- Optional terms of the flux. -/
inductive Term | thermal | antitrapping
  deriving DecidableEq

/-- Keys of the `ConcentrationModel` block: heats of transport and the anti-trapping switch. -/
structure Keys where
  q0 : Option ℝ
  q1 : Option ℝ
  antitrapping : Option Bool

/-- `with_gradT()`, `Q_heat_transport` and `with_antitrapping()`, source/QuatModelParameters.cc:299-307, 319: `none` is the
error of `getDouble` for a missing key. -/
def readTerms (k : Keys) : Option (Option (ℝ × ℝ) × Bool) :=
  match k.q0 with
  | some q0 => k.q1.map fun q1 => (some (q0, q1), k.antitrapping.getD false)
  | none => some (none, k.antitrapping.getD false)

/-- The class built by `CompositionRHSStrategyFactory::create`, source/CompositionRHSStrategyFactory.h:45-107. -/
inductive Cls | kks | ebs | beckermann | cahnHilliard | sintering | ebsGradT
  deriving DecidableEq

def build (m : ConcModel) (r : Rhs) : Option Cls :=
  if r = .kks then some .kks
  else if r = .ebs then some .ebs
  else if r = .beckermann then some .beckermann
  else if r = .cahnHilliard then some .cahnHilliard
  else if m = .wangSintering then some .sintering
  else none

/-- Classes that override the virtual function adding the term; the others inherit the `TBOX_ERROR` of
source/CompositionRHSStrategy.cc:25-52. source/EBSCompositionRHSStrategy.h:42, source/EBSCompositionRHSStrategyWithGradT.h:68
(which inherits the anti-trapping term). -/
def overrides : Cls → Term → Bool
  | .ebs, .antitrapping => true
  | .ebsGradT, .antitrapping => true
  | .ebsGradT, .thermal => true
  | _, _ => false

/-- One virtual call. -/
def addTerm (c : Cls) (t : Term) (acc : List Term) : Option (List Term) :=
  if overrides c t then some (acc ++ [t]) else none

/-- Terms added after `computeFluxOnPatch` in `QuatIntegrator::evaluateConcentrationRHS`, source/QuatIntegrator.cc:2603-2613. -/
def evaluateTerms (c : Cls) (gradT antitrapping : Bool) : Option (List Term) := do
  let acc ← if gradT then addTerm c .thermal [] else some []
  if antitrapping then addTerm c .antitrapping acc else some acc

/-! ## The thermal-diffusion class -/

/-- Methods called while the coefficients are set in a class derived from `EBSCompositionRHSStrategy`. -/
inductive Method | setDiffusionCoeff | setDiffusionCoeffForT | setBase

/-- Calls made by a method of `EBSCompositionRHSStrategyWithGradT`, source/EBSCompositionRHSStrategyWithGradT.cc:56-69:
`this->setDiffusionCoeff` resolves to the method itself. -/
def calls : Method → List Method
  | .setDiffusionCoeff => [.setDiffusionCoeffForT, .setDiffusionCoeff]
  | .setDiffusionCoeffForT => []
  | .setBase => []

/-- Execution with a call depth of at most `n`: `true` when every call returns. -/
def returns : ℕ → Method → Bool
  | 0, _ => false
  | n + 1, m => (calls m).all (returns n)

/-- Contribution of one phase, source/EBSCompositionRHSStrategyWithGradT.cc:285-296; `M` is
`computeDiffusionMobilityBinaryPhase` of the phase at the temperature of the face. -/
noncomputable def phaseMq (M : ℝ → ℝ) (q0 q1 c : ℝ) : ℝ := c * (1 - c) * (M c * q0 - M (1 - c) * q1)

/-- `ptr_dx_mq` on a face with two phases, source/EBSCompositionRHSStrategyWithGradT.cc:265-310: `phi` is the average of the
order parameter; the interpolation is always `'l'`. The third phase (312-327) is left out. -/
noncomputable def faceMq (ML MA : ℝ → ℝ) (q0 q1 phi cl ca : ℝ) : Option ℝ :=
  (interpFunc 'l' phi).map fun h => (1 - h) * phaseMq ML q0 q1 cl + h * phaseMq MA q0 q1 ca

end AMPE.GradT
