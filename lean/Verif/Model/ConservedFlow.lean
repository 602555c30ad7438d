import Verif.Model.Flux
import Verif.Model.PhaseRHS
import Verif.Model.Interface

/-! # Composition rates of the Cahn-Hilliard and sintering models (2D, one patch)

A patch box is given by its first and last indices; the rate is read at a cell of the patch.  Coarse-fine synchronisation of
fluxes is not repeated here (C31). -/

namespace AMPE.ConservedFlow

open AMPE.Flux AMPE.PhaseRHS AMPE.Interface

/-- Composition rate of the Cahn-Hilliard model: `CahnHilliardDoubleWell::computeFluxOnPatch`
(source/CahnHilliardDoubleWell.cc:66-107, `flux->fillAll(0.)`), created with mobility 1
(source/CompositionRHSStrategyFactory.h:79-85), then `computerhsconcentration` with `d_conc_mobility`
(source/QuatIntegrator.cc:2655-2669). -/
noncomputable def chRate (f0 l0 f1 l1 : ℤ) (dx dy mobility ca cb wellScale kappa : ℝ) (conc : Field2) : Field2 :=
  let mu := muCH ca cb wellScale kappa dx dy conc
  rhs2 dx dy mobility (fun i j => scatterX f0 l0 f1 l1 dx 1 (fun _ _ => 1) mu (fun _ => 0) (i, j))
    (fun i j => scatterY f0 l0 f1 l1 dy 1 (fun _ _ => 1) mu (fun _ => 0) (i, j))

/-- Composition rate of the sintering model: `WangSinteringCompositionRHSStrategy::computeFluxOnPatch`
(source/WangSinteringCompositionRHSStrategy.cc:82-146), created with `conc_mobility()`
(source/CompositionRHSStrategyFactory.h:86-95), then `computerhsconcentration` with `d_conc_mobility`
(source/QuatIntegrator.cc:2655-2669), the same parameter (source/QuatModel.cc:866-869). -/
noncomputable def sinterConcRate (f0 l0 f1 l1 : ℤ) (dx dy mobility a b betaRho : ℝ) (d0 d1 : Field2) (norder : ℕ) (conc : Field2)
    (phi : ℕ → Field2) : Field2 :=
  let mu := muWang a b betaRho dx dy norder conc phi
  rhs2 dx dy mobility (fun i j => scatterX f0 l0 f1 l1 dx mobility d0 mu (fun _ => 0) (i, j))
    (fun i j => scatterY f0 l0 f1 l1 dy mobility d1 mu (fun _ => 0) (i, j))

/-- Order-parameter rate of the sintering model, times the phase mobility: source/SinteringUWangRHSStrategy.cc:190-238. -/
noncomputable def sinterPhaseRate (n : ℕ) (eps b dx dy : ℝ) (mob : Field2) (conc : Field2) (phi : ℕ → Field2) (p : Fin n) : Field2 :=
  fun i j => sinterRate n false eps b dx dy conc (fun k => phi (k.val + 1)) p i j * mob i j

end AMPE.ConservedFlow
