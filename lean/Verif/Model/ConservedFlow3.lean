import Verif.Model.AlloyFlow3
import Verif.Model.ConservedFlow

/-!
# Cahn-Hilliard and sintering models in three dimensions

The routines of source/fortran/3d/concentrationrhs.m4, concentrationdiffusion.m4 and sintering.m4 (same directory).  The Fortran text has
one copy of each statement per direction; here a direction is an element of `Fin 3`.  A patch is given by its first and last cell; the
loops go over the patch grown by one cell.  Coarse-fine synchronisation of fluxes is not repeated here (C31).
-/

namespace AMPE.ConservedFlow3

open AMPE.Functions AMPE.Flux AMPE.PhaseRHS AMPE.DiffCoeff AMPE.Interface AMPE.AlloyFlow3
open AMPE.QuatFlow3 (Cell mv)

/-- `lap`, source/fortran/3d/concentrationrhs.m4:145-150, 250-255. -/
noncomputable def lap3 (h : Fin 3 → ℝ) (c : Cell → ℝ) (p : Cell) : ℝ :=
  ∑ d, 1 / h d * (1 / h d) * (-2 * c p + c (mv d (-1) p) + c (mv d 1 p))

/-- Chemical potential of `add_cahnhilliarddoublewell_flux`, source/fortran/3d/concentrationrhs.m4:152-154. -/
noncomputable def muCH3 (ca cb wellScale kappa : ℝ) (h : Fin 3 → ℝ) (conc : Cell → ℝ) (p : Cell) : ℝ :=
  2 * wellScale * (conc p - ca) * (cb - conc p) * (cb + ca - 2 * conc p) - kappa * lap3 h conc p

/-- Chemical potential of `add_wang_sintering_flux`, source/fortran/3d/concentrationrhs.m4:256-260; the sums over the order parameters
are accumulated at 220-247. -/
noncomputable def muWang3 (a b kappa : ℝ) (h : Fin 3 → ℝ) (n : ℕ) (conc : Cell → ℝ) (phi : Fin n → Cell → ℝ) (p : Cell) : ℝ :=
  2 * a * conc p * (1 - conc p) * (1 - 2 * conc p)
    + 2 * b * (conc p - 3 * (∑ k, phi k p * phi k p) + 2 * (∑ k, phi k p * phi k p * phi k p)) - kappa * lap3 h conc p

/-- `array(k) = array(k) + v`. -/
def addAt3 (f : Cell → ℝ) (k : Cell) (v : ℝ) : Cell → ℝ := fun x => if x = k then f x + v else f x

/-- The cells of the patch `lo`..`hi` grown by one: `do ic2 = ifirst2-1, ilast2+1` and so on. -/
def grown (lo hi : Cell) : List Cell :=
  loop3 (lo.1 - 1) (hi.1 + 1) (lo.2.1 - 1) (hi.2.1 + 1) (lo.2.2 - 1) (hi.2.2 + 1)

/-- The sides of direction `d` in the loop of `add_cahnhilliarddoublewell_flux` (source/fortran/3d/concentrationrhs.m4:144-172, there
without coefficient) and of `add_wang_sintering_flux` (249-282): every cell adds to its lower side and subtracts from its upper one. -/
noncomputable def scatter3 (lo hi : Cell) (hd mobility : ℝ) (diff mu : Cell → ℝ) (d : Fin 3) (flux : Cell → ℝ) : Cell → ℝ :=
  (grown lo hi).foldl (fun f c => addAt3 (addAt3 f c (mobility * diff c * (1 / hd) * mu c)) (mv d 1 c)
    (-(mobility * diff (mv d 1 c) * (1 / hd) * mu c))) flux

/-- Composition rate of the Cahn-Hilliard model, as `ConservedFlow.chRate`: source/CahnHilliardDoubleWell.cc:66-107,
source/CompositionRHSStrategyFactory.h:79-85, source/QuatIntegrator.cc:2655-2669, with `computerhsconcentration` in 3D. -/
noncomputable def chRate3 (lo hi : Cell) (h : Fin 3 → ℝ) (mobility ca cb wellScale kappa : ℝ) (conc : Cell → ℝ) : Cell → ℝ :=
  soluteRate h mobility fun d => scatter3 lo hi (h d) 1 (fun _ => 1) (muCH3 ca cb wellScale kappa h conc) d (fun _ => 0)

/-- Composition rate of the sintering model, as `ConservedFlow.sinterConcRate`: source/WangSinteringCompositionRHSStrategy.cc:82-146,
source/CompositionRHSStrategyFactory.h:86-95, source/QuatIntegrator.cc:2655-2669. -/
noncomputable def sinterConcRate3 (lo hi : Cell) (h : Fin 3 → ℝ) (mobility a b betaRho : ℝ) (diff : Fin 3 → Cell → ℝ) (n : ℕ)
    (conc : Cell → ℝ) (phi : Fin n → Cell → ℝ) : Cell → ℝ :=
  soluteRate h mobility fun d => scatter3 lo hi (h d) mobility (diff d) (muWang3 a b betaRho h n conc phi) d (fun _ => 0)

/-- Order-parameter rate of the sintering model, times the phase mobility: source/SinteringUWangRHSStrategy.cc:190-238 with
`computerhs_wang_sintering`, source/fortran/3d/sintering.m4:16-112. -/
noncomputable def sinterPhaseRate3 (n : ℕ) (eps b : ℝ) (h : Fin 3 → ℝ) (mob conc : Cell → ℝ) (phi : Fin n → Cell → ℝ) (k : Fin n)
    (p : Cell) : ℝ :=
  wangRate n eps b (conc p) (fun k => phaseDiv (fluxEpsilon n false eps) h (phi k) p) (fun k => phi k p) k * mob p

/-! ## Coefficients of the sintering model -/

/-- Adding `v(cell)` to both sides of direction `d` of all cells of the grown patch. -/
noncomputable def spread3 (lo hi : Cell) (v : Cell → ℝ) (d : Fin 3) (diff : Cell → ℝ) : Cell → ℝ :=
  (grown lo hi).foldl (fun f c => addAt3 (addAt3 f c (v c)) (mv d 1 c) (v c)) diff

/-- The additions of one cell in `add_ab_diffusion`, source/fortran/3d/concentrationdiffusion.m4:1232-1270, called with
`same_phase = 1`. -/
noncomputable def cellD3 (n : ℕ) (d0c : ℝ) (phi : Fin n → Cell → ℝ) (p : Cell) : ℝ :=
  ((phasePairs n n true).map fun ab => dAB d0c (if g : ab.1 < n then phi ⟨ab.1, g⟩ p else 0) (if g : ab.2 < n then phi ⟨ab.2, g⟩ p else 0)).sum

/-- `WangSinteringCompositionDiffusionStrategy::setDiffusion`, source/WangSinteringCompositionDiffusionStrategy.cc:87-172: grain
boundaries (`add_ab_diffusion`) and surfaces (`add_ab_diffusion_single`, source/fortran/3d/concentrationdiffusion.m4:1148-1195) added to
`base`, which `concentration_pfmdiffusion_scalar` (130-199) has left in the array. -/
noncomputable def sinterCoef3 (lo hi : Cell) (d0LA d0AA : ℝ) (n : ℕ) (conc : Cell → ℝ) (phi : Fin n → Cell → ℝ) (base : Fin 3 → Cell → ℝ)
    (d : Fin 3) : Cell → ℝ :=
  spread3 lo hi (fun c => dSingle d0LA (conc c)) d (spread3 lo hi (cellD3 n d0AA phi) d (base d))

end AMPE.ConservedFlow3
