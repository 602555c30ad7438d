import Verif.Model.AlloyFlow
import Verif.Model.QuatFlow3

/-!
# An isothermal alloy in three dimensions

The routines of source/fortran/3d/flux.m4, concentrationrhs.m4, concentrationdiffusion.m4 and quatenergy.m4 (same directory) as they are
called for one order parameter, one composition, no orientation, one level, no moving frame, one temperature for all cells.  Fields are
functions of the cell (`QuatFlow3.Cell`); a side of direction `d` is named by the cell above it.
-/

namespace AMPE.AlloyFlow3

open AMPE.Functions AMPE.Flux AMPE.PhaseRHS AMPE.DiffCoeff AMPE.Coupling AMPE.AlloyFlow
open AMPE.QuatFlow3 (Cell mv)

/-- A field of cells with its three indices as arguments. -/
def f3 (u : Cell → ℝ) : Field3 := fun i j k => u (i, j, k)

/-- The two cells next to a side, lower one first. -/
def sides (u : Cell → ℝ) (d : Fin 3) (p : Cell) : Pair := (u (mv d (-1) p), u p)

/-- `computerhspbg` input: divergence of the phase flux (`PhaseRHS.gradFlux3X` and so on). -/
noncomputable def phaseDiv (eps : ℝ) (h : Fin 3 → ℝ) (phi : Cell → ℝ) (p : Cell) : ℝ :=
  PhaseRHS.div3 (h 0) (h 1) (h 2) (gradFlux3X eps (h 0) (f3 phi)) (gradFlux3Y eps (h 1) (f3 phi)) (gradFlux3Z eps (h 2) (f3 phi))
    p.1 p.2.1 p.2.2

/-- `PhaseRHSStrategyWithQ::evaluateRHS` in one cell, source/PhaseRHSStrategyWithQ.cc:242-300, with the routines of
source/fortran/3d/quatrhs.m4:12-66, 357-516: interfacial part with the well 'd', driving force, product with the mobility of the cell. -/
noncomputable def phaseRate (kind : Kind) (ty : Char) (E : Energies) (eps scale : ℝ) (h : Fin 3 → ℝ) (vmL vmA : ℝ)
    (mob phi cl ca : Cell → ℝ) (p : Cell) : Option ℝ :=
  (pbgCell 'd' 'd' ty 'c' 'c' scale 0 0 0 false false (phaseDiv eps h phi p) (phi p) 0 0 0).bind fun r =>
    (drive kind ty E vmL vmA (phi p) (cl p) (ca p)).map fun d => mob p * (r + d)

/-- Flux of `EBSCompositionRHSStrategy::computeFluxOnPatch` with the regular stencil, two phases, one composition:
source/EBSCompositionRHSStrategy.cc:231-291. -/
noncomputable def ebs (h : Fin 3 → ℝ) (dl da : Fin 3 → Cell → ℝ) (cl ca : Cell → ℝ) : Fin 3 → Cell → ℝ
  | 0, p => addFlux3X (h 0) 1 (fun _ => f3 ca) (fun _ => f3 (da 0))
      (addFlux3X (h 0) 1 (fun _ => f3 cl) (fun _ => f3 (dl 0)) (fun _ _ _ _ => 0)) 1 p.1 p.2.1 p.2.2
  | 1, p => addFlux3Y (h 1) 1 (fun _ => f3 ca) (fun _ => f3 (da 1))
      (addFlux3Y (h 1) 1 (fun _ => f3 cl) (fun _ => f3 (dl 1)) (fun _ _ _ _ => 0)) 1 p.1 p.2.1 p.2.2
  | 2, p => addFlux3Z (h 2) 1 (fun _ => f3 ca) (fun _ => f3 (da 2))
      (addFlux3Z (h 2) 1 (fun _ => f3 cl) (fun _ => f3 (dl 2)) (fun _ _ _ _ => 0)) 1 p.1 p.2.1 p.2.2

/-- Coefficients of the sum over the phases: `concentration_pfmdiffusion_of_temperature`,
source/fortran/3d/concentrationdiffusion.m4:310-424. -/
noncomputable def twoPhases (it at_ : Char) (R : ℝ) (l s : Arrhenius) (phi temp : Cell → ℝ) : Fin 3 → Cell → Option (ℝ × ℝ)
  | 0, p => twoPhaseX3 it at_ R l s (f3 phi) (f3 temp) p.1 p.2.1 p.2.2
  | 1, p => twoPhaseY3 it at_ R l s (f3 phi) (f3 temp) p.1 p.2.1 p.2.2
  | 2, p => twoPhaseZ3 it at_ R l s (f3 phi) (f3 temp) p.1 p.2.1 p.2.2

/-- `concentrationflux`, source/fortran/3d/concentrationrhs.m4:14-98: the three blocks differ in the direction only. -/
noncomputable def concentrationFlux (h : Fin 3 → ℝ) (conc phi : Cell → ℝ) (diff coupl : ℝ) (d : Fin 3) (p : Cell) : ℝ :=
  1 / h d * (diff * (conc p - conc (mv d (-1) p)) + coupl * (phi p - phi (mv d (-1) p)))

/-- Flux in phase-gradient form: `concentration_pfmdiffusion` (source/fortran/3d/concentrationdiffusion.m4:14-124), the coupling
coefficient of source/KKSCompositionRHSStrategy.cc:272-372 (z sides: 342-372), `concentrationflux`.  The arrays are addressed with their
own ghost boxes, so they are given as fields. -/
noncomputable def kks (it at_ : Char) (R : ℝ) (l s : Arrhenius) (h : Fin 3 → ℝ) (temp phi cl ca conc : Cell → ℝ) (d : Fin 3) (p : Cell) :
    Option ℝ :=
  (kksDiff it at_ R l s (sides phi d p) (sides temp d p)).bind fun df =>
    (kksCoef it at_ df (sides phi d p).swap (sides cl d p).swap (sides ca d p).swap).map fun cp =>
      concentrationFlux h conc phi df cp d p

/-- `computerhsconcentration`, source/fortran/3d/concentrationrhs.m4:412-453. -/
noncomputable def soluteRate (h : Fin 3 → ℝ) (m : ℝ) (f : Fin 3 → Cell → ℝ) (p : Cell) : ℝ :=
  rhs3 (h 0) (h 1) (h 2) m (f3 (f 0)) (f3 (f 1)) (f3 (f 2)) p.1 p.2.1 p.2.2

/-- The energy reported for a patch: `PhaseRHS.energy3` with the energies of the phases, source/fortran/3d/quatenergy.m4:143-553. -/
noncomputable def energy (ty : Char) (E : Energies) (eps scale : ℝ) (h : Fin 3 → ℝ) (vmL vmA w : ℝ) (N : Fin 3 → ℕ) (lo : Cell)
    (phi cl ca : Cell → ℝ) : Option ℝ :=
  energy3 ty eps scale (h 0) (h 1) (h 2) (fun i j k => fLiquid E vmL (cl (i, j, k))) (fun i j k => fSolid E vmA (ca (i, j, k)))
    (fun _ => w) lo.1 (lo.1 + N 0 - 1) lo.2.1 (lo.2.1 + N 1 - 1) lo.2.2 (lo.2.2 + N 2 - 1) (f3 phi)

end AMPE.AlloyFlow3
