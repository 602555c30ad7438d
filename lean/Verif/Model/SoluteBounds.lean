import Verif.Model.AlloyFlow3
import Verif.Model.PhaseBounds

/-!
# The rate of the composition, all terms

`QuatIntegrator::evaluateConcentrationRHS` (source/QuatIntegrator.cc:2578-2691): flux of the composition strategy, anti-trapping current,
divergence, moving frame.  Put together from the face routines of `Model/Flux.lean`, `Model/Coupling.lean` and `Model/AlloyFlow3.lean`.
One level (the flux of a finer level, lines 2616-2620, is C99).  Not included: thermal diffusion (C90), rigid body motion (C57), the
fourth-order models (C82, C120).
-/

namespace AMPE.SoluteBounds

open AMPE.Functions AMPE.Flux AMPE.DiffCoeff AMPE.Coupling AMPE.PhaseBounds

/-- The stencils of `EBSCompositionRHSStrategy` (source/EBSCompositionRHSStrategy.cc:149-154); `order4` with the first and last cells of
the patch and its sides on the boundary of the domain (238-255). -/
inductive Scheme where
  | regular
  | isotropic
  | order4 (lo0 hi0 lo1 hi1 : ℤ) (xlo xhi ylo yhi : Bool)

/-- One call of `d_add_flux`, x faces. -/
noncomputable def addX (s : Scheme) (dx : ℝ) (depth : ℕ) (data d flux : ℕ → Field2) (i : ℕ) : Field2 :=
  match s with
  | .regular => addFluxX dx depth data d flux i
  | .isotropic => addFluxIsoX dx depth data d flux i
  | .order4 lo0 hi0 _ _ xlo xhi _ _ => addFlux4X lo0 hi0 xlo xhi dx depth data d flux i

/-- One call of `d_add_flux`, y faces. -/
noncomputable def addY (s : Scheme) (dy : ℝ) (depth : ℕ) (data d flux : ℕ → Field2) (i : ℕ) : Field2 :=
  match s with
  | .regular => addFluxY dy depth data d flux i
  | .isotropic => addFluxIsoY dy depth data d flux i
  | .order4 _ _ lo1 hi1 _ _ ylo yhi => addFlux4Y lo1 hi1 ylo yhi dy depth data d flux i

/-- Anti-trapping: `alpha`, phase and its rate. -/
structure Trap where
  alpha : ℝ
  phase : Field2
  dphidt : Field2

/-- `computeFluxOnPatch` of two phases (source/EBSCompositionRHSStrategy.cc:192-292), then `addFluxFromAntitrappingonPatch` (519-532),
x faces of one species. -/
noncomputable def fluxX (s : Scheme) (tr : Option Trap) (dx dy : ℝ) (depth : ℕ) (dl da cl ca : ℕ → Field2) (i : ℕ) : Field2 :=
  let f := addX s dx depth ca da (addX s dx depth cl dl (fun _ _ _ => 0)) i
  match tr with
  | none => f
  | some a => addAntitrap2X dx dy a.alpha a.phase (cl i) (ca i) a.dphidt f

/-- The same on y faces. -/
noncomputable def fluxY (s : Scheme) (tr : Option Trap) (dx dy : ℝ) (depth : ℕ) (dl da cl ca : ℕ → Field2) (i : ℕ) : Field2 :=
  let f := addY s dy depth ca da (addY s dy depth cl dl (fun _ _ _ => 0)) i
  match tr with
  | none => f
  | some a => addAntitrap2Y dx dy a.alpha a.phase (cl i) (ca i) a.dphidt f

/-- The rate of species `sp` with the sum over the phases, 2D: source/QuatIntegrator.cc:2603-2669, 2679-2681. -/
noncomputable def rate2 (s : Scheme) (tr : Option Trap) (fr : Frame) (dx dy mob : ℝ) (depth : ℕ) (dl0 dl1 da0 da1 c cl ca : ℕ → Field2)
    (sp : ℕ) : Field2 := fun i j =>
  rhs2 dx dy mob (fluxX s tr dx dy depth dl0 da0 cl ca sp) (fluxY s tr dx dy depth dl1 da1 cl ca sp) i j
    + frameTerm fr dx (fun a => c sp a j) i

/-- The same in 3D, regular stencil, no anti-trapping. -/
noncomputable def rate3 (fr : Frame) (dx dy dz mob : ℝ) (depth : ℕ) (dl0 dl1 dl2 da0 da1 da2 c cl ca : ℕ → Field3) (sp : ℕ) : Field3 :=
  fun i j k =>
  rhs3 dx dy dz mob (addFlux3X dx depth ca da0 (addFlux3X dx depth cl dl0 (fun _ _ _ _ => 0)) sp)
    (addFlux3Y dy depth ca da1 (addFlux3Y dy depth cl dl1 (fun _ _ _ _ => 0)) sp)
    (addFlux3Z dz depth ca da2 (addFlux3Z dz depth cl dl2 (fun _ _ _ _ => 0)) sp) i j k
    + frameTerm fr dx (fun a => c sp a j k) i

/-- The rate with the flux in phase-gradient form (`KKSCompositionRHSStrategy`), 2D; `it` is the interpolation of the energies
(source/CompositionRHSStrategyFactory.h:46-54). -/
noncomputable def kksRate2 (it at_ : Char) (R : ℝ) (l s : Arrhenius) (dx dy mob : ℝ) (temp phi cl ca c : Field2) (i j : ℤ) : Option ℝ := do
  let fe ← kksFluxX it at_ R l s dx temp phi cl ca c (i + 1) j
  let fw ← kksFluxX it at_ R l s dx temp phi cl ca c i j
  let fn ← kksFluxY it at_ R l s dy temp phi cl ca c i (j + 1)
  let fs ← kksFluxY it at_ R l s dy temp phi cl ca c i j
  some (mob * (1 / dx * (fe - fw) + 1 / dy * (fn - fs)))

/-- The same in 3D. -/
noncomputable def kksRate3 (it at_ : Char) (R : ℝ) (l s : Arrhenius) (h : Fin 3 → ℝ) (mob : ℝ)
    (temp phi cl ca c : QuatFlow3.Cell → ℝ) (p : QuatFlow3.Cell) : Option ℝ := do
  let fe ← AlloyFlow3.kks it at_ R l s h temp phi cl ca c 0 (QuatFlow3.mv 0 1 p)
  let fw ← AlloyFlow3.kks it at_ R l s h temp phi cl ca c 0 p
  let fn ← AlloyFlow3.kks it at_ R l s h temp phi cl ca c 1 (QuatFlow3.mv 1 1 p)
  let fs ← AlloyFlow3.kks it at_ R l s h temp phi cl ca c 1 p
  let ft ← AlloyFlow3.kks it at_ R l s h temp phi cl ca c 2 (QuatFlow3.mv 2 1 p)
  let fb ← AlloyFlow3.kks it at_ R l s h temp phi cl ca c 2 p
  some (mob * (1 / h 0 * (fe - fw) + 1 / h 1 * (fn - fs) + 1 / h 2 * (ft - fb)))

/-- `PartitionPhaseConcentrationsStrategy` in a cell (source/PartitionPhaseConcentrationsStrategy.cc:106-137). -/
noncomputable def partitionSplit (interp : Char) (k phi c : ℝ) : Option (ℝ × ℝ) :=
  (interpFunc interp phi).map fun h =>
    let factor := 1 / (1 - h + k * h)
    (c * factor, k * c * factor)

end AMPE.SoluteBounds
