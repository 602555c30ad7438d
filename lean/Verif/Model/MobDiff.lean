import Verif.Model.Flux
import Verif.Model.Coefficients
import Verif.Model.DiffCoeff
import Mathlib.Algebra.BigOperators.Fin

/-!
# Diffusion with composition-dependent coefficients

`MobilityCompositionDiffusionStrategy`: on every face the product of the chemical mobility matrix and the second derivatives of
the free energy of each phase, and the flux computed from it by `add_flux`.  Second derivatives come from the external library
Thermo4PFM: they are parameters, an array of `n * n` numbers for `n` independent compositions.  Only the
x faces of two-dimensional patches are spelled out; `offset` gives the addressing in three dimensions.
-/

namespace AMPE.MobDiff

open AMPE.Flux

/-- `small_mat_mult`, source/MobilityCompositionDiffusionStrategy.cc:19-28: what entry `m = n * k + i` holds after the loops. -/
noncomputable def smallMatMult (n : ℕ) (a b : ℕ → ℝ) (m : ℕ) : ℝ :=
  ∑ j ∈ Finset.range n, a (n * (m / n) + j) * b (n * j + m % n)

/-- What the strategies return for one phase at a temperature and composition: the mobilities `d_mobmat` and the second
derivatives `d_d2f`. -/
structure Phase where
  mob : ℝ → (ℕ → ℝ) → ℕ → ℝ
  d2f : ℝ → (ℕ → ℝ) → ℕ → ℝ

/-- `computeLocalDiffusionMatrixL/A`, source/MobilityCompositionDiffusionStrategy.cc:57-96. -/
noncomputable def localD (n : ℕ) (P : Phase) (temp : ℝ) (c : ℕ → ℝ) : ℕ → ℝ :=
  smallMatMult n (P.mob temp c) (P.d2f temp c)

/-- `setDiffCoeffInEachPhaseOnPatch`, source/MobilityCompositionDiffusionStrategy.cc:291-331, x faces: entry `m` of
the coefficient array on face `(i0, i1)`.  Compositions are numbered from 1 as in the Fortran routines. -/
noncomputable def coeffX (n : ℕ) (P : Phase) (temp : Field2) (c : ℕ → Field2) (m : ℕ) : Field2 := fun i0 i1 =>
  localD n P (0.5 * (temp i0 i1 + temp (i0 - 1) i1)) (fun ic => 0.5 * (c (ic + 1) i0 i1 + c (ic + 1) (i0 - 1) i1)) m

/-- `setPFMDiffOnPatch`, source/MobilityCompositionDiffusionStrategy.cc:525-551, x faces; `w` is `1 - hphi` for the liquid and
`hphi` for phase A.  Fortran entry `m` (from 1) is entry `m - 1` of the C++ array. -/
noncomputable def pfmX (n : ℕ) (P : Phase) (w temp : Field2) (c : ℕ → Field2) (m : ℕ) : Field2 := fun i0 i1 =>
  w i0 i1 * coeffX n P temp c (m - 1) i0 i1

/-- The diffusive flux of composition `i` on the x faces: `EBSCompositionRHSStrategy::computeFluxOnPatch`,
source/EBSCompositionRHSStrategy.cc:257-291, one `add_flux` per phase, from zero. -/
noncomputable def fluxX (n : ℕ) (dx : ℝ) (L A : Phase) (h temp : Field2) (cl ca : ℕ → Field2) (i : ℕ) : Field2 :=
  addFluxX dx n ca (pfmX n A h temp ca)
    (addFluxX dx n cl (pfmX n L (fun a b => 1 - h a b) temp cl) (fun _ _ _ => 0)) i

/-- Four numbers as the array filled for a ternary alloy. -/
def arr4 (v : ℝ × ℝ × ℝ × ℝ) : ℕ → ℝ
  | 0 => v.1
  | 1 => v.2.1
  | 2 => v.2.2.1
  | 3 => v.2.2.2
  | _ => 0

/-- `CompositionStrategyMobilities::computeDiffusionMobilityPhaseL/A`, source/CompositionStrategyMobilities.cc:200-246, for a
ternary alloy. -/
noncomputable def ternaryPhase (R : ℝ) (p0 p1 p2 : Coefficients.MobParams) (d2f : ℝ → (ℕ → ℝ) → ℕ → ℝ) : Phase where
  mob T c := arr4 (Coefficients.mobilityTernary R p0 p1 p2 (c 0) (c 1) T)
  d2f := d2f

/-- Position of a face in the coefficient array, source/MobilityCompositionDiffusionStrategy.cc:296-298 (x),
338-340 (y), 373-375 (z): `nx`, `ny` are the numbers of cells of the ghost box, indices relative to its corner. -/
def offset (axis : Fin 3) (nx ny i j k : ℤ) : ℤ :=
  match axis with
  | 0 => i + j * (nx + 1) + k * (nx * ny + ny)
  | 1 => i + j * nx + k * (nx * ny + nx)
  | 2 => i + j * nx + k * (nx * ny)

/-- x faces written by the strategy, source/MobilityCompositionDiffusionStrategy.cc:291-293, 522-524. -/
def WrittenX (p : DiffCoeff.Patch) (f : ℤ × ℤ) : Prop :=
  p.lo0 ≤ f.1 ∧ f.1 ≤ p.hi0 + 1 ∧ p.lo1 ≤ f.2 ∧ f.2 ≤ p.hi1

/-- Phases with their own diffusion coefficient. -/
inductive Ph | l | a | b
  deriving DecidableEq

/-- Phases whose coefficient `setDiffusion` computes, source/MobilityCompositionDiffusionStrategy.cc:98-144. -/
def writtenPhases : List Ph := [.l, .a]

/-- Phases whose coefficient the flux computation reads, source/EBSCompositionRHSStrategy.cc:257-327. -/
def readPhases (withB : Bool) : List Ph := if withB then [.l, .a, .b] else [.l, .a]

end AMPE.MobDiff
