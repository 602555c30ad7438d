import Verif.Model.PhaseRHS
import Mathlib.Algebra.BigOperators.Fin

/-!
# Differences, gradients and refinement tags

Arrays are functions of integer indices (as in `Verif.Model.Flux`); a loop that writes each entry once is written
as the function of the entry.  The tag array is written by loops, modelled as folds over the loop's cells, because
several routines write the same array in turn.
-/

namespace AMPE.Tagging

open AMPE.Flux

/-! ## Differences and gradients -/

/-- `diffs`, source/fortran/2d/quatdiffs.m4:14-48, x component (side `(i,j)` lies between cells `i-1` and `i`). -/
def diffX (v : Field2) : Field2 := fun i j => v i j - v (i - 1) j

/-- The y component, source/fortran/2d/quatdiffs.m4:42-46. -/
def diffY (v : Field2) : Field2 := fun i j => v i j - v i (j - 1)

/-- `grad_cell`, source/fortran/2d/grad.m4:11-52, x component. -/
noncomputable def gradCellX (h : ℝ) (dX : Field2) : Field2 := fun i j => (dX (i + 1) j + dX i j) * (0.5 / h)

/-- `grad_cell`, y component, source/fortran/2d/grad.m4:44-49. -/
noncomputable def gradCellY (h : ℝ) (dY : Field2) : Field2 := fun i j => (dY i (j + 1) + dY i j) * (0.5 / h)

/-- `grad_side`, source/fortran/2d/grad.m4:56-124: x gradient on x sides, line 99. -/
noncomputable def sideXX (hx : ℝ) (dX : Field2) : Field2 := fun i j => 1 / hx * dX i j

/-- y gradient on x sides, source/fortran/2d/grad.m4:102-105. -/
noncomputable def sideYX (hy : ℝ) (dY : Field2) : Field2 := fun i j =>
  0.25 * (1 / hy) * (dY (i - 1) (j + 1) + dY (i - 1) j + dY i (j + 1) + dY i j)

/-- x gradient on y sides, source/fortran/2d/grad.m4:113-117. -/
noncomputable def sideXY (hx : ℝ) (dX : Field2) : Field2 := fun i j =>
  0.25 * (1 / hx) * (dX (i + 1) (j - 1) + dX i (j - 1) + dX (i + 1) j + dX i j)

/-- y gradient on y sides, source/fortran/2d/grad.m4:119. -/
noncomputable def sideYY (hy : ℝ) (dY : Field2) : Field2 := fun i j => 1 / hy * dY i j

/-- `grad_side_isotropic`, x gradient on x sides, source/fortran/2d/grad.m4:172-176. -/
noncomputable def isoXX (hx : ℝ) (dX : Field2) : Field2 := fun i j =>
  1 / hx / 12 * (dX i (j - 1) + dX i j * 10 + dX i (j + 1))

/-- `grad_side_isotropic`, y gradient on y sides, source/fortran/2d/grad.m4:196-200. As written: the neighbours are `j ± 1`. -/
noncomputable def isoYY (hy : ℝ) (dY : Field2) : Field2 := fun i j =>
  1 / hy / 12 * (dY i (j - 1) + dY i j * 10 + dY i (j + 1))

/-- `quatgrad_side_isotropic`, source/fortran/2d/quatgrad.m4:232-305, one component, x gradient on x sides. -/
noncomputable def qisoXX (hx : ℝ) (dX : Field2) : Field2 := fun i j =>
  1 / hx / 12 * (10 * dX i j + dX i (j - 1) + dX i (j + 1))

/-- The same, y gradient on y sides (source/fortran/2d/quatgrad.m4:296-297). -/
noncomputable def qisoYY (hy : ℝ) (dY : Field2) : Field2 := fun i j =>
  1 / hy / 12 * (10 * dY i j + dY (i - 1) j + dY (i + 1) j)

/-- Orientation components at one place. -/
abbrev QVec (n : ℕ) := Fin n → ℝ

/-- Orientation field, `depth = n` components per cell. -/
abbrev QField (n : ℕ) := ℤ → ℤ → QVec n

/-- `quatdiffs` (source/fortran/2d/quatdiffs.m4:54-97) and `quatdiffs_symm` (99-155), x component: `S i j` is the symmetry rotation of
side `(i,j)` (`quatsymmrotate` with `iqrot_x(i,j)`); the plain routine has `S i j = id`. -/
def qdiffX {n : ℕ} (S : ℤ → ℤ → QVec n → QVec n) (q : QField n) : QField n := fun i j => q i j - S i j (q (i - 1) j)

/-- The y component. -/
def qdiffY {n : ℕ} (S : ℤ → ℤ → QVec n → QVec n) (q : QField n) : QField n := fun i j => q i j - S i j (q i (j - 1))

/-- `quatgrad_cell` (source/fortran/2d/quatgrad.m4:12-55) and `quatgrad_cell_symm` (59-153), x component: the right difference is
rotated back by `R` (`iq = -iqrot`); the plain routine has `R = id`. -/
noncomputable def qgradCellX {n : ℕ} (h : ℝ) (R : ℤ → ℤ → QVec n → QVec n) (dX : QField n) : QField n :=
  fun i j m => (R (i + 1) j (dX (i + 1) j) m + dX i j m) * (0.5 / h)

/-- The y component. -/
noncomputable def qgradCellY {n : ℕ} (h : ℝ) (R : ℤ → ℤ → QVec n → QVec n) (dY : QField n) : QField n :=
  fun i j m => (R i (j + 1) (dY i (j + 1)) m + dY i j m) * (0.5 / h)

/-! ## Tags -/

/-- `tags(ii,jj) = refine_tag_val` over a loop where `g .ge. tol_sq`; `refine_tag_val` is the C++ `true`, 1
(source/QuatModel.cc:3532, 3563, 3597). -/
noncomputable def tagLoop {ι : Type} [DecidableEq ι] (cells : List ι) (g : ι → ℝ) (tol : ℝ) (tags : ι → ℤ) : ι → ℤ :=
  cells.foldl (fun t c => if g c ≥ tol * tol then Function.update t c 1 else t) tags

/-- `tagfromgrads`, source/fortran/2d/quattag.m4:9-55. -/
noncomputable def tagFromGrads (lo0 hi0 lo1 hi1 : ℤ) (gx gy : Field2) (hx hy tol : ℝ) (tags : ℤ × ℤ → ℤ) :
    ℤ × ℤ → ℤ :=
  tagLoop (loop2 lo0 hi0 lo1 hi1)
    (fun c => gx c.1 c.2 * hx * (gx c.1 c.2 * hx) + gy c.1 c.2 * hy * (gy c.1 c.2 * hy)) tol tags

/-- `tagfromquatgrads`, source/fortran/2d/quattag.m4:59-110; `g` is accumulated over the components. -/
noncomputable def tagFromQuatGrads {n : ℕ} (lo0 hi0 lo1 hi1 : ℤ) (gx gy : QField n) (hx hy tol : ℝ)
    (tags : ℤ × ℤ → ℤ) : ℤ × ℤ → ℤ :=
  tagLoop (loop2 lo0 hi0 lo1 hi1)
    (fun c => (List.finRange n).foldl (fun g m =>
      g + gx c.1 c.2 m * hx * (gx c.1 c.2 m * hx) + gy c.1 c.2 m * hy * (gy c.1 c.2 m * hy)) 0) tol tags

/-- One `TaggingCriteria` entry of the input: `threshold_tagged` and `threshold_untagged`. -/
structure Threshold where
  tagged : ℝ
  untagged : ℝ

/-- The `TaggingCriteria` database: sub-databases `Phi`, `Eta`, `Orient`. -/
structure CriteriaDb where
  phi : Option Threshold
  eta : Option Threshold
  orient : Option Threshold

/-- `QuatModel::initializeAmr`, source/QuatModel.cc:242-281 (members start false, 490-492): a criterion is enabled when its
sub-database exists and, for `Eta` and `Orient`, the model has that field. -/
def initializeAmr (thirdPhase orientation : Bool) (db : Option CriteriaDb) : CriteriaDb :=
  match db with
  | none => ⟨none, none, none⟩
  | some d => ⟨d.phi, if thirdPhase then d.eta else none, if orientation then d.orient else none⟩

/-- The fields of one patch: `phase k` is order parameter `k` (scratch array depth). -/
structure Fields (n : ℕ) where
  phase : ℕ → Field2
  eta : Field2
  quat : QField n

/-- `applyGradientDetector` and `tagGradientDetectorCells`, source/QuatModel.cc:3437-3600, one patch in 2D: clear the tags
(3488), then one pass per enabled criterion. `DIFFS` is called with `getPointer()` (source/HierarchyStencilOps.cc:147), the
first component of the phase array. The orientation passes use the rotations `SX`, `SY` and their inverses `RX`, `RY`
(identity when the model is not symmetry aware). Filling of ghost cells (`copyCurrentToScratch`) is not modelled. -/
noncomputable def tagPatch {n : ℕ} (cfg : CriteriaDb) (SX SY RX RY : ℤ → ℤ → QVec n → QVec n)
    (lo0 hi0 lo1 hi1 : ℤ) (hx hy : ℝ) (f : Fields n) : ℤ × ℤ → ℤ :=
  let tags : ℤ × ℤ → ℤ := fun _ => 0
  let tags := match cfg.phi with
    | some t => tagFromGrads lo0 hi0 lo1 hi1 (gradCellX hx (diffX (f.phase 0))) (gradCellY hy (diffY (f.phase 0)))
        hx hy t.untagged tags
    | none => tags
  let tags := match cfg.eta with
    | some t => tagFromGrads lo0 hi0 lo1 hi1 (gradCellX hx (diffX f.eta)) (gradCellY hy (diffY f.eta))
        hx hy t.untagged tags
    | none => tags
  match cfg.orient with
  | some t => tagFromQuatGrads lo0 hi0 lo1 hi1 (qgradCellX hx RX (qdiffX SX f.quat))
      (qgradCellY hy RY (qdiffY SY f.quat)) hx hy t.untagged tags
  | none => tags

/-! ## 3D -/

/-- `diffs` and `grad_cell` in 3D (source/fortran/3d/quatdiffs.m4:14-60, source/fortran/3d/grad.m4:11-68), composed: component `d`
of the cell gradient at `c`. `shift c d s` is the cell `s` steps away in direction `d`. -/
def shift (c : ℤ × ℤ × ℤ) (d : Fin 3) (s : ℤ) : ℤ × ℤ × ℤ :=
  match d with
  | 0 => (c.1 + s, c.2.1, c.2.2)
  | 1 => (c.1, c.2.1 + s, c.2.2)
  | 2 => (c.1, c.2.1, c.2.2 + s)

/-- Difference on the lower side of `c` in direction `d`. -/
def diff3 (v : ℤ × ℤ × ℤ → ℝ) (d : Fin 3) (c : ℤ × ℤ × ℤ) : ℝ := v c - v (shift c d (-1))

/-- `grad_cell`, source/fortran/3d/grad.m4:11-68. -/
noncomputable def gradCell3 (h : Fin 3 → ℝ) (v : ℤ × ℤ × ℤ → ℝ) (d : Fin 3) (c : ℤ × ℤ × ℤ) : ℝ :=
  (diff3 v d (shift c d 1) + diff3 v d c) * (0.5 / h d)

/-- `tagfromgrads`, source/fortran/3d/quattag.m4:9-58. -/
noncomputable def tagFromGrads3 (lo0 hi0 lo1 hi1 lo2 hi2 : ℤ) (h : Fin 3 → ℝ) (v : ℤ × ℤ × ℤ → ℝ) (tol : ℝ)
    (tags : ℤ × ℤ × ℤ → ℤ) : ℤ × ℤ × ℤ → ℤ :=
  tagLoop (AMPE.PhaseRHS.loop3 lo0 hi0 lo1 hi1 lo2 hi2)
    (fun c => gradCell3 h v 0 c * h 0 * (gradCell3 h v 0 c * h 0) + gradCell3 h v 1 c * h 1 * (gradCell3 h v 1 c * h 1)
      + gradCell3 h v 2 c * h 2 * (gradCell3 h v 2 c * h 2)) tol tags

end AMPE.Tagging
