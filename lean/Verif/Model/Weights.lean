import Mathlib.Algebra.Order.Archimedean.Real.Basic
import Mathlib.Algebra.BigOperators.Group.Finset.Basic
import Mathlib.Order.Interval.Finset.Basic
import Mathlib.Data.Int.Interval
import Mathlib.Data.Pi.Interval

/-!
# Integration weights on an adaptive hierarchy

A cell index is a vector of integers (`D` = 2 or 3 in the code, any `D` here), a box an index interval, a level
its ratio to level zero and its patch boxes.  SAMRAI is trusted for: the mesh spacing of a patch is that of level
zero divided by the level's ratio; `BoxContainer::coarsen` divides both corners by the ratio rounding down;
`Box * Box` is intersection.  Distribution of the patches over processes plays no role here since every process
sees all boxes of the next finer level (`getBoxes()` of a globalized level) and only fills its own patches.
-/

namespace AMPE.Weights

abbrev Cell (D : ℕ) := Fin D → ℤ

structure Box (D : ℕ) where
  lo : Cell D
  hi : Cell D

/-- Cells of a box. -/
def Box.cells {D : ℕ} (b : Box D) : Finset (Cell D) := Finset.Icc b.lo b.hi

structure Level (D : ℕ) where
  ratio : Fin D → ℕ
  boxes : List (Box D)

/-- `cell_vol`, source/QuatModel.cc:4733-4741. -/
noncomputable def cellVol {D : ℕ} (dx0 : Fin D → ℝ) (l : Level D) : ℝ := ∏ d, dx0 d / l.ratio d

/-- `coarsened_boxes.coarsen(coarsen_ratio)`, source/QuatModel.cc:4856-4859, with
`coarsen_ratio = next->getRatioToLevelZero() / level->getRatioToLevelZero()`. -/
def coarsenBox {D : ℕ} (rho : Fin D → ℕ) (b : Box D) : Box D :=
  ⟨fun d => b.lo d / (rho d : ℤ), fun d => b.hi d / (rho d : ℤ)⟩

def coarsenRatio {D : ℕ} (l next : Level D) : Fin D → ℕ := fun d => next.ratio d / l.ratio d

/-- Weight array of one patch after the loop over the coarsened boxes, `zeroOutLowerLevelWeights`,
source/QuatModel.cc:4864-4881: `fillAll(0., intersection)` for each non-empty intersection. -/
def zeroOut {D : ℕ} (finer : List (Box D)) (pbox : Box D) (w : Cell D → ℝ) : Cell D → ℝ :=
  finer.foldl (fun w cb => fun c => if c ∈ cb.cells ∩ pbox.cells then 0 else w c) w

/-- Sum over all cells of all patches of a level of an array given per patch. -/
noncomputable def levelSum {D : ℕ} (l : Level D) (w : Box D → Cell D → ℝ) : ℝ :=
  (l.boxes.map fun b => ∑ c ∈ b.cells, w b c).sum

/-- `computeVectorWeights` followed by summing the weights over the hierarchy, source/QuatModel.cc:4710-4753: every level
is filled with its cell volume, every level but the finest gets zeros under the next finer one.  The list starts at
the coarsest level. -/
noncomputable def totalWeight {D : ℕ} (dx0 : Fin D → ℝ) : List (Level D) → ℝ
  | [] => 0
  | [l] => levelSum l fun _ _ => cellVol dx0 l
  | l :: next :: rest =>
    levelSum l (fun b => zeroOut (next.boxes.map (coarsenBox (coarsenRatio l next))) b fun _ => cellVol dx0 l)
      + totalWeight dx0 (next :: rest)

/-- Weighted integral of a composite field (`f l c` is the value on level `l` and cell `c`) as the code's
norm and integral operations compute it: sum of weight times value over all patches of all levels. -/
noncomputable def integral {D : ℕ} (dx0 : Fin D → ℝ) (f : Level D → Cell D → ℝ) : List (Level D) → ℝ
  | [] => 0
  | [l] => levelSum l fun _ c => cellVol dx0 l * f l c
  | l :: next :: rest =>
    levelSum l (fun b c => zeroOut (next.boxes.map (coarsenBox (coarsenRatio l next))) b (fun _ => cellVol dx0 l) c * f l c)
      + integral dx0 f (next :: rest)

/-- Diagnostics weight of one cell after the loop of `computeVectorWeightsDiagnostics`, source/QuatModel.cc:4815-4826:
the lower corner of the cell is compared with the bounds of the subdomain. -/
noncomputable def diagWeight {D : ℕ} (dx0 low dlow dup : Fin D → ℝ) (l : Level D) (c : Cell D) : ℝ :=
  (List.finRange D).foldl (fun w d =>
    let x := low d + (c d : ℝ) * (dx0 d / l.ratio d)
    let w := if x < dlow d then 0 else w
    if x > dup d then 0 else w) (cellVol dx0 l)

/-- The bounds of the subdomain, source/QuatModel.cc:4769-4790. -/
noncomputable def subdomain (low up frac : ℝ) : ℝ × ℝ :=
  let dd := (up - low) * (1 - frac)
  (low + 0.5 * dd, up - 0.5 * dd)

/-- Sum of the diagnostics weights over the hierarchy: `zeroOutLowerLevelWeights` at the end of
`computeVectorWeightsDiagnostics` (source/QuatModel.cc:4836) fills zeros into `d_weight_id`, never into
`d_weight_diagnostics_id`, so these keep the values of the loop on every level. -/
noncomputable def totalDiag {D : ℕ} (dx0 low dlow dup : Fin D → ℝ) (levels : List (Level D)) : ℝ :=
  (levels.map fun l => levelSum l fun _ c => diagWeight dx0 low dlow dup l c).sum

end AMPE.Weights
