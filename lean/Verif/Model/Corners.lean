import Mathlib.Analysis.SpecialFunctions.Sqrt
import Mathlib.Algebra.BigOperators.Group.Finset.Basic
import Mathlib.Data.Fin.VecNotation

/-!
# Generator of four grains in the corners (utils/make4corners.py)

The script writes the file with the initial phase and orientation of four grains, one in every corner of the domain.  Numbers are real
numbers (the script stores single precision).  An exception is `none`.  Not modelled: missing options, printing, the file format.
-/

namespace AMPE.Corners

/-- `quat_inside`, utils/make4corners.py:47-70 (`Q.makeQuat`, utils/quat.py, puts the four numbers in an array). -/
noncomputable def quatInside (g : Fin 4) : Fin 4 → ℝ :=
  match g with
  | 0 => ![0.5, 0.5, 0.5, 0.5]
  | 1 => ![0.5, 0.5, 0.5, 0.5]
  | 2 => ![-0.5, 0.5, 0.5, 0.5]
  | 3 => ![0.5, -0.5, 0.5, 0.5]

/-- `cx`, `cy`, `cz`, utils/make4corners.py:110-132. -/
noncomputable def centre (nx ny : ℕ) (g : Fin 4) : ℝ × ℝ × ℝ :=
  match g with
  | 0 => (0, 0, 0.5)
  | 1 => (0, ny, 0.5)
  | 2 => (nx, 0, 0.5)
  | 3 => (nx, ny, 0.5)

/-- `radius`, utils/make4corners.py:43. -/
noncomputable def radius (nx : ℕ) : ℝ := nx / 2

/-- `distance2`, utils/make4corners.py:73-75. -/
def distance2 (x1 y1 z1 x2 y2 z2 : ℝ) : ℝ := (x1 - x2) ^ 2 + (y1 - y2) ^ 2 + (z1 - z2) ^ 2

open Classical in
/-- `distancemax`, utils/make4corners.py:78-84. -/
noncomputable def distancemax (x1 y1 z1 x2 y2 z2 : ℝ) : ℝ :=
  let d := x1 - x2
  let d := if y1 - y2 > d then y1 - y2 else d
  let d := if z1 - z2 > d then z1 - z2 else d
  d

open Classical in
/-- The loop over the grains that fills `phase[k,j,i]`, utils/make4corners.py:139-154. -/
noncomputable def phase (nx ny : ℕ) (i j k : ℕ) : ℝ :=
  (List.finRange 4).foldl (fun v g =>
    if √(distance2 (i + 0.5) (j + 0.5) (k + 0.5) (centre nx ny g).1 (centre nx ny g).2.1 (centre nx ny g).2.2) - radius nx ≤ 0 then 1 else v) 0

open Classical in
/-- The grain whose orientation a cell gets: the first one that is near enough, utils/make4corners.py:165-171. -/
noncomputable def grain (nx ny : ℕ) (i j k : ℕ) : Option (Fin 4) :=
  (List.finRange 4).find? fun g =>
    decide (distancemax (i + 0.5) (j + 0.5) (k + 0.5) (centre nx ny g).1 (centre nx ny g).2.1 (centre nx ny g).2.2 ≤ radius nx)

/-- `q[m]` for an array of four numbers: an index outside raises an exception. -/
noncomputable def entry (q : Fin 4 → ℝ) (m : ℕ) : Option ℝ := if h : m < 4 then some (q ⟨m, h⟩) else none

/-- What is stored in `quat[:,k,j,i]`, utils/make4corners.py:105,164-171. -/
noncomputable def cellQuat (qlen nx ny : ℕ) (i j k : ℕ) : Option (List ℝ) :=
  match grain nx ny i j k with
  | none => some (List.replicate qlen 0)
  | some g => (List.range qlen).mapM (entry (quatInside g))

/-- The whole run: an exception in one cell ends it, utils/make4corners.py:156-181. -/
noncomputable def run (qlen nx ny nz : ℕ) : Option (ℕ → ℕ → ℕ → ℝ × List ℝ) :=
  open Classical in
  if ∀ i < nx, ∀ j < ny, ∀ k < nz, (cellQuat qlen nx ny i j k).isSome then
    some fun i j k => (phase nx ny i j k, (cellQuat qlen nx ny i j k).getD [])
  else none

end AMPE.Corners
