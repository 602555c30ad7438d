import Verif.Model.Tools

/-!
# Model of the grain numbering and grain diagnostics (source/Grains.cc)

Simplifications.  The flood fill is modelled on one level (`maxln = 0`: no coarsening between sweeps);
the set-up of the initial labels is modelled for any number of levels.  A level is a set of cells `V`
with, for every cell, the list of its neighbours in the order the code visits them.  A neighbour in
another patch (or across a periodic boundary) is read through the ghost cells, which `fillData` refreshed
at the start of the sweep: it carries the flag `true` and is read from the snapshot.  Physical boundary
ghosts hold -1 (source/Grains.cc:227-244) and are left out of the neighbour list, since negative values are
ignored.  The cells of all ranks are in one list: ranks only communicate through ghosts.
-/

namespace AMPE.Grains

open AMPE.Tools

variable {V : Type} [DecidableEq V]

/-- Initial label field, source/Grains.cc:345-361: `number v` for cells above the threshold, -1 elsewhere. -/
noncomputable def initialLabels (phase : V → ℝ) (threshold : ℝ) (number : V → ℤ) (v : V) : ℤ :=
  if phase v ≥ threshold then number v else -1

/-- Value of a neighbour: from the ghost snapshot or from the current data. -/
def readNbr (snap g : V → ℤ) (nb : Bool × V) : ℤ := if nb.1 then snap nb.2 else g nb.2

/-- Loop body over one neighbour, source/Grains.cc:489-493, 498-502; `n` is the value of the cell on entry. -/
def visitNbr (snap : V → ℤ) (v : V) (n : ℤ) (st : (V → ℤ) × Bool) (nb : Bool × V) : (V → ℤ) × Bool :=
  let m := readNbr snap st.1 nb
  if m ≥ 0 ∧ m < n then (Function.update st.1 v m, true) else st

/-- Loop body over one cell, source/Grains.cc:476-506. -/
def visitCell (nbrs : V → List (Bool × V)) (weightPos : V → Bool) (snap : V → ℤ) (st : (V → ℤ) × Bool)
    (v : V) : (V → ℤ) × Bool :=
  let n := st.1 v
  if n ≥ 0 ∧ weightPos v then (nbrs v).foldl (visitNbr snap v n) st else st

/-- One pass of the `while` loop, source/Grains.cc:384-513; the flag is `changed`. -/
def sweep (cells : List V) (nbrs : V → List (Bool × V)) (weightPos : V → Bool) (g : V → ℤ) : (V → ℤ) × Bool :=
  cells.foldl (visitCell nbrs weightPos g) (g, false)

/-- The `while` loop, source/Grains.cc:382-520, with at most `fuel` more iterations: final labels and final
value of `counter`. -/
def bucketFill (cells : List V) (nbrs : V → List (Bool × V)) (weightPos : V → Bool) :
    ℕ → ℕ → (V → ℤ) → (V → ℤ) × ℕ
  | 0, counter, g => (g, counter)
  | fuel + 1, counter, g =>
    let r := sweep cells nbrs weightPos g
    if r.2 then bucketFill cells nbrs weightPos fuel (counter + 1) r.1 else (r.1, counter + 1)

/-- `max_iteration_count`, source/Grains.cc:283, 314-324: `widths` lists the box widths of all levels and
directions in loop order. -/
def maxIterationCount (widths : List ℕ) : ℕ :=
  2 * widths.foldl (fun m w => if w > m then 2 * w else m) 0

/-- Bounding box, number of boxes and refinement data of one level. -/
structure LevelBox where
  lower : List ℤ
  widths : List ℤ
  numBoxes : ℤ

/-- Index of `level_stride` written by the set-up loop for level `ln` (source/Grains.cc:307-312), in order. -/
def strideWrites (ndim ln : ℕ) : List ℕ :=
  (ndim * ln) :: (List.range ndim).map fun dd => ndim * ln + dd + 1

/-- The set-up of `level_stride` for all levels: `none` if a write falls outside the `nlevels * NDIM`
allocated entries (source/Grains.cc:289). -/
def strideSetup (ndim nlevels : ℕ) : Option Unit :=
  if ((List.range nlevels).flatMap (strideWrites ndim)).all fun k => k < nlevels * ndim then some () else none

/-- `level_stride[NDIM*ln .. NDIM*ln+NDIM-1]` (source/Grains.cc:308-312), as read at 356. -/
def strides : ℤ → List ℤ → List ℤ
  | _, [] => []
  | s, n :: ns => s :: strides (s * n) ns

/-- `level_offset[ln]`, source/Grains.cc:291, 301-305: `bbox_size` is `bl.size()`, the number of boxes. -/
def levelOffset (levels : List LevelBox) (ln : ℕ) : ℤ := ((levels.take ln).map LevelBox.numBoxes).sum

/-- The initial label of a cell, source/Grains.cc:354-358 (using the stride values computed for the level). -/
def cellNumber (levels : List LevelBox) (ln : ℕ) (cell : List ℤ) : Option ℤ :=
  (levels[ln]?).map fun L =>
    levelOffset levels ln + ((strides 1 L.widths).zipWith (· * ·) cell).sum

/-- The global sorted list of labels, source/Grains.cc:536-590: labels with `n >= 0` on cells with positive
weight, over all ranks. -/
def grainList (ranks : List (List (ℤ × ℝ))) [DecidablePred fun p : ℤ × ℝ => p.1 ≥ 0 ∧ p.2 > 0] : Finset ℤ :=
  ((ranks.flatten.filter fun p => p.1 ≥ 0 ∧ p.2 > 0).map Prod.fst).toFinset

/-- `grain_number_map[n]`, source/Grains.cc:598-605, 628: position in increasing order; a key that is not in
the map is inserted with value 0 by `operator[]`. -/
def grainNumber (labels : Finset ℤ) (n : ℤ) : ℕ :=
  if n ∈ labels then (labels.sort (· ≤ ·)).idxOf n else 0

/-- Renumbering of one cell, source/Grains.cc:625-630. -/
def renumber (labels : Finset ℤ) (n : ℤ) : ℤ := if n ≥ 0 then (grainNumber labels n : ℤ) else n

/-- `d_number_of_grains`, source/Grains.cc:606. -/
def numberOfGrains (labels : Finset ℤ) : ℕ := (labels.sort (· ≤ ·)).length

/-! ## Volumes and concentrations -/

/-- One cell: grain label, weight, concentration. -/
structure CellRec where
  n : ℤ
  w : ℝ
  c : ℝ

/-- Accumulation of a per-cell quantity into a map, source/Grains.cc:679-685, 782-789, 848-858. -/
noncomputable def accumulate (f : CellRec → ℝ) (cells : List CellRec) : IMap :=
  cells.foldl (fun m r => if r.n ≥ 0 ∧ r.w > 0 then addTo m r.n (f r) else m) (fun _ => none)

/-- Iteration over a `std::map` in key order: `keys` is any finite set containing its keys. -/
noncomputable def entries (keys : Finset ℤ) (m : IMap) : Entries :=
  (keys.sort (· ≤ ·)).filterMap fun k => (m k).map fun v => (k, v)

/-- Keys that can occur. -/
def keysOf (cells : List CellRec) : Finset ℤ := (cells.map CellRec.n).toFinset

/-- Local accumulation on every rank followed by `listLocalToGlobal` into an empty map,
source/Grains.cc:657-691 (`f r = r.w`), 754-797 (`r.c * r.w`, `r.w`), 822-864. -/
noncomputable def globalMap (f : CellRec → ℝ) (ranks : List (List CellRec)) : Option IMap :=
  listLocalToGlobal (ranks.map fun cells => entries (keysOf cells) (accumulate f cells)) (fun _ => none)

/-- Average concentration printed for every grain, source/Grains.cc:799-813. -/
noncomputable def grainAverage (ranks : List (List CellRec)) (k : ℤ) : Option ℝ :=
  (globalMap (fun r => r.c * r.w) ranks).bind fun mc =>
    (globalMap (fun r => r.w) ranks).bind fun mw => (mc k).map fun c => c / (mw k).getD 0

/-- Concentration deviation printed for every grain, source/Grains.cc:822-873. -/
noncomputable def grainDeviation (ranks : List (List CellRec)) (k : ℤ) : Option ℝ :=
  (globalMap (fun r => r.w * ((r.c - (grainAverage ranks r.n).getD 0) * (r.c - (grainAverage ranks r.n).getD 0)))
    ranks).bind fun md =>
      (globalMap (fun r => r.w) ranks).bind fun mw => (md k).map fun d => d / (mw k).getD 0

/-! ## Extension of the orientations into the matrix -/

/-- State of the extension: flags and orientations. -/
structure ExtState (V Q : Type) where
  flag : V → Bool
  quat : V → Q

/-- Loop over directions for one unset cell, source/Grains.cc:1021-1043: `pairs` lists (plus neighbour, minus
neighbour) per direction; the first flagged one is copied.  Neighbours and flags are read from the
scratch data filled at the start of the pass; physical boundary ghosts are taken as unflagged (`none`)
although the code allocates the scratch data without initialising them (source/Grains.cc:906, 982). -/
def findFlagged (flagScr : V → Bool) : List (Option V × Option V) → Option V
  | [] => none
  | (cp, cm) :: l =>
    if cp.any flagScr then cp else if cm.any flagScr then cm else findFlagged flagScr l

/-- One pass over all cells, single level, source/Grains.cc:978-1056. -/
def extendPass {Q : Type} (dirs : V → List (Option V × Option V)) (s : ExtState V Q) : ExtState V Q where
  flag v := s.flag v || (findFlagged s.flag (dirs v)).isSome
  quat v := if s.flag v then s.quat v else
    match findFlagged s.flag (dirs v) with
    | some u => s.quat u
    | none => s.quat v

/-- Does the cell remain unset in this pass (`this_cell_still_unset`)? -/
def stillUnset (dirs : V → List (Option V × Option V)) (flagScr : V → Bool) (v : V) : Bool :=
  !flagScr v && (findFlagged flagScr (dirs v)).isNone

/-- `one_still_unset` of one rank at the end of the pass, source/Grains.cc:976, 1009, 1046-1048: set to 1 before the
loop over patches and reset to 0 at the start of every patch. -/
def oneStillUnset (dirs : V → List (Option V × Option V)) (flagScr : V → Bool) (patches : List (List V)) : Bool :=
  patches.foldl (fun _ cells => cells.foldl (fun o v => o || stillUnset dirs flagScr v) false) true

/-- The iteration loop, source/Grains.cc:974-1062: stops when the maximum over ranks of `one_still_unset` is
zero.  Result: state and number of the pass at which it stopped (`nn`). -/
def extendLoop {Q : Type} (dirs : V → List (Option V × Option V)) (ranks : List (List (List V))) :
    ℕ → ℕ → ExtState V Q → ExtState V Q × ℕ
  | 0, nn, s => (s, nn)
  | fuel + 1, nn, s =>
    let s' := extendPass dirs s
    if ranks.any (oneStillUnset dirs s.flag) then extendLoop dirs ranks fuel (nn + 1) s' else (s', nn)

end AMPE.Grains
