import Verif.Model.LevelSolve3

/-! # Hand-over of a level system to hypre in `CellPoissonHypreSolver`, also for samples one cell thick

The entries of the matrix are computed as in `Verif.Model.LevelSolve` / `LevelSolve3` (`off d c`: the face between `c` and its
lower neighbour in direction `d`; `diag c`).  Modelled here is what happens next: the number of directions hypre is told
about, the loop that copies the entries into the buffer of one patch, the order in which hypre reads that buffer, and the
copies of right-hand side and result.  In the 2D program cells are `(i, j, 0)` (the loop variable `k` runs from
`ilower[2] = 0` to `iupper[2] = 0`).  Memory is a function of the address; writing at or beyond the size of the buffer is
an overflow.  hypre's box functions are modelled by their documentation: they run over the box given by the first
coordinates of `ilower`, `iupper`, first coordinate fastest.  hypre's solvers are not modelled: a result is anything that
satisfies the system hypre was given.  Periodic levels are not modelled. -/

namespace AMPE.HandOver

open AMPE.QuatFlow3 (Cell mv)
open AMPE.LevelSolve3 (Off pairTerm)

/-- A patch: its box. -/
structure Patch where
  lo : Cell
  hi : Cell

/-- Coordinate of an index. -/
def coord (d : Fin 3) (c : Cell) : ℤ := match d with
  | 0 => c.1
  | 1 => c.2.1
  | 2 => c.2.2

/-- `numberCells(d)`. -/
def Patch.n (p : Patch) (d : Fin 3) : ℕ := (coord d p.hi - coord d p.lo + 1).toNat

/-- `size()`. -/
def Patch.size (p : Patch) : ℕ := p.n 0 * p.n 1 * p.n 2

/-- The bounding box of the level has more than one cell in direction `d`. -/
def extended (ps : List Patch) (d : Fin 3) : Bool := ps.any fun p => ps.any fun q => decide (coord d q.lo < coord d p.hi)

/-- `d_actual_dim`, source/samrai/CellPoissonHypreSolver.cc:411-422; `ndim` is the dimension of the program. -/
def actualDim (ndim : ℕ) (ps : List Patch) : ℕ := ((List.finRange 3).filter fun d => d.1 < ndim && extended ps d).length

/-! ## The copy loop -/

/-- Cell of the patch at position `l` of a cell-centred array (also: of the array of faces normal to z). -/
def Patch.cell (p : Patch) (l : ℕ) : Cell :=
  (p.lo.1 + (l % p.n 0 : ℕ), p.lo.2.1 + (l / p.n 0 % p.n 1 : ℕ), p.lo.2.2 + (l / p.n 0 / p.n 1 : ℕ))

/-- Face at position `l` of the array of faces normal to x: one more column. -/
def Patch.xface (p : Patch) (l : ℕ) : Cell :=
  (p.lo.1 + (l % (p.n 0 + 1) : ℕ), p.lo.2.1 + (l / (p.n 0 + 1) % p.n 1 : ℕ), p.lo.2.2 + (l / (p.n 0 + 1) / p.n 1 : ℕ))

/-- Face at position `l` of the array of faces normal to y: one more row. -/
def Patch.yface (p : Patch) (l : ℕ) : Cell :=
  (p.lo.1 + (l % p.n 0 : ℕ), p.lo.2.1 + (l / p.n 0 % (p.n 1 + 1) : ℕ), p.lo.2.2 + (l / p.n 0 / (p.n 1 + 1) : ℕ))

/-- `mat_entries`, `offset`, `offsetx`, `offsety`, `offsetz`, `count`. -/
structure St where
  mem : ℕ → ℝ
  offset : ℕ
  ox : ℕ
  oy : ℕ
  oz : ℕ
  count : ℕ

/-- `mat_entries[offset++] = x`. -/
noncomputable def St.put (s : St) (x : ℝ) : St := { s with mem := Function.update s.mem s.offset x, offset := s.offset + 1 }

/-- Innermost loop body, source/samrai/CellPoissonHypreSolver.cc:1179-1184. -/
noncomputable def cellStep (ndim D : ℕ) (p : Patch) (off : Off) (diag : Cell → ℝ) (s : St) : St :=
  let s := { s.put (off 0 (p.xface s.ox)) with ox := s.ox + 1 }
  let s := if D > 1 then { s.put (off 1 (p.yface s.oy)) with oy := s.oy + 1 } else s
  let s := if ndim > 2 then { s.put (off 2 (p.cell s.oz)) with oz := s.oz + 1 } else s
  { s.put (diag (p.cell s.count)) with count := s.count + 1 }

/-- One row, source/samrai/CellPoissonHypreSolver.cc:1177-1187. -/
noncomputable def rowStep (ndim D : ℕ) (p : Patch) (off : Off) (diag : Cell → ℝ) (s : St) : St :=
  let s := (cellStep ndim D p off diag)^[p.n 0] s
  { s with ox := s.ox + 1 }

/-- One plane, source/samrai/CellPoissonHypreSolver.cc:1176-1191. -/
noncomputable def planeStep (ndim D : ℕ) (p : Patch) (off : Off) (diag : Cell → ℝ) (s : St) : St :=
  let s := (rowStep ndim D p off diag)^[p.n 1] s
  if ndim > 2 then { s with oy := s.oy + p.n 0 } else s

/-- The whole loop; `mem0` is the uninitialised buffer (source/samrai/CellPoissonHypreSolver.cc:1157-1192). -/
noncomputable def copyLoop (ndim D : ℕ) (p : Patch) (off : Off) (diag : Cell → ℝ) (mem0 : ℕ → ℝ) : St :=
  (planeStep ndim D p off diag)^[p.n 2] ⟨mem0, 0, 0, 0, 0, 0⟩

/-- Number of stencil entries: lower neighbours of the `D` directions and the cell itself
(source/samrai/CellPoissonHypreSolver.cc:544-575, 1157). -/
def stencilSize (D : ℕ) : ℕ := D + 1

/-! ## What hypre makes of it -/

/-- hypre's name for a cell: the first `D` coordinates (`HYPRE_StructGridCreate(communicator, d_actual_dim, ...)`,
source/samrai/CellPoissonHypreSolver.cc:486-499). -/
def gridCell (D : ℕ) (c : Cell) : Cell := (if 1 ≤ D then c.1 else 0, if 2 ≤ D then c.2.1 else 0, if 3 ≤ D then c.2.2 else 0)

/-- Grid cells of a patch. -/
def inGrid (D : ℕ) (p : Patch) (g : Cell) : Prop :=
  gridCell D g = g ∧ ∀ d : Fin 3, d.1 < D → coord d p.lo ≤ coord d g ∧ coord d g ≤ coord d p.hi

/-- Position of a grid cell in the values passed for a box, in cells. -/
def gridPos (D : ℕ) (p : Patch) (g : Cell) : ℕ :=
  (g.1 - p.lo.1).toNat
    + p.n 0 * ((if 2 ≤ D then (g.2.1 - p.lo.2.1).toNat else 0) + p.n 1 * (if 3 ≤ D then (g.2.2 - p.lo.2.2).toNat else 0))

/-- Cells of a patch. -/
def Patch.has (p : Patch) (c : Cell) : Prop := ∀ d, coord d p.lo ≤ coord d c ∧ coord d c ≤ coord d p.hi

open Classical in
/-- Values of a quantity on hypre's grid after a call of a `SetBoxValues` function for each patch in turn; `v p` are the values
passed for patch `p`.  Cells of no patch have the value 0, which is never used. -/
noncomputable def setBoxes (D : ℕ) (ps : List Patch) (v : Patch → ℕ → ℝ) (g : Cell) : ℝ :=
  ps.foldl (fun x p => if inGrid D p g then v p (gridPos D p g) else x) 0

/-- Matrix of the level on hypre's grid: stencil entry `s` (source/samrai/CellPoissonHypreSolver.cc:1194-1196). -/
noncomputable def matrix (ndim D : ℕ) (ps : List Patch) (off : Off) (diag : Cell → ℝ) (mem0 : ℕ → ℝ) (s : ℕ) (g : Cell) : ℝ :=
  setBoxes D ps (fun p l => (copyLoop ndim D p off diag mem0).mem (stencilSize D * l + s)) g

/-- Right-hand side on hypre's grid, `copyToHypre` (source/samrai/CellPoissonHypreSolver.cc:687-710). -/
noncomputable def rhsGrid (D : ℕ) (ps : List Patch) (f : Cell → ℝ) (g : Cell) : ℝ := setBoxes D ps (fun p l => f (p.cell l)) g

open Classical in
/-- One row of the matrix hypre was given; symmetric storage. -/
noncomputable def hypreRow (D : ℕ) (grid : Finset Cell) (mat : ℕ → Cell → ℝ) (x : Cell → ℝ) (g : Cell) : ℝ :=
  mat D g * x g + ∑ d : Fin 3, if d.1 < D then pairTerm grid (mat d.1) d x g else 0

/-- What a solve on a level may end with. -/
inductive Outcome
  /-- `TBOX_ERROR`: no direction with more than one cell (source/samrai/CellPoissonHypreSolver.cc:600-603). -/
  | refused
  /-- Some patch writes beyond its buffer of `stencil_size * size()` numbers. -/
  | overflow
  /-- A result `u`, in the cells of the level. -/
  | result (u : Cell → ℝ)

open Classical in
/-- The solve on a level with `d_actual_dim = D`: outcome `o` is possible.  The result is copied back by `copyFromHypre`
(source/samrai/CellPoissonHypreSolver.cc:718-740): the values of the grid cells of a patch become the first values of
its array, the others are whatever the temporary array contained. -/
noncomputable def SolveWith (ndim D : ℕ) (ps : List Patch) (off : Off) (diag f : Cell → ℝ) (o : Outcome) : Prop :=
  if D = 0 then o = .refused
  else if ∃ p ∈ ps, ∃ mem0, stencilSize D * p.size < (copyLoop ndim D p off diag mem0).offset then o = .overflow
  else ∃ (grid : Finset Cell) (x : Cell → ℝ) (mem0 : ℕ → ℝ) (u : Cell → ℝ),
    (∀ g, g ∈ grid ↔ ∃ p ∈ ps, inGrid D p g) ∧
    (∀ g ∈ grid, hypreRow D grid (matrix ndim D ps off diag mem0) x g = rhsGrid D ps f g) ∧
    (∀ p ∈ ps, ∀ g, inGrid D p g → u (p.cell (gridPos D p g)) = x g) ∧ o = .result u

/-- The solve on a level. -/
noncomputable def Solve (ndim : ℕ) (ps : List Patch) (off : Off) (diag f : Cell → ℝ) (o : Outcome) : Prop :=
  SolveWith ndim (actualDim ndim ps) ps off diag f o

/-! ## Input -/

/-- Entries of the `Geometry` block used here. -/
structure Geometry where
  resolution : Fin 3 → ℕ
  periodic : Fin 3 → Bool

/-- The check of the resolution, source/PFModel.cc:192-200: `TBOX_ERROR` for one cell along a periodic direction. -/
def Geometry.accepted (G : Geometry) (ndim : ℕ) : Prop := ∀ d : Fin 3, d.1 < ndim → ¬ (G.resolution d = 1 ∧ G.periodic d = true)

/-- The domain, source/PFModel.cc:188-202 (third index 0 in the 2D program). -/
def Geometry.domain (G : Geometry) (ndim : ℕ) : Patch :=
  ⟨(0, 0, 0), ((G.resolution 0 : ℤ) - 1, (G.resolution 1 : ℤ) - 1, if 2 < ndim then (G.resolution 2 : ℤ) - 1 else 0)⟩

end AMPE.HandOver
