import Verif.Model.LevelSolve
import Verif.Model.QuatFlow3

/-! # Matrices handed to the linear solver on one level (3D)

The three-dimensional branches of `CellPoissonHypreSolver` (coarsest level of the elliptic multigrid solver) and of
`QuatLevelSolver` (every level of the orientation solver), with the routines of source/fortran/3d/quatlevelsolver.m4 and
source/fortran/3d/hyprepoisson.m4.  As in `Verif.Model.LevelSolve`: a level is a finite set of cells, the patches share their
face data, hypre itself is not modelled, periodic levels, `ewingFixFlux` and the rotations of the symmetry mode (which stop
in 3D, see C118) are not modelled, and the SAMRAI routines
`compdiagvariablec3d`, `adjbdry3d` are modelled from their call sites.  The Fortran text treats x, y, z by copies of one
block; here a direction is an element of `Fin 3`. -/

namespace AMPE.LevelSolve3

open AMPE.Smoother (rows)
open AMPE.QuatFlow3 (Cell mv)
open AMPE.LevelSolve (uk0 k1)

/-- Boundary location: direction (`location/2`) and end (`location` odd: upper end). -/
abbrev Side := Fin 3 × Bool

/-- The cell behind a side. -/
def nbr (c : Cell) (sd : Side) : Cell := mv sd.1 (if sd.2 then 1 else -1) c

/-- Index of the face at a side: `offdiagx(i,j,k)` is the face between cells (i-1,j,k) and (i,j,k). -/
def face (c : Cell) (sd : Side) : Cell := if sd.2 then mv sd.1 1 c else c

/-- One value per face and direction. -/
abbrev Off := Fin 3 → Cell → ℝ

/-- The entry of the face at a side of a cell. -/
def get (o : Off) (c : Cell) (sd : Side) : ℝ := o sd.1 (face c sd)

/-- `offdiagi(ifac,j,k) = 0.0`. -/
def clear (o : Off) (c : Cell) (sd : Side) : Off := fun d p => if d = sd.1 ∧ p = face c sd then 0 else o d p

/-- A boundary face: location, interior cell (`iint`), value of `acoef`. -/
structure BFace where
  side : Side
  cell : Cell
  a : ℝ

/-- A trimmed boundary box (one layer of ghost cells) with the `acoef` values on its faces. -/
structure BdryBox where
  location : Side
  lower : Cell
  upper : Cell
  acoef : Cell → ℝ

/-- `iint` (or `jint`, `kint`) from the bounds of the box in its direction,
source/fortran/3d/quatlevelsolver.m4:289-291, 308-310, 327-329, 346-348, 365-367, 383-385. -/
def BdryBox.inner (b : BdryBox) (lower upper : ℤ) : ℤ :=
  if b.location.2 then (let gho := lower; gho - 1) else (let gho := upper; gho + 1)

/-- The cells visited for one boundary box, in the order of the loops: source/fortran/3d/quatlevelsolver.m4:287-397. -/
def BdryBox.faces (b : BdryBox) : List BFace :=
  match b.location.1 with
  | 0 => (rows b.lower.2.2 b.upper.2.2).flatMap fun k => (rows b.lower.2.1 b.upper.2.1).map fun j =>
      let c : Cell := (b.inner b.lower.1 b.upper.1, j, k)
      ⟨b.location, c, b.acoef (face c b.location)⟩
  | 1 => (rows b.lower.2.2 b.upper.2.2).flatMap fun k => (rows b.lower.1 b.upper.1).map fun i =>
      let c : Cell := (i, b.inner b.lower.2.1 b.upper.2.1, k)
      ⟨b.location, c, b.acoef (face c b.location)⟩
  | 2 => (rows b.lower.2.1 b.upper.2.1).flatMap fun j => (rows b.lower.1 b.upper.1).map fun i =>
      let c : Cell := (i, j, b.inner b.lower.2.2 b.upper.2.2)
      ⟨b.location, c, b.acoef (face c b.location)⟩

/-- Diagonal, off-diagonals, and the weights of the boundary data `g` (`Ak0`, addressed by location and interior cell). -/
structure Sys where
  diag : Cell → ℝ
  off : Off
  ak0 : Side → Cell → ℝ

/-- Loop body of `adjust_bdry3d`, source/fortran/3d/quatlevelsolver.m4:294-302 (`hh = h(location/2)`, 286); `w gho int` is the
factor `sqrt_m(igho,j,k)*gamma*sqrt_m(iint,j,k)` (1 in `adjbdry3d`). -/
noncomputable def adjustFace (w : Cell → Cell → ℝ) (h : Fin 3 → ℝ) (s : Sys) (f : BFace) : Sys :=
  let hh := h f.side.1
  let o := get s.off f.cell f.side
  { diag := Function.update s.diag f.cell (s.diag f.cell + k1 f.a hh * o)
    off := clear s.off f.cell f.side
    ak0 := fun sd c => if sd = f.side ∧ c = f.cell then uk0 f.a hh * o * w (nbr f.cell f.side) f.cell else s.ak0 sd c }

/-- `adjustBoundaryEntries` for all boundary boxes: source/QuatLevelSolver.cc:868-963, 1640-1700,
source/samrai/CellPoissonHypreSolver.cc:1041-1141, 1694-1735. -/
noncomputable def adjustAll (w : Cell → Cell → ℝ) (h : Fin 3 → ℝ) (s : Sys) (bs : List BdryBox) : Sys :=
  (bs.flatMap BdryBox.faces).foldl (adjustFace w h) s

/-- Minus the sum of the six face entries, source/fortran/3d/quatlevelsolver.m4:77-79. -/
def minusSum (o : Off) (c : Cell) : ℝ :=
  -o 0 c - o 0 (mv 0 1 c) - o 1 c - o 1 (mv 1 1 c) - o 2 c - o 2 (mv 2 1 c)

/-! ## `CellPoissonHypreSolver` -/

/-- Coefficients of `C u + M div(D grad u)`; spacing `h`. -/
structure Poisson where
  h : Fin 3 → ℝ
  D : Off
  C : Cell → ℝ
  M : Cell → ℝ

/-- Off-diagonals `D/(h*h)`, source/samrai/CellPoissonHypreSolver.cc:880-896. -/
noncomputable def Poisson.off (P : Poisson) : Off := fun d p => 1 / (P.h d * P.h d) * P.D d p

/-- `msqrt`, source/samrai/CellPoissonHypreSolver.cc:910-920. -/
noncomputable def Poisson.ms (P : Poisson) (c : Cell) : ℝ := Real.sqrt (P.M c)

/-- `multiplyoffdiagbym`, source/fortran/3d/hyprepoisson.m4:4-53. -/
def multiplyOffDiag (o : Off) (m : Cell → ℝ) : Off := fun d p => o d p * m (mv d (-1) p) * m p

/-- The system before the boundary adjustment, variable M: diagonal `C - sum`, then `-= C`, `*= M`, `+= C`
(source/samrai/CellPoissonHypreSolver.cc:898-908, 944-977, 1000-1036, 1596-1650). -/
noncomputable def Poisson.raw (P : Poisson) : Sys :=
  { diag := fun c => ((P.C c + minusSum P.off c) - P.C c) * P.M c + P.C c
    off := multiplyOffDiag P.off P.ms
    ak0 := fun _ _ => 0 }

/-- The system for a constant M, source/samrai/CellPoissonHypreSolver.cc:924-943, 979-999. -/
noncomputable def Poisson.rawConst (P : Poisson) (m : ℝ) : Sys :=
  { diag := fun c => m * ((P.C c + minusSum P.off c) - P.C c) + P.C c
    off := fun d p => m * P.off d p
    ak0 := fun _ _ => 0 }

noncomputable def Poisson.system (P : Poisson) (bs : List BdryBox) : Sys := adjustAll (fun _ _ => 1) P.h P.raw bs

noncomputable def Poisson.systemConst (P : Poisson) (m : ℝ) (bs : List BdryBox) : Sys :=
  adjustAll (fun _ _ => 1) P.h (P.rawConst m) bs

/-- The two terms of one direction in a row of a symmetrically stored matrix: `low p` is the entry stored in cell `p` for its
lower neighbour; entries of cells that are not on the level do not exist. -/
noncomputable def pairTerm (cells : Finset Cell) (low : Cell → ℝ) (d : Fin 3) (v : Cell → ℝ) (c : Cell) : ℝ :=
  (if mv d (-1) c ∈ cells then low c * v (mv d (-1) c) else 0)
    + (if mv d 1 c ∈ cells then low (mv d 1 c) * v (mv d 1 c) else 0)

/-- One row of the matrix; stored are the entries for the three lower neighbours and the cell itself
(stencil offsets source/samrai/CellPoissonHypreSolver.cc:562-573, values 1155-1197). -/
noncomputable def row (cells : Finset Cell) (s : Sys) (v : Cell → ℝ) (c : Cell) : ℝ :=
  s.diag c * v c + pairTerm cells (s.off 0) 0 v c + pairTerm cells (s.off 1) 1 v c + pairTerm cells (s.off 2) 2 v c

/-- `solveSystem` with homogeneous boundary data and variable M, source/samrai/CellPoissonHypreSolver.cc:1467-1482,
1562-1581. -/
def Poisson.Solved (P : Poisson) (cells : Finset Cell) (bs : List BdryBox) (f u : Cell → ℝ) : Prop :=
  ∃ v : Cell → ℝ, (∀ c ∈ cells, row cells (P.system bs) v c = f c / P.ms c) ∧ ∀ c ∈ cells, u c = v c * P.ms c

/-- The same for constant M (no transformation). -/
def Poisson.SolvedConst (P : Poisson) (m : ℝ) (cells : Finset Cell) (bs : List BdryBox) (f u : Cell → ℝ) : Prop :=
  ∀ c ∈ cells, row cells (P.systemConst m bs) u c = f c

/-! ## `QuatLevelSolver` -/

/-- Data of one level: `m` is `sqrt_m`, `fc` the face coefficients. -/
structure QuatLevel where
  h : Fin 3 → ℝ
  gamma : ℝ
  fc : Off
  m : Cell → ℝ

/-- `set_j_ij3d`, source/fortran/3d/quatlevelsolver.m4:9-86. -/
noncomputable def QuatLevel.raw (L : QuatLevel) : Sys :=
  let o : Off := fun d p => L.fc d p * (1 / L.h d ^ 2)
  { diag := minusSum o, off := o, ak0 := fun _ _ => 0 }

/-- Diagonals and off-diagonals after the boundary adjustment, source/QuatLevelSolver.cc:868-963. -/
noncomputable def QuatLevel.entries (L : QuatLevel) (bs : List BdryBox) : Sys :=
  adjustAll (fun gho int => L.m gho * L.gamma * L.m int) L.h L.raw bs

/-- `set_symmetric_stencil3d`, source/fortran/3d/quatlevelsolver.m4:155-211: center and the lower neighbour in direction `d`. -/
noncomputable def QuatLevel.center (L : QuatLevel) (s : Sys) (c : Cell) : ℝ := L.gamma * L.m c * s.diag c * L.m c + 1
noncomputable def QuatLevel.lower (L : QuatLevel) (s : Sys) (d : Fin 3) (c : Cell) : ℝ :=
  L.gamma * L.m c * s.off d c * L.m (mv d (-1) c)

/-- `set_stencil3d` (used without SYMMETRIC_STENCIL), source/fortran/3d/quatlevelsolver.m4:88-153: upper neighbours. -/
noncomputable def QuatLevel.upper (L : QuatLevel) (s : Sys) (d : Fin 3) (c : Cell) : ℝ :=
  L.gamma * L.m c * s.off d (mv d 1 c) * L.m (mv d 1 c)

/-- One row of the matrix of one component, symmetric storage (source/QuatLevelSolver.cc:21, 478-530, 965-1045). -/
noncomputable def QuatLevel.row (L : QuatLevel) (cells : Finset Cell) (s : Sys) (v : Cell → ℝ) (c : Cell) : ℝ :=
  L.center s c * v c + pairTerm cells (L.lower s 0) 0 v c + pairTerm cells (L.lower s 1) 1 v c
    + pairTerm cells (L.lower s 2) 2 v c

/-- `adjust_qrhs3d` over all boundary faces, source/fortran/3d/quatlevelsolver.m4:401-505 and
source/QuatLevelSolver.cc:1078-1190: `g` is the boundary datum by location and interior cell. -/
noncomputable def adjustRhs (s : Sys) (g : Side → Cell → ℝ) (rhs : Cell → ℝ) (bs : List BdryBox) : Cell → ℝ :=
  (bs.flatMap BdryBox.faces).foldl
    (fun r f => Function.update r f.cell (r f.cell - s.ak0 f.side f.cell * g f.side f.cell)) rhs

/-- `solveSystem(rhs, sol)` with the default `homogeneous_bc = false`, source/QuatLevelSolver.cc:1386-1640, one component. -/
noncomputable def QuatLevel.Solved (L : QuatLevel) (cells : Finset Cell) (bs : List BdryBox) (g : Side → Cell → ℝ)
    (rhs v : Cell → ℝ) : Prop :=
  ∀ c ∈ cells, L.row cells (L.entries bs) v c = adjustRhs (L.entries bs) g rhs bs c

/-- `compute_sym_flux3d`, source/fortran/3d/quatfacops.m4:392-481. -/
noncomputable def QuatLevel.flux (L : QuatLevel) (q : Cell → ℝ) (d : Fin 3) (c : Cell) : ℝ :=
  L.fc d c * (1 / L.h d) * (L.m c * q c - L.m (mv d (-1) c) * q (mv d (-1) c))

/-- `compute_q_residual3d`, source/fortran/3d/quatfacops.m4:483-551. -/
noncomputable def QuatLevel.residual (L : QuatLevel) (rhs q : Cell → ℝ) (c : Cell) : ℝ :=
  let divergence := (L.flux q 0 (mv 0 1 c) - L.flux q 0 c) * (1 / L.h 0) + (L.flux q 1 (mv 1 1 c) - L.flux q 1 c) * (1 / L.h 1)
    + (L.flux q 2 (mv 2 1 c) - L.flux q 2 c) * (1 / L.h 2)
  rhs c - q c - L.gamma * L.m c * divergence

end AMPE.LevelSolve3
