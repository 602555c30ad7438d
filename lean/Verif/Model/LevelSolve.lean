import Verif.Model.Smoother
import Mathlib.Analysis.SpecialFunctions.Sqrt

/-! # Matrices handed to the linear solver on one level (2D)

`CellPoissonHypreSolver` (coarsest level of the elliptic multigrid solver) and `QuatLevelSolver` (every level of the
orientation solver).  A level is a finite set of cells; the patches of the level share their face data, so the face
arrays are one array per direction.  The list of boundary boxes is that of all patches.  The linear solver itself (hypre)
is not modelled: the theorems speak about vectors that solve the system it is given.  Three SAMRAI routines that are not
part of the repository are modelled from their call sites: `compdiagvariablec2d` (diagonal = C minus the sum of the four
off-diagonals), `adjbdry2d` (the same assignments as `adjust_bdry2d` below, without the mobilities) and the ghost-cell
coefficients at coarse-fine boundaries (a = 1/(1+h/2), g = value/(1+h/2)).  Not modelled: periodic levels, `ewingFixFlux`. -/

namespace AMPE.LevelSolve

open AMPE.Smoother (rows)

abbrev Cell := ℤ × ℤ

/-- The boundary locations 0, 1, 2, 3. -/
inductive Side
  | W | E | S | N
  deriving DecidableEq

/-- The cell behind a side. -/
def nbr (c : Cell) : Side → Cell
  | .W => (c.1 - 1, c.2)
  | .E => (c.1 + 1, c.2)
  | .S => (c.1, c.2 - 1)
  | .N => (c.1, c.2 + 1)

/-- One value per face: `offdiagx(i,j)` is the face between cells (i-1,j) and (i,j). -/
structure Off where
  x : Cell → ℝ
  y : Cell → ℝ

/-- The entry of the face at a side of a cell. -/
def Off.get (o : Off) (c : Cell) : Side → ℝ
  | .W => o.x c
  | .E => o.x (c.1 + 1, c.2)
  | .S => o.y c
  | .N => o.y (c.1, c.2 + 1)

/-- `offdiag(ifac,j) = 0.0`. -/
def Off.clear (o : Off) (c : Cell) : Side → Off
  | .W => { o with x := Function.update o.x c 0 }
  | .E => { o with x := Function.update o.x (c.1 + 1, c.2) 0 }
  | .S => { o with y := Function.update o.y c 0 }
  | .N => { o with y := Function.update o.y (c.1, c.2 + 1) 0 }

/-- A boundary face: location, interior cell (`iint`), value of `acoef`. -/
structure BFace where
  side : Side
  cell : Cell
  a : ℝ

/-- A trimmed boundary box (one layer of ghost cells) with the `acoef` values along it. -/
structure BdryBox where
  location : Side
  lower : Cell
  upper : Cell
  acoef : ℤ → ℝ

/-- The cells visited for one boundary box, source/fortran/2d/quatlevelsolver.m4:231-297 (`igho`, `iint`, `ifac`). -/
def BdryBox.faces (b : BdryBox) : List BFace :=
  match b.location with
  | .W => (rows b.lower.2 b.upper.2).map fun j => ⟨.W, (b.upper.1 + 1, j), b.acoef j⟩
  | .E => (rows b.lower.2 b.upper.2).map fun j => ⟨.E, (b.lower.1 - 1, j), b.acoef j⟩
  | .S => (rows b.lower.1 b.upper.1).map fun i => ⟨.S, (i, b.upper.2 + 1), b.acoef i⟩
  | .N => (rows b.lower.1 b.upper.1).map fun i => ⟨.N, (i, b.lower.2 - 1), b.acoef i⟩

/-- `uk0`, source/fortran/2d/quatlevelsolver.m4:237-238. -/
noncomputable def uk0 (a h : ℝ) : ℝ := h / (1 - a * (1 - 0.5 * h))

/-- `k1`, source/fortran/2d/quatlevelsolver.m4:239-240. -/
noncomputable def k1 (a h : ℝ) : ℝ := (1 - a * (1 + 0.5 * h)) / (1 - a * (1 - 0.5 * h))

/-- Diagonal, off-diagonals, and the weights of the boundary data `g` (`Ak0`, addressed by location and interior cell). -/
structure Sys where
  diag : Cell → ℝ
  off : Off
  ak0 : Side → Cell → ℝ

/-- `hh = h(location/2)`, source/fortran/2d/quatlevelsolver.m4:229. -/
def spacing (hx hy : ℝ) : Side → ℝ
  | .W => hx
  | .E => hx
  | .S => hy
  | .N => hy

/-- Loop body of `adjust_bdry2d`, source/fortran/2d/quatlevelsolver.m4:237-245; `w gho int` is the factor
`sqrt_m(igho,j)*gamma*sqrt_m(iint,j)` (1 in `adjbdry2d`). -/
noncomputable def adjustFace (w : Cell → Cell → ℝ) (hx hy : ℝ) (s : Sys) (f : BFace) : Sys :=
  let hh := spacing hx hy f.side
  let o := s.off.get f.cell f.side
  { diag := Function.update s.diag f.cell (s.diag f.cell + k1 f.a hh * o)
    off := s.off.clear f.cell f.side
    ak0 := fun sd c => if sd = f.side ∧ c = f.cell then uk0 f.a hh * o * w (nbr f.cell f.side) f.cell else s.ak0 sd c }

/-- `adjustBoundaryEntries` for all boundary boxes: source/QuatLevelSolver.cc:868-963,
source/samrai/CellPoissonHypreSolver.cc:1041-1141. -/
noncomputable def adjustAll (w : Cell → Cell → ℝ) (hx hy : ℝ) (s : Sys) (bs : List BdryBox) : Sys :=
  (bs.flatMap BdryBox.faces).foldl (adjustFace w hx hy) s

/-- `- offdiagx(i,j) - offdiagx(i+1,j) - offdiagy(i,j) - offdiagy(i,j+1)`,
source/fortran/2d/quatlevelsolver.m4:55-60. -/
def minusSum (o : Off) (c : Cell) : ℝ := -o.x c - o.x (c.1 + 1, c.2) - o.y c - o.y (c.1, c.2 + 1)

/-! ## `CellPoissonHypreSolver` -/

/-- Coefficients of `C u + M div(D grad u)`; spacing `hx`, `hy`. -/
structure Poisson where
  hx : ℝ
  hy : ℝ
  D : Off
  C : Cell → ℝ
  M : Cell → ℝ

/-- Off-diagonals `D/(h*h)`, source/samrai/CellPoissonHypreSolver.cc:880-896. -/
noncomputable def Poisson.off (P : Poisson) : Off :=
  { x := fun p => 1 / (P.hx * P.hx) * P.D.x p, y := fun p => 1 / (P.hy * P.hy) * P.D.y p }

/-- `msqrt`, source/samrai/CellPoissonHypreSolver.cc:910-920. -/
noncomputable def Poisson.ms (P : Poisson) (c : Cell) : ℝ := Real.sqrt (P.M c)

/-- `multiplyoffdiagbym`, source/fortran/2d/hyprepoisson.m4:4-37. -/
def multiplyOffDiag (o : Off) (m : Cell → ℝ) : Off :=
  { x := fun p => o.x p * m (p.1 - 1, p.2) * m p, y := fun p => o.y p * m (p.1, p.2 - 1) * m p }

/-- The system before the boundary adjustment, variable M: diagonal `C - sum`, then `-= C`, `*= M`, `+= C`
(source/samrai/CellPoissonHypreSolver.cc:898-908, 1000-1036; with constant C the same assignments at 944-977). -/
noncomputable def Poisson.raw (P : Poisson) : Sys :=
  { diag := fun c => ((P.C c + minusSum P.off c) - P.C c) * P.M c + P.C c
    off := multiplyOffDiag P.off P.ms
    ak0 := fun _ _ => 0 }

/-- The system for a constant M, source/samrai/CellPoissonHypreSolver.cc:924-943, 979-999. -/
noncomputable def Poisson.rawConst (P : Poisson) (m : ℝ) : Sys :=
  { diag := fun c => m * ((P.C c + minusSum P.off c) - P.C c) + P.C c
    off := { x := fun p => m * P.off.x p, y := fun p => m * P.off.y p }
    ak0 := fun _ _ => 0 }

noncomputable def Poisson.system (P : Poisson) (bs : List BdryBox) : Sys :=
  adjustAll (fun _ _ => 1) P.hx P.hy P.raw bs

noncomputable def Poisson.systemConst (P : Poisson) (m : ℝ) (bs : List BdryBox) : Sys :=
  adjustAll (fun _ _ => 1) P.hx P.hy (P.rawConst m) bs

/-- One row of the matrix.  Stored are the entries of the cell itself, of its west and of its south neighbour
(source/samrai/CellPoissonHypreSolver.cc:1143-1197); storage is symmetric, so the entry of the east neighbour is the
west entry stored for that neighbour.  Entries of cells that are not on the level do not exist. -/
noncomputable def row (cells : Finset Cell) (s : Sys) (v : Cell → ℝ) (c : Cell) : ℝ :=
  let westOf := fun p => s.off.x p
  let southOf := fun p => s.off.y p
  s.diag c * v c
    + (if nbr c .W ∈ cells then westOf c * v (nbr c .W) else 0)
    + (if nbr c .E ∈ cells then westOf (nbr c .E) * v (nbr c .E) else 0)
    + (if nbr c .S ∈ cells then southOf c * v (nbr c .S) else 0)
    + (if nbr c .N ∈ cells then southOf (nbr c .N) * v (nbr c .N) else 0)

/-- `solveSystem` with homogeneous boundary data and variable M, source/samrai/CellPoissonHypreSolver.cc:1467-1482,
1562-1581: `v` solves the system with right-hand side `f / sqrt M`, the result is `sqrt M * v`. -/
def Poisson.Solved (P : Poisson) (cells : Finset Cell) (bs : List BdryBox) (f u : Cell → ℝ) : Prop :=
  ∃ v : Cell → ℝ, (∀ c ∈ cells, row cells (P.system bs) v c = f c / P.ms c) ∧ ∀ c ∈ cells, u c = v c * P.ms c

/-- The same for constant M (no transformation). -/
def Poisson.SolvedConst (P : Poisson) (m : ℝ) (cells : Finset Cell) (bs : List BdryBox) (f u : Cell → ℝ) : Prop :=
  ∀ c ∈ cells, row cells (P.systemConst m bs) u c = f c

/-! ## `QuatLevelSolver` -/

/-- Data of one level: `m` is `sqrt_m`, `fc` the face coefficients. -/
structure QuatLevel where
  hx : ℝ
  hy : ℝ
  gamma : ℝ
  fc : Off
  m : Cell → ℝ

/-- `set_j_ij2d`, source/fortran/2d/quatlevelsolver.m4:9-63. -/
noncomputable def QuatLevel.raw (L : QuatLevel) : Sys :=
  let o : Off := { x := fun p => L.fc.x p * (1 / L.hx ^ 2), y := fun p => L.fc.y p * (1 / L.hy ^ 2) }
  { diag := minusSum o, off := o, ak0 := fun _ _ => 0 }

/-- Diagonals and off-diagonals after the boundary adjustment, source/QuatLevelSolver.cc:868-963. -/
noncomputable def QuatLevel.entries (L : QuatLevel) (bs : List BdryBox) : Sys :=
  adjustAll (fun gho int => L.m gho * L.gamma * L.m int) L.hx L.hy L.raw bs

/-- `set_symmetric_stencil2d`, source/fortran/2d/quatlevelsolver.m4:121-173: center, west, south. -/
noncomputable def QuatLevel.center (L : QuatLevel) (s : Sys) (c : Cell) : ℝ := L.gamma * L.m c * s.diag c * L.m c + 1
noncomputable def QuatLevel.west (L : QuatLevel) (s : Sys) (c : Cell) : ℝ := L.gamma * L.m c * s.off.x c * L.m (c.1 - 1, c.2)
noncomputable def QuatLevel.south (L : QuatLevel) (s : Sys) (c : Cell) : ℝ := L.gamma * L.m c * s.off.y c * L.m (c.1, c.2 - 1)

/-- `set_stencil2d` (used without SYMMETRIC_STENCIL), source/fortran/2d/quatlevelsolver.m4:65-119: east and north. -/
noncomputable def QuatLevel.east (L : QuatLevel) (s : Sys) (c : Cell) : ℝ :=
  L.gamma * L.m c * s.off.x (c.1 + 1, c.2) * L.m (c.1 + 1, c.2)
noncomputable def QuatLevel.north (L : QuatLevel) (s : Sys) (c : Cell) : ℝ :=
  L.gamma * L.m c * s.off.y (c.1, c.2 + 1) * L.m (c.1, c.2 + 1)

/-- One row of the matrix of one component, symmetric storage (source/QuatLevelSolver.cc:21, 965-1045). -/
noncomputable def QuatLevel.row (L : QuatLevel) (cells : Finset Cell) (s : Sys) (v : Cell → ℝ) (c : Cell) : ℝ :=
  L.center s c * v c
    + (if nbr c .W ∈ cells then L.west s c * v (nbr c .W) else 0)
    + (if nbr c .E ∈ cells then L.west s (nbr c .E) * v (nbr c .E) else 0)
    + (if nbr c .S ∈ cells then L.south s c * v (nbr c .S) else 0)
    + (if nbr c .N ∈ cells then L.south s (nbr c .N) * v (nbr c .N) else 0)

/-- `adjust_qrhs2d` over all boundary faces, source/fortran/2d/quatlevelsolver.m4:303-368 and
source/QuatLevelSolver.cc:1078-1190: `g` is the boundary datum by location and interior cell. -/
noncomputable def adjustRhs (s : Sys) (g : Side → Cell → ℝ) (rhs : Cell → ℝ) (bs : List BdryBox) : Cell → ℝ :=
  (bs.flatMap BdryBox.faces).foldl
    (fun r f => Function.update r f.cell (r f.cell - s.ak0 f.side f.cell * g f.side f.cell)) rhs

/-- `solveSystem(rhs, sol)` with the default `homogeneous_bc = false`, source/QuatLevelSolver.cc:1386-1640, one component
(solver types 0 and 1, which treat every component). -/
noncomputable def QuatLevel.Solved (L : QuatLevel) (cells : Finset Cell) (bs : List BdryBox) (g : Side → Cell → ℝ)
    (rhs v : Cell → ℝ) : Prop :=
  ∀ c ∈ cells, L.row cells (L.entries bs) v c = adjustRhs (L.entries bs) g rhs bs c

/-- `compute_sym_flux2d`, source/fortran/2d/quatfacops.m4:284-344. -/
noncomputable def QuatLevel.fx (L : QuatLevel) (q : Cell → ℝ) (c : Cell) : ℝ :=
  L.fc.x c * (1 / L.hx) * (L.m c * q c - L.m (c.1 - 1, c.2) * q (c.1 - 1, c.2))
noncomputable def QuatLevel.fy (L : QuatLevel) (q : Cell → ℝ) (c : Cell) : ℝ :=
  L.fc.y c * (1 / L.hy) * (L.m c * q c - L.m (c.1, c.2 - 1) * q (c.1, c.2 - 1))

/-- `compute_q_residual2d`, source/fortran/2d/quatfacops.m4:346-406. -/
noncomputable def QuatLevel.residual (L : QuatLevel) (rhs q : Cell → ℝ) (c : Cell) : ℝ :=
  let divergence := (L.fx q (c.1 + 1, c.2) - L.fx q c) * (1 / L.hx) + (L.fy q (c.1, c.2 + 1) - L.fy q c) * (1 / L.hy)
  rhs c - q c - L.gamma * L.m c * divergence

/-- Coefficients used at coarse-fine boundaries (`GhostCellRobinBcCoefs` of SAMRAI): a and g for a ghost value `x`. -/
noncomputable def cfA (h : ℝ) : ℝ := 1 / (1 + 0.5 * h)
noncomputable def cfG (h x : ℝ) : ℝ := x / (1 + 0.5 * h)

/-- `setBChomogeneous`, source/QuatIntegrator.cc:63-76, applied to the boundary objects of all linear solvers by `setupBC`
(source/QuatIntegrator.cc:1217-1283): the coefficients `a`, `b` of every side are kept, the data `g` become 0. -/
def setHomogeneous (coefs : Side → ℝ × ℝ × ℝ) : Side → ℝ × ℝ × ℝ := fun n =>
  let (a, b, _) := coefs n
  let g := 0
  (a, b, g)

end AMPE.LevelSolve
