import Mathlib.Algebra.Order.Archimedean.Real.Basic

/-!
# Filling the arrays of phase compositions

`PhaseConcentrationsStrategy::computePhaseConcentrations` (source/PhaseConcentrationsStrategy.cc:26-129) calls, on every patch, one of

* source/CALPHADequilibriumPhaseConcentrationsStrategy.cc:163-455,
* source/QuadraticEquilibriumPhaseConcentrationsStrategy.cc:42-143,
* source/EquilibriumPhaseConcentrationsBinaryMultiOrder.cc:27-151,
* source/EquilibriumPhaseConcentrationsBinaryMultiOrderThreePhases.cc:29-176,
* source/QuadraticEquilibriumThreePhasesTernaryStrategyMultiOrder.cc:48-181,
* source/KKSdiluteEquilibriumPhaseConcentrationsStrategy.cc:40-190,
* source/PartitionPhaseConcentrationsStrategy.cc:14-150,
* source/PhaseIndependentConcentrationsStrategy.cc:14-41

with data that have ghost cells (source/QuatIntegrator.cc:3112-3118); the compositions are read by the flux stencils of source/fortran/2d/flux.m4.
Ghost widths are those of the registration: source/QuatModel.cc:479-486, 1242-1256, 1375-1378, 1483-1485, 1574-1577, 1804-1808 and
source/QuatModelParameters.h:305-311.

Two dimensions.  An array entry is the tuple of all compositions, order parameters or species of a cell: the planes of one array have the
same box.  Library routine for the split: parameter `solve`.  `getTouchesRegularBoundary` with axis 2 is taken to be false.
-/

namespace AMPE.PhaseConc

/-- Index box. -/
structure Box where
  lo0 : ℤ
  hi0 : ℤ
  lo1 : ℤ
  hi1 : ℤ

/-- Box with ghost cells. -/
def Box.grow (b : Box) (w : ℤ) : Box := ⟨b.lo0 - w, b.hi0 + w, b.lo1 - w, b.hi1 + w⟩

/-- `numberCells(0)`, `numberCells(1)`. -/
def Box.n0 (b : Box) : ℤ := b.hi0 - b.lo0 + 1
def Box.n1 (b : Box) : ℤ := b.hi1 - b.lo1 + 1

/-- Position of a cell in an array with this box: e.g. source/QuadraticEquilibriumPhaseConcentrationsStrategy.cc:117-124. -/
def Box.idx (b : Box) (c : ℤ × ℤ) : ℤ := (c.1 - b.lo0) + (c.2 - b.lo1) * b.n0

/-- Cells in the order of the loops. -/
def Box.list (b : Box) : List (ℤ × ℤ) :=
  (List.range b.n1.toNat).flatMap fun (j : ℕ) => (List.range b.n0.toNat).map fun (i : ℕ) => (b.lo0 + (i : ℤ), b.lo1 + (j : ℤ))

/-- Sides of a patch on the boundary of the domain. -/
structure Touch where
  xlo : Bool
  xhi : Bool
  ylo : Bool
  yhi : Bool

/-- Routines. -/
inductive Method | calphad | quadratic | multiOrder | multiOrderThree | ternaryThree | dilute | partition | independent
  deriving DecidableEq

/-- Loop limits: source/CALPHADequilibriumPhaseConcentrationsStrategy.cc:259-321 (one layer less on the boundary of the domain if there are
two or more), source/QuadraticEquilibriumPhaseConcentrationsStrategy.cc:102-112 and the like (all ghost cells),
source/PartitionPhaseConcentrationsStrategy.cc:34, 82-97 and source/PhaseIndependentConcentrationsStrategy.cc:33-38 (patch only). -/
def region (m : Method) (w : ℤ) (t : Touch) (b : Box) : Box :=
  match m with
  | .calphad =>
    let g := b.grow w
    if 1 < w then
      ⟨if t.xlo then g.lo0 + 1 else g.lo0, if t.xhi then g.hi0 - 1 else g.hi0, if t.ylo then g.lo1 + 1 else g.lo1, if t.yhi then g.hi1 - 1 else g.hi1⟩
    else g
  | .partition => b
  | .independent => b
  | _ => b.grow w

/-- Input arrays: temperature, order parameters, composition, reference compositions, partition coefficients. -/
structure Inputs (P C V : Type) where
  te : ℤ → ℝ
  pf : ℤ → P
  conc : ℤ → C
  ref : ℤ → V
  k : ℤ → ℝ

/-- Ghost widths of temperature, phase and partition coefficient (composition is read with the box of the phase, reference values with the
box of the result). -/
structure Widths where
  te : ℤ
  pf : ℤ
  k : ℤ

/-- Value computed in one cell from what is read at the positions of that cell.  Starting values: reference values for `calphad`, the
previous values for `multiOrderThree`, none of importance otherwise. -/
def value {P C V : Type} (m : Method) (solve : ℝ → P → C → V → V) (split : ℝ → P → C → V) (copy : C → V) (b : Box) (wd : Widths) (w : ℤ)
    (a : Inputs P C V) (out : ℤ → V) (c : ℤ × ℤ) : V :=
  match m with
  | .calphad => solve (a.te ((b.grow wd.te).idx c)) (a.pf ((b.grow wd.pf).idx c)) (a.conc ((b.grow wd.pf).idx c)) (a.ref ((b.grow w).idx c))
  | .partition => split (a.k ((b.grow wd.k).idx c)) (a.pf ((b.grow wd.pf).idx c)) (a.conc ((b.grow wd.pf).idx c))
  | .independent => copy (a.conc ((b.grow wd.pf).idx c))
  | _ => solve (a.te ((b.grow wd.te).idx c)) (a.pf ((b.grow wd.pf).idx c)) (a.conc ((b.grow wd.pf).idx c)) (out ((b.grow w).idx c))

/-- Routines with one explicit position per array. -/
def fill {P C V : Type} (m : Method) (solve : ℝ → P → C → V → V) (split : ℝ → P → C → V) (copy : C → V) (b : Box) (wd : Widths) (w : ℤ)
    (t : Touch) (a : Inputs P C V) (out : ℤ → V) : ℤ → V :=
  (region m w t b).list.foldl (fun o c => Function.update o ((b.grow w).idx c) (value m solve split copy b wd w a o c)) out

/-- Registers of the loop of source/KKSdiluteEquilibriumPhaseConcentrationsStrategy.cc:136-187. -/
structure Run (V : Type) where
  pf : ℤ
  te : ℤ
  ci : ℤ
  out : ℤ → V

/-- Innermost body, lines 152-173. -/
def diluteCell {P C V : Type} (solve : ℝ → P → C → V → V) (a : Inputs P C V) (r : Run V) : Run V :=
  ⟨r.pf + 1, r.te + 1, r.ci + 1, Function.update r.out r.ci (solve (a.te r.te) (a.pf r.pf) (a.conc r.pf) (r.out r.ci))⟩

/-- A row, lines 150-180. -/
def diluteRow {P C V : Type} (solve : ℝ → P → C → V → V) (a : Inputs P C V) (wd : Widths) (w : ℤ) (n : ℕ) (r : Run V) : Run V :=
  let s := (diluteCell solve a)^[n] r
  ⟨s.pf + 2 * (wd.pf - w), s.te + 2 * (wd.te - w), s.ci, s.out⟩

/-- The whole loop with its starting positions, lines 136-187. -/
def diluteFill {P C V : Type} (solve : ℝ → P → C → V → V) (b : Box) (wd : Widths) (w : ℤ) (a : Inputs P C V) (out : ℤ → V) : ℤ → V :=
  let g := b.grow w
  ((diluteRow solve a wd w g.n0.toNat)^[g.n1.toNat]
    ⟨(b.grow wd.pf).idx (g.lo0, g.lo1), (b.grow wd.te).idx (g.lo0, g.lo1), g.idx (g.lo0, g.lo1), out⟩).out

/-- `computePhaseConcentrationsOnPatch` of the object chosen. -/
def compute {P C V : Type} (m : Method) (solve : ℝ → P → C → V → V) (split : ℝ → P → C → V) (copy : C → V) (b : Box) (wd : Widths) (w : ℤ)
    (t : Touch) (a : Inputs P C V) (out : ℤ → V) : ℤ → V :=
  match m with
  | .dilute => diluteFill solve b wd w a out
  | m => fill m solve split copy b wd w t a out

/-! ## What the fluxes read -/

/-- Stencils, source/EBSCompositionRHSStrategy.cc:149-154. -/
inductive Stencil | regular | isotropic | order4
  deriving DecidableEq

/-- Ghost cells of the run, source/QuatModelParameters.h:305-311. -/
def nghosts (s : Stencil) (upwind : Bool) : ℤ := if s = .order4 ∨ upwind = true then 2 else 1

/-- Cells read for the x face between `(i-1, j)` and `(i, j)`: source/fortran/2d/flux.m4:43-49, 103-113, 178-205. -/
def readsX (s : Stencil) (t : Touch) (b : Box) (i j : ℤ) : List (ℤ × ℤ) :=
  match s with
  | .regular => [(i, j), (i - 1, j)]
  | .isotropic => [(i, j + 1), (i - 1, j + 1), (i, j), (i - 1, j), (i, j - 1), (i - 1, j - 1)]
  | .order4 =>
    if (t.xlo = true ∧ i = b.lo0) ∨ (t.xhi = true ∧ i = b.hi0 + 1) then [(i, j), (i - 1, j)]
    else [(i, j), (i - 1, j), (i + 1, j), (i - 2, j)]

/-- The same for y faces: source/fortran/2d/flux.m4:51-57, 115-125, 206-237. -/
def readsY (s : Stencil) (t : Touch) (b : Box) (i j : ℤ) : List (ℤ × ℤ) :=
  match s with
  | .regular => [(i, j), (i, j - 1)]
  | .isotropic => [(i + 1, j), (i + 1, j - 1), (i, j), (i, j - 1), (i - 1, j), (i - 1, j - 1)]
  | .order4 =>
    if (t.ylo = true ∧ j = b.lo1) ∨ (t.yhi = true ∧ j = b.hi1 + 1) then [(i, j), (i, j - 1)]
    else [(i, j), (i, j - 1), (i, j + 1), (i, j - 2)]

/-- x flux of the regular stencil for one species in two phases, from the arrays: source/fortran/2d/flux.m4:43-49 called twice,
source/EBSCompositionRHSStrategy.cc:261-296. -/
noncomputable def fluxX (b : Box) (w : ℤ) (dx : ℝ) (dl da : ℤ × ℤ → ℝ) (out : ℤ → ℝ × ℝ) (i j : ℤ) : ℝ :=
  1 / dx * dl (i, j) * ((out ((b.grow w).idx (i, j))).1 - (out ((b.grow w).idx (i - 1, j))).1) +
  1 / dx * da (i, j) * ((out ((b.grow w).idx (i, j))).2 - (out ((b.grow w).idx (i - 1, j))).2)

/-! ## Work arrays -/

/-- Entries of `x[4]` used for `nphases` order parameters and `nc` species (no `eta`):
source/CALPHADequilibriumPhaseConcentrationsStrategy.cc:366-373, 436-442. -/
def xEntries (nphases nc : ℕ) : List ℕ :=
  (List.range nc).flatMap fun ic => if nphases = 3 then [ic, ic + nc, ic + 2 * nc] else [ic, ic + nc]

/-- All accesses within `ptr_phi[3]`, `phi[3]`, `hphi[3]` (lines 216-218, 354-361), `c[2]` (362-365) and `x[4]`. -/
def inBounds (nphases nc : ℕ) : Prop :=
  (∀ i ∈ List.range nphases, i < 3) ∧ (∀ i ∈ List.range nc, i < 2) ∧ ∀ i ∈ xEntries nphases nc, i < 4

end AMPE.PhaseConc
