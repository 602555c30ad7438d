import Verif.Model.DiffCoeff

/-!
# Solute flux written with the gradient of the phase (KKS and Beckermann forms)

Both forms compute a diffusion coefficient on every face, then a second coefficient that multiplies the gradient of the
phase, and call `concentrationflux` (`AMPE.Flux.concentrationFluxX`/`Y`).  Cell arrays are stored in memory in rows; the
C++ loops compute addresses by hand, which is why the arrays are kept as memory here (`CellArr`).  The face arrays are
given as functions of the face: both loops compute the address of a face from the ghost box of the array written, and the
Fortran routines are called with ghost width `0` for all of them.  The `assert`s on `k` (x faces only) are compiled out
of production builds and not modelled.
-/

namespace AMPE.Coupling

open AMPE.Functions AMPE.Flux AMPE.DiffCoeff

/-- A 2D patch: lower corner and number of cells in x (`pbox`). -/
structure Box where
  lo0 : ℤ
  lo1 : ℤ
  n0 : ℤ

/-- A cell array: its memory and its ghost width. -/
structure CellArr where
  mem : ℤ → ℝ
  g : ℤ

/-- `jp = gbox.numberCells(0)`, source/BeckermannCompositionRHSStrategy.cc:227-236. -/
def row (b : Box) (g : ℤ) : ℤ := b.n0 + 2 * g

/-- `(ii - imin) + (jj - jmin)*jp` for a ghost box of width `g`, source/BeckermannCompositionRHSStrategy.cc:281-290
(2D: `kp = 0`). -/
def addr (b : Box) (g i j : ℤ) : ℤ := (i - (b.lo0 - g)) + (j - (b.lo1 - g)) * row b g

/-- Value of cell `(i, j)` of an array, as every other part of the code reads it (`CELL2d`). -/
def CellArr.cell (b : Box) (u : CellArr) : Field2 := fun i j => u.mem (addr b u.g i j)

/-- Statements of one face of `setDiffusionCoeffForPhaseOnPatch`, source/BeckermannCompositionRHSStrategy.cc:292-304. -/
noncomputable def beckCoef (it at_ : Char) (d0 : ℝ) (phi c k : Pair) : Option ℝ := do
  let phi ← avgP at_ phi
  let hphi ← interpFunc it phi
  let c ← avgP at_ c
  let k ← avgP at_ k
  some (d0 * (1 - k) * c / (1 - hphi + k * hphi))

/-- x faces, source/BeckermannCompositionRHSStrategy.cc:271-307.  The addresses of `c` are computed from the ghost box of
`k` (`c_i_gbox = cd_k->getGhostBox()`, line 249). -/
noncomputable def beckCouplX (it at_ : Char) (b : Box) (d0 : Field2) (phi c k : CellArr) (i j : ℤ) : Option ℝ :=
  let idxPf := addr b phi.g i j
  let idxC := addr b k.g i j
  let idxK := addr b k.g i j
  beckCoef it at_ (d0 i j) (phi.mem idxPf, phi.mem (idxPf - 1)) (c.mem idxC, c.mem (idxC - 1))
    (k.mem idxK, k.mem (idxK - 1))

/-- y faces, source/BeckermannCompositionRHSStrategy.cc:309-345: the neighbour of `phi` and `c` is one row below, the
neighbour of `k` is `idx_k - 1` (line 328). -/
noncomputable def beckCouplY (it at_ : Char) (b : Box) (d0 : Field2) (phi c k : CellArr) (i j : ℤ) : Option ℝ :=
  let idxPf := addr b phi.g i j
  let idxC := addr b k.g i j
  let idxK := addr b k.g i j
  beckCoef it at_ (d0 i j) (phi.mem idxPf, phi.mem (idxPf - row b phi.g)) (c.mem idxC, c.mem (idxC - row b k.g))
    (k.mem idxK, k.mem (idxK - 1))

/-- Flux of the Beckermann form on an x face: `CONCENTRATIONDIFFUSION_BECKERMANN` (lines 138-151), the coupling
coefficient, `CONCENTRATIONFLUX` (lines 438-460).  Only the first composition has a flux. -/
noncomputable def beckFluxX (it at_ : Char) (b : Box) (dl ds dx : ℝ) (phi c k : CellArr) (i j : ℤ) : Option ℝ := do
  let d0 ← beckermannX it at_ dl ds (k.cell b) (phi.cell b) i j
  let cp ← beckCouplX it at_ b (fun _ _ => d0) phi c k i j
  some (concentrationFluxX dx (c.cell b) (phi.cell b) (fun _ _ => d0) (fun _ _ => cp) i j)

/-- Same on a y face. -/
noncomputable def beckFluxY (it at_ : Char) (b : Box) (dl ds dy : ℝ) (phi c k : CellArr) (i j : ℤ) : Option ℝ := do
  let d0 ← beckermannY it at_ dl ds (k.cell b) (phi.cell b) i j
  let cp ← beckCouplY it at_ b (fun _ _ => d0) phi c k i j
  some (concentrationFluxY dy (c.cell b) (phi.cell b) (fun _ _ => d0) (fun _ _ => cp) i j)

/-- Statements of one face of `setDiffCoeffForPhaseOnPatch`, source/KKSCompositionRHSStrategy.cc:291-300. -/
noncomputable def kksCoef (it at_ : Char) (d0 : ℝ) (phi cl ca : Pair) : Option ℝ := do
  let phi ← avgP at_ phi
  let hp ← derivInterpFunc it phi
  some (d0 * hp * (0.5 * (cl.1 + cl.2) - 0.5 * (ca.1 + ca.2)))

/-- Diffusion coefficient of a face: `CONCENTRATION_PFMDIFFUSION`, source/KKSCompositionRHSStrategy.cc:133-146. -/
noncomputable def kksDiff (it at_ : Char) (R : ℝ) (l s : Arrhenius) (phi temp : Pair) : Option ℝ := do
  let p ← twoPhase it at_ R l s phi temp
  some (p.1 + p.2)

/-- Flux of one composition `conc` on an x face, source/KKSCompositionRHSStrategy.cc:272-302, 419-440.  The arrays are
addressed with their own ghost boxes (lines 226-258), so they are given as fields; `cl`, `ca` are the first components of
the phase compositions whatever the composition whose flux is computed (`getPointer()`, lines 222-223). -/
noncomputable def kksFluxX (it at_ : Char) (R : ℝ) (l s : Arrhenius) (dx : ℝ) (temp phi cl ca conc : Field2) (i j : ℤ) :
    Option ℝ := do
  let d ← kksDiff it at_ R l s (X phi i j) (X temp i j)
  let cp ← kksCoef it at_ d (X phi i j).swap (X cl i j).swap (X ca i j).swap
  some (concentrationFluxX dx conc phi (fun _ _ => d) (fun _ _ => cp) i j)

/-- Same on a y face, source/KKSCompositionRHSStrategy.cc:304-339. -/
noncomputable def kksFluxY (it at_ : Char) (R : ℝ) (l s : Arrhenius) (dy : ℝ) (temp phi cl ca conc : Field2) (i j : ℤ) :
    Option ℝ := do
  let d ← kksDiff it at_ R l s (Y phi i j) (Y temp i j)
  let cp ← kksCoef it at_ d (Y phi i j).swap (Y cl i j).swap (Y ca i j).swap
  some (concentrationFluxY dy conc phi (fun _ _ => d) (fun _ _ => cp) i j)

end AMPE.Coupling
