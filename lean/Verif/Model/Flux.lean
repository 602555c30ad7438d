import Verif.Model.Functions
import Mathlib.Algebra.Order.Archimedean.Real.Basic
import Mathlib.Analysis.SpecialFunctions.Pow.Real
import Mathlib.Algebra.BigOperators.Group.Finset.Basic
import Mathlib.Algebra.BigOperators.Intervals

/-!
# Face fluxes and their divergence

Cell- and side-centred arrays (`CELL2d`, `SIDE2d0`, ...) are functions of integer indices; face `(i, j)` of
direction 0 is the face between cells `(i-1, j)` and `(i, j)`.  A loop that updates every entry of an array
exactly once from other arrays is written as the function of the entry; loops that write an entry several
times are written as folds over the loop.  Component loops `do j = 1, depth` that accumulate into one entry
are written as sums over `1..depth` (reals: order of summation does not matter).  Reads outside the ghost
region are not modelled (arrays are total).
-/

namespace AMPE.Flux

abbrev Field2 := ℤ → ℤ → ℝ
abbrev Field3 := ℤ → ℤ → ℤ → ℝ

/-- Slot of matrix entry `(i, j)`, `1 ≤ i, j ≤ depth`; source/fortran/2d/flux.m4:42 `ij=i+(j-1)*depth`. -/
def slot (depth i j : ℕ) : ℕ := i + (j - 1) * depth

/-! ## 2D diffusion fluxes -/

/-- `add_flux`, source/fortran/2d/flux.m4:11-62, x faces. -/
noncomputable def addFluxX (dx : ℝ) (depth : ℕ) (data d0 flux0 : ℕ → Field2) (i : ℕ) : Field2 :=
  fun i0 i1 => flux0 i i0 i1 + ∑ j ∈ Finset.Icc 1 depth,
    1 / dx * d0 (slot depth i j) i0 i1 * (data j i0 i1 - data j (i0 - 1) i1)

/-- `add_flux`, y faces. -/
noncomputable def addFluxY (dy : ℝ) (depth : ℕ) (data d1 flux1 : ℕ → Field2) (i : ℕ) : Field2 :=
  fun i0 i1 => flux1 i i0 i1 + ∑ j ∈ Finset.Icc 1 depth,
    1 / dy * d1 (slot depth i j) i0 i1 * (data j i0 i1 - data j i0 (i1 - 1))

/-- `add_flux_iso`, source/fortran/2d/flux.m4:69-131, x faces. -/
noncomputable def addFluxIsoX (dx : ℝ) (depth : ℕ) (data d0 flux0 : ℕ → Field2) (i : ℕ) : Field2 :=
  fun i0 i1 => flux0 i i0 i1 + ∑ j ∈ Finset.Icc 1 depth,
    (1 / (12 * dx) * d0 (slot depth i j) i0 (i1 + 1) * (data j i0 (i1 + 1) - data j (i0 - 1) (i1 + 1))
      + 10 / (12 * dx) * d0 (slot depth i j) i0 i1 * (data j i0 i1 - data j (i0 - 1) i1)
      + 1 / (12 * dx) * d0 (slot depth i j) i0 (i1 - 1) * (data j i0 (i1 - 1) - data j (i0 - 1) (i1 - 1)))

/-- `add_flux_iso`, y faces. -/
noncomputable def addFluxIsoY (dy : ℝ) (depth : ℕ) (data d1 flux1 : ℕ → Field2) (i : ℕ) : Field2 :=
  fun i0 i1 => flux1 i i0 i1 + ∑ j ∈ Finset.Icc 1 depth,
    (1 / (12 * dy) * d1 (slot depth i j) (i0 + 1) i1 * (data j (i0 + 1) i1 - data j (i0 + 1) (i1 - 1))
      + 10 / (12 * dy) * d1 (slot depth i j) i0 i1 * (data j i0 i1 - data j i0 (i1 - 1))
      + 1 / (12 * dy) * d1 (slot depth i j) (i0 - 1) i1 * (data j (i0 - 1) i1 - data j (i0 - 1) (i1 - 1)))

/-- `add_flux_4th`, source/fortran/2d/flux.m4:139-240, x faces of the patch `first..last` (direction 0), with
`physb(1)`, `physb(2)` telling whether the lower and upper side touch the physical boundary.  For a patch
one cell wide the two boundary faces are distinct, so the order of the branches does not matter. -/
noncomputable def addFlux4X (first last : ℤ) (pLo pHi : Bool) (dx : ℝ) (depth : ℕ)
    (data d0 flux0 : ℕ → Field2) (i : ℕ) : Field2 :=
  fun i0 i1 => flux0 i i0 i1 + ∑ j ∈ Finset.Icc 1 depth,
    if (pLo = true ∧ i0 = first) ∨ (pHi = true ∧ i0 = last + 1) then
      d0 (slot depth i j) i0 i1 * (1 / dx) * (data j i0 i1 - data j (i0 - 1) i1)
    else
      d0 (slot depth i j) i0 i1 * (15 / (12 * dx) * (data j i0 i1 - data j (i0 - 1) i1)
        - 1 / (12 * dx) * (data j (i0 + 1) i1 - data j (i0 - 2) i1))

/-- `add_flux_4th`, y faces. -/
noncomputable def addFlux4Y (first last : ℤ) (pLo pHi : Bool) (dy : ℝ) (depth : ℕ)
    (data d1 flux1 : ℕ → Field2) (i : ℕ) : Field2 :=
  fun i0 i1 => flux1 i i0 i1 + ∑ j ∈ Finset.Icc 1 depth,
    if (pLo = true ∧ i1 = first) ∨ (pHi = true ∧ i1 = last + 1) then
      d1 (slot depth i j) i0 i1 * (1 / dy) * (data j i0 i1 - data j i0 (i1 - 1))
    else
      d1 (slot depth i j) i0 i1 * (15 / (12 * dy) * (data j i0 i1 - data j i0 (i1 - 1))
        - 1 / (12 * dy) * (data j i0 (i1 + 1) - data j i0 (i1 - 2)))

/-- `concentrationflux`, source/fortran/2d/concentrationrhs.m4:15-80, x faces. -/
noncomputable def concentrationFluxX (dx : ℝ) (conc phi diff coupl : Field2) : Field2 := fun i0 i1 =>
  1 / dx * (diff i0 i1 * (conc i0 i1 - conc (i0 - 1) i1) + coupl i0 i1 * (phi i0 i1 - phi (i0 - 1) i1))

/-- `concentrationflux`, y faces. -/
noncomputable def concentrationFluxY (dy : ℝ) (conc phi diff coupl : Field2) : Field2 := fun i0 i1 =>
  1 / dy * (diff i0 i1 * (conc i0 i1 - conc i0 (i1 - 1)) + coupl i0 i1 * (phi i0 i1 - phi i0 (i1 - 1)))

/-- `addconcentrationfluxfromgradt`, source/fortran/2d/concentrationrhs.m4:369-432, x faces; `sideT` is the result
of `average_func` on the face (`AMPE.Functions.averageFunc`). -/
noncomputable def addGradTX (dx : ℝ) (temp mq sideT flux0 : Field2) : Field2 := fun i0 i1 =>
  flux0 i0 i1 - 1 / dx * mq i0 i1 * ((temp i0 i1 - temp (i0 - 1) i1) / sideT i0 i1)

/-- `addconcentrationfluxfromgradt`, y faces. -/
noncomputable def addGradTY (dy : ℝ) (temp mq sideT flux1 : Field2) : Field2 := fun i0 i1 =>
  flux1 i0 i1 - 1 / dy * mq i0 i1 * ((temp i0 i1 - temp i0 (i1 - 1)) / sideT i0 i1)

/-! ## Anti-trapping currents -/

/-- Gradient of a cell field on an x face: centred difference across the face and the average of the two
centred differences along it; source/fortran/2d/concentrationrhs.m4:484-488. -/
noncomputable def gradX (dx dy : ℝ) (phase : Field2) (i0 i1 : ℤ) : ℝ × ℝ :=
  (1 / dx * (phase i0 i1 - phase (i0 - 1) i1),
   1 / dy * 0.25 * (phase (i0 - 1) (i1 + 1) - phase (i0 - 1) (i1 - 1)
     + phase i0 (i1 + 1) - phase i0 (i1 - 1)))

/-- Gradient on a y face; source/fortran/2d/concentrationrhs.m4:508-511. -/
noncomputable def gradY (dx dy : ℝ) (phase : Field2) (i0 i1 : ℤ) : ℝ × ℝ :=
  (1 / dx * 0.25 * (phase (i0 + 1) (i1 - 1) - phase (i0 - 1) (i1 - 1)
     + phase (i0 + 1) i1 - phase (i0 - 1) i1),
   1 / dy * (phase i0 i1 - phase i0 (i1 - 1)))

/-- `tol2`; the single-precision literal `1.e-8` is taken as exact. -/
noncomputable def tol2 : ℝ := 1e-8 * 1e-8

/-- Mean of the two cells next to an x face. -/
noncomputable def avgX (u : Field2) (i0 i1 : ℤ) : ℝ := 0.5 * (u (i0 - 1) i1 + u i0 i1)

/-- Mean of the two cells next to a y face. -/
noncomputable def avgY (u : Field2) (i0 i1 : ℤ) : ℝ := 0.5 * (u i0 (i1 - 1) + u i0 i1)

/-- Two-phase contribution for the face gradient `g` of the solid fraction, `n` its component normal to the
face: source/fortran/2d/concentrationrhs.m4:489-503. -/
noncomputable def antitrap2 (alpha : ℝ) (g : ℝ × ℝ) (n cl ca dpdt : ℝ) : ℝ :=
  let dphi2 := g.1 * g.1 + g.2 * g.2
  if |dphi2| > tol2 then alpha * (n / Real.sqrt dphi2) * (cl - ca) * dpdt else 0

/-- `addconcentrationfluxfromantitrapping`, source/fortran/2d/concentrationrhs.m4:439-524, x faces, one species. -/
noncomputable def addAntitrap2X (dx dy alpha : ℝ) (phase cl ca dphidt flux0 : Field2) : Field2 := fun i0 i1 =>
  flux0 i0 i1 + antitrap2 alpha (gradX dx dy phase i0 i1) (gradX dx dy phase i0 i1).1
    (avgX cl i0 i1) (avgX ca i0 i1) (avgX dphidt i0 i1)

/-- `addconcentrationfluxfromantitrapping`, y faces. -/
noncomputable def addAntitrap2Y (dx dy alpha : ℝ) (phase cl ca dphidt flux1 : Field2) : Field2 := fun i0 i1 =>
  flux1 i0 i1 + antitrap2 alpha (gradY dx dy phase i0 i1) (gradY dx dy phase i0 i1).2
    (avgY cl i0 i1) (avgY ca i0 i1) (avgY dphidt i0 i1)

/-- Contribution of one solid phase in the three-phase routine: `g` gradient of the liquid fraction, `n` its
normal component, `gp` gradient of the solid fraction; source/fortran/2d/concentrationrhs.m4:583-616. -/
noncomputable def antitrap3 (alpha : ℝ) (g : ℝ × ℝ) (n : ℝ) (gp : ℝ × ℝ) (cl cp dpdt : ℝ) : ℝ :=
  let dphi2 := g.1 * g.1 + g.2 * g.2
  if |dphi2| > tol2 then
    let dphip2 := gp.1 * gp.1 + gp.2 * gp.2
    if |dphip2| > tol2 then
      let factor := -1 * (gp.1 * g.1 + gp.2 * g.2) / (Real.sqrt dphip2 * Real.sqrt dphi2)
      alpha * factor * (n / Real.sqrt dphi2) * (cl - cp) * dpdt
    else 0
  else 0

/-- `addconcentrationfluxfromantitrapping3phases`, source/fortran/2d/concentrationrhs.m4:529-668, x faces; `phase 1`
is the liquid, `phase 2`, `phase 3` the solids. -/
noncomputable def addAntitrap3X (dx dy alpha : ℝ) (phase : ℕ → Field2) (cl ca cb : Field2)
    (dphidt : ℕ → Field2) (flux0 : Field2) : Field2 := fun i0 i1 =>
  flux0 i0 i1
    + antitrap3 alpha (gradX dx dy (phase 1) i0 i1) (gradX dx dy (phase 1) i0 i1).1 (gradX dx dy (phase 2) i0 i1)
        (avgX cl i0 i1) (avgX ca i0 i1) (avgX (dphidt 2) i0 i1)
    + antitrap3 alpha (gradX dx dy (phase 1) i0 i1) (gradX dx dy (phase 1) i0 i1).1 (gradX dx dy (phase 3) i0 i1)
        (avgX cl i0 i1) (avgX cb i0 i1) (avgX (dphidt 3) i0 i1)

/-- `addconcentrationfluxfromantitrapping3phases`, y faces. -/
noncomputable def addAntitrap3Y (dx dy alpha : ℝ) (phase : ℕ → Field2) (cl ca cb : Field2)
    (dphidt : ℕ → Field2) (flux1 : Field2) : Field2 := fun i0 i1 =>
  flux1 i0 i1
    + antitrap3 alpha (gradY dx dy (phase 1) i0 i1) (gradY dx dy (phase 1) i0 i1).2 (gradY dx dy (phase 2) i0 i1)
        (avgY cl i0 i1) (avgY ca i0 i1) (avgY (dphidt 2) i0 i1)
    + antitrap3 alpha (gradY dx dy (phase 1) i0 i1) (gradY dx dy (phase 1) i0 i1).2 (gradY dx dy (phase 3) i0 i1)
        (avgY cl i0 i1) (avgY cb i0 i1) (avgY (dphidt 3) i0 i1)

/-- Multi-order-parameter contribution: `g` gradient of the liquid (last) order parameter, `gp` gradient of
the sum of the solid ones; source/fortran/2d/concentrationrhs.m4:713-764. -/
noncomputable def antitrapMulti (alpha : ℝ) (g : ℝ × ℝ) (n : ℝ) (gp : ℝ × ℝ) (cl ca dpdt : ℝ) : ℝ :=
  let dphi2 := g.1 * g.1 + g.2 * g.2
  if dphi2 > tol2 then
    let dphip2 := gp.1 * gp.1 + gp.2 * gp.2
    if dphip2 > tol2 then -(alpha * (n / Real.sqrt dphi2) * (cl - ca) * dpdt) else 0
  else 0

/-- `addconcentrationfluxfromantitrappingmultiorderp`, source/fortran/2d/concentrationrhs.m4:670-801, x faces; the
gradient and rate of the solid are accumulated over `ip = 1..norderp-1`. -/
noncomputable def addAntitrapMultiX (dx dy alpha : ℝ) (norderp : ℕ) (phase : ℕ → Field2) (cl ca : Field2)
    (dphidt : ℕ → Field2) (flux0 : Field2) : Field2 := fun i0 i1 =>
  flux0 i0 i1 + antitrapMulti alpha (gradX dx dy (phase norderp) i0 i1) (gradX dx dy (phase norderp) i0 i1).1
    (∑ ip ∈ Finset.Icc 1 (norderp - 1), (gradX dx dy (phase ip) i0 i1).1,
     ∑ ip ∈ Finset.Icc 1 (norderp - 1), (gradX dx dy (phase ip) i0 i1).2)
    (avgX cl i0 i1) (avgX ca i0 i1) (∑ ip ∈ Finset.Icc 1 (norderp - 1), avgX (dphidt ip) i0 i1)

/-- `addconcentrationfluxfromantitrappingmultiorderp`, y faces. -/
noncomputable def addAntitrapMultiY (dx dy alpha : ℝ) (norderp : ℕ) (phase : ℕ → Field2) (cl ca : Field2)
    (dphidt : ℕ → Field2) (flux1 : Field2) : Field2 := fun i0 i1 =>
  flux1 i0 i1 + antitrapMulti alpha (gradY dx dy (phase norderp) i0 i1) (gradY dx dy (phase norderp) i0 i1).2
    (∑ ip ∈ Finset.Icc 1 (norderp - 1), (gradY dx dy (phase ip) i0 i1).1,
     ∑ ip ∈ Finset.Icc 1 (norderp - 1), (gradY dx dy (phase ip) i0 i1).2)
    (avgY cl i0 i1) (avgY ca i0 i1) (∑ ip ∈ Finset.Icc 1 (norderp - 1), avgY (dphidt ip) i0 i1)

/-! ## Cahn-Hilliard and sintering fluxes (scatter loops) -/

/-- Five-point Laplacian, source/fortran/2d/concentrationrhs.m4:118-121. -/
noncomputable def lap2 (dx dy : ℝ) (c : Field2) (i0 i1 : ℤ) : ℝ :=
  1 / dx * (1 / dx) * (-2 * c i0 i1 + c (i0 - 1) i1 + c (i0 + 1) i1)
    + 1 / dy * (1 / dy) * (-2 * c i0 i1 + c i0 (i1 - 1) + c i0 (i1 + 1))

/-- Chemical potential of `add_cahnhilliarddoublewell_flux`, source/fortran/2d/concentrationrhs.m4:122-123. -/
noncomputable def muCH (ca cb wellScale kappa : ℝ) (dx dy : ℝ) (conc : Field2) (i0 i1 : ℤ) : ℝ :=
  let c := conc i0 i1
  2 * wellScale * (c - ca) * (cb - c) * (cb + ca - 2 * c) - kappa * lap2 dx dy conc i0 i1

/-- Chemical potential of `add_wang_sintering_flux`, source/fortran/2d/concentrationrhs.m4:204-213; the sums of squares and
cubes over the order parameters are accumulated at 180-199. -/
noncomputable def muWang (a b kappa : ℝ) (dx dy : ℝ) (norder : ℕ) (conc : Field2) (phi : ℕ → Field2)
    (i0 i1 : ℤ) : ℝ :=
  let c := conc i0 i1
  2 * a * c * (1 - c) * (1 - 2 * c)
    + 2 * b * (c - 3 * (∑ ip ∈ Finset.Icc 1 norder, phi ip i0 i1 * phi ip i0 i1)
        + 2 * (∑ ip ∈ Finset.Icc 1 norder, phi ip i0 i1 * phi ip i0 i1 * phi ip i0 i1))
    - kappa * lap2 dx dy conc i0 i1

/-- `array(k) = array(k) + v`. -/
def addAt (f : ℤ × ℤ → ℝ) (k : ℤ × ℤ) (v : ℝ) : ℤ × ℤ → ℝ := fun x => if x = k then f x + v else f x

/-- `do ic1 = lo1, hi1; do ic0 = lo0, hi0`. -/
def loop2 (lo0 hi0 lo1 hi1 : ℤ) : List (ℤ × ℤ) :=
  (List.range (hi1 - lo1 + 1).toNat).flatMap fun b : ℕ =>
    (List.range (hi0 - lo0 + 1).toNat).map fun a : ℕ => (lo0 + (a : ℤ), lo1 + (b : ℤ))

/-- The x-face part of the scatter loop of `add_cahnhilliarddoublewell_flux`
(source/fortran/2d/concentrationrhs.m4:116-133) and, with a face coefficient `diff`, of `add_wang_sintering_flux`
(201-222): every cell of the patch grown by one adds to its lower face and subtracts from its upper one. -/
noncomputable def scatterX (first0 last0 first1 last1 : ℤ) (dx mobility : ℝ) (diff mu : ℤ → ℤ → ℝ)
    (flux0 : ℤ × ℤ → ℝ) : ℤ × ℤ → ℝ :=
  (loop2 (first0 - 1) (last0 + 1) (first1 - 1) (last1 + 1)).foldl (fun f c =>
    addAt (addAt f (c.1, c.2) (mobility * diff c.1 c.2 * (1 / dx) * mu c.1 c.2))
      (c.1 + 1, c.2) (-(mobility * diff (c.1 + 1) c.2 * (1 / dx) * mu c.1 c.2))) flux0

/-- The y-face part of the same loops. -/
noncomputable def scatterY (first0 last0 first1 last1 : ℤ) (dy mobility : ℝ) (diff mu : ℤ → ℤ → ℝ)
    (flux1 : ℤ × ℤ → ℝ) : ℤ × ℤ → ℝ :=
  (loop2 (first0 - 1) (last0 + 1) (first1 - 1) (last1 + 1)).foldl (fun f c =>
    addAt (addAt f (c.1, c.2) (mobility * diff c.1 c.2 * (1 / dy) * mu c.1 c.2))
      (c.1, c.2 + 1) (-(mobility * diff c.1 (c.2 + 1) * (1 / dy) * mu c.1 c.2))) flux1

/-! ## Spinodal flux -/

/-- `concentrationflux_spinodal`, source/fortran/2d/concentrationrhs.m4:231-319, x faces, one species
(`maxncomp=1`). -/
noncomputable def spinodalX (dx kappa : ℝ) (conc conca concb diff eta : Field2) : Field2 := fun i0 i1 =>
  1 / dx * (diff i0 i1 * (conc i0 i1 - conc (i0 - 1) i1)
    - kappa * (0.5 * (conca (i0 - 1) i1 + conca i0 i1) - 0.5 * (concb (i0 - 1) i1 + concb i0 i1))
      * (eta i0 i1 - eta (i0 - 1) i1))

/-- `concentrationflux_spinodal`, y faces. -/
noncomputable def spinodalY (dy kappa : ℝ) (conc conca concb diff eta : Field2) : Field2 := fun i0 i1 =>
  1 / dy * (diff i0 i1 * (conc i0 i1 - conc i0 (i1 - 1))
    - kappa * (0.5 * (conca i0 (i1 - 1) + conca i0 i1) - 0.5 * (concb i0 (i1 - 1) + concb i0 i1))
      * (eta i0 i1 - eta i0 (i1 - 1)))

/-- A patch box of a 3D level. -/
structure Box3 where
  lo0 : ℤ
  hi0 : ℤ
  lo1 : ℤ
  hi1 : ℤ
  lo2 : ℤ
  hi2 : ℤ

/-- `concentrationflux_spinodal`, source/fortran/3d/concentrationrhs.m4:335-356, the y-face block. -/
noncomputable def spinodal3Y (dy kappa : ℝ) (conc conca concb diff eta : Field3) : Field3 := fun i0 i1 i2 =>
  1 / dy * (diff i0 i1 i2 * (conc i0 i1 i2 - conc i0 (i1 - 1) i2)
    - kappa * (0.5 * (conca i0 (i1 - 1) i2 + conca i0 i1 i2) - 0.5 * (concb i0 (i1 - 1) i2 + concb i0 i1 i2))
      * (eta i0 i1 i2 - eta i0 (i1 - 1) i2))

/-- `concentrationflux_spinodal`, source/fortran/3d/concentrationrhs.m4:358-381, the z-face block: it resets `flux1`
instead of `flux2` at every cell it visits (`ic0` in `lo0..hi0`, `ic1` in `lo1..hi1`, `ic2` in `lo2..hi2+1`). -/
noncomputable def spinodal3YAfterZ (b : Box3) (flux1 : Field3) : Field3 := fun i0 i1 i2 =>
  if b.lo0 ≤ i0 ∧ i0 ≤ b.hi0 ∧ b.lo1 ≤ i1 ∧ i1 ≤ b.hi1 ∧ b.lo2 ≤ i2 ∧ i2 ≤ b.hi2 + 1 then 0
  else flux1 i0 i1 i2

/-- The y flux a patch ends up with after the whole 3D routine. -/
noncomputable def spinodal3YFinal (b : Box3) (dy kappa : ℝ) (conc conca concb diff eta : Field3) : Field3 :=
  spinodal3YAfterZ b (spinodal3Y dy kappa conc conca concb diff eta)

/-! ## 3D diffusion fluxes -/

/-- `add_flux`, source/fortran/3d/flux.m4:15-96; direction 0. -/
noncomputable def addFlux3X (dx : ℝ) (depth : ℕ) (data d0 flux0 : ℕ → Field3) (i : ℕ) : Field3 :=
  fun i0 i1 i2 => flux0 i i0 i1 i2 + ∑ j ∈ Finset.Icc 1 depth,
    1 / dx * (d0 (slot depth i j) i0 i1 i2 * (data j i0 i1 i2 - data j (i0 - 1) i1 i2))

/-- `add_flux`, direction 1. -/
noncomputable def addFlux3Y (dy : ℝ) (depth : ℕ) (data d1 flux1 : ℕ → Field3) (i : ℕ) : Field3 :=
  fun i0 i1 i2 => flux1 i i0 i1 i2 + ∑ j ∈ Finset.Icc 1 depth,
    1 / dy * (d1 (slot depth i j) i0 i1 i2 * (data j i0 i1 i2 - data j i0 (i1 - 1) i2))

/-- `add_flux`, direction 2. -/
noncomputable def addFlux3Z (dz : ℝ) (depth : ℕ) (data d2 flux2 : ℕ → Field3) (i : ℕ) : Field3 :=
  fun i0 i1 i2 => flux2 i i0 i1 i2 + ∑ j ∈ Finset.Icc 1 depth,
    1 / dz * (d2 (slot depth i j) i0 i1 i2 * (data j i0 i1 i2 - data j i0 i1 (i2 - 1)))

/-- `add_flux_iso`, source/fortran/3d/flux.m4:103-233; direction 0. -/
noncomputable def addFluxIso3X (dx : ℝ) (depth : ℕ) (data d0 flux0 : ℕ → Field3) (i : ℕ) : Field3 :=
  fun i0 i1 i2 => flux0 i i0 i1 i2 + ∑ j ∈ Finset.Icc 1 depth,
    (1 / (12 * dx) * (d0 (slot depth i j) i0 (i1 - 1) i2 * (data j i0 (i1 - 1) i2 - data j (i0 - 1) (i1 - 1) i2))
      + 1 / (12 * dx) * (d0 (slot depth i j) i0 i1 (i2 - 1) * (data j i0 i1 (i2 - 1) - data j (i0 - 1) i1 (i2 - 1)))
      + 1 / (12 * dx) * (d0 (slot depth i j) i0 (i1 + 1) i2 * (data j i0 (i1 + 1) i2 - data j (i0 - 1) (i1 + 1) i2))
      + 1 / (12 * dx) * (d0 (slot depth i j) i0 i1 (i2 + 1) * (data j i0 i1 (i2 + 1) - data j (i0 - 1) i1 (i2 + 1)))
      + 8 / (12 * dx) * (d0 (slot depth i j) i0 i1 i2 * (data j i0 i1 i2 - data j (i0 - 1) i1 i2)))

/-- `add_flux_iso`, direction 1. -/
noncomputable def addFluxIso3Y (dy : ℝ) (depth : ℕ) (data d1 flux1 : ℕ → Field3) (i : ℕ) : Field3 :=
  fun i0 i1 i2 => flux1 i i0 i1 i2 + ∑ j ∈ Finset.Icc 1 depth,
    (1 / (12 * dy) * (d1 (slot depth i j) (i0 - 1) i1 i2 * (data j (i0 - 1) i1 i2 - data j (i0 - 1) (i1 - 1) i2))
      + 1 / (12 * dy) * (d1 (slot depth i j) (i0 + 1) i1 i2 * (data j (i0 + 1) i1 i2 - data j (i0 + 1) (i1 - 1) i2))
      + 1 / (12 * dy) * (d1 (slot depth i j) i0 i1 (i2 - 1) * (data j i0 i1 (i2 - 1) - data j i0 (i1 - 1) (i2 - 1)))
      + 1 / (12 * dy) * (d1 (slot depth i j) i0 i1 (i2 + 1) * (data j i0 i1 (i2 + 1) - data j i0 (i1 - 1) (i2 + 1)))
      + 8 / (12 * dy) * (d1 (slot depth i j) i0 i1 i2 * (data j i0 i1 i2 - data j i0 (i1 - 1) i2)))

/-- `add_flux_iso`, direction 2. -/
noncomputable def addFluxIso3Z (dz : ℝ) (depth : ℕ) (data d2 flux2 : ℕ → Field3) (i : ℕ) : Field3 :=
  fun i0 i1 i2 => flux2 i i0 i1 i2 + ∑ j ∈ Finset.Icc 1 depth,
    (1 / (12 * dz) * (d2 (slot depth i j) (i0 - 1) i1 i2 * (data j (i0 - 1) i1 i2 - data j (i0 - 1) i1 (i2 - 1)))
      + 1 / (12 * dz) * (d2 (slot depth i j) (i0 + 1) i1 i2 * (data j (i0 + 1) i1 i2 - data j (i0 + 1) i1 (i2 - 1)))
      + 1 / (12 * dz) * (d2 (slot depth i j) i0 (i1 - 1) i2 * (data j i0 (i1 - 1) i2 - data j i0 (i1 - 1) (i2 - 1)))
      + 1 / (12 * dz) * (d2 (slot depth i j) i0 (i1 + 1) i2 * (data j i0 (i1 + 1) i2 - data j i0 (i1 + 1) (i2 - 1)))
      + 8 / (12 * dz) * (d2 (slot depth i j) i0 i1 i2 * (data j i0 i1 i2 - data j i0 i1 (i2 - 1))))

/-! ## Divergence -/

/-- `computerhsconcentration`, source/fortran/2d/concentrationrhs.m4:326-362. -/
noncomputable def rhs2 (dx dy mobility : ℝ) (flux0 flux1 : Field2) : Field2 := fun i0 i1 =>
  mobility * (1 / dx * (flux0 (i0 + 1) i1 - flux0 i0 i1) + 1 / dy * (flux1 i0 (i1 + 1) - flux1 i0 i1))

/-- `computerhsconcentration`, source/fortran/3d/concentrationrhs.m4:412-453. -/
noncomputable def rhs3 (dx dy dz mobility : ℝ) (flux0 flux1 flux2 : Field3) : Field3 := fun i0 i1 i2 =>
  mobility * (1 / dx * (flux0 (i0 + 1) i1 i2 - flux0 i0 i1 i2) + 1 / dy * (flux1 i0 (i1 + 1) i2 - flux1 i0 i1 i2)
    + 1 / dz * (flux2 i0 i1 (i2 + 1) - flux2 i0 i1 i2))

/-- Coarse x flux taken over from the finer level, source/QuatIntegrator.cc:2616-2620 with the registered
`CONSERVATIVE_COARSEN` (945-959): the mean of the `r` fine face values on the coarse face (SAMRAI library
operator, modelled from its specification: area-weighted average). -/
noncomputable def coarsenX (r : ℕ) (fine : Field2) : Field2 := fun i0 i1 =>
  (1 / (r : ℝ)) * ∑ b ∈ Finset.range r, fine ((r : ℤ) * i0) ((r : ℤ) * i1 + (b : ℤ))

/-- Coarse y flux taken over from the finer level. -/
noncomputable def coarsenY (r : ℕ) (fine : Field2) : Field2 := fun i0 i1 =>
  (1 / (r : ℝ)) * ∑ a ∈ Finset.range r, fine ((r : ℤ) * i0 + (a : ℤ)) ((r : ℤ) * i1)

/-- The composite x flux: faces of covered cells take the coarsened value, the others keep their own. -/
noncomputable def compositeX (r : ℕ) (covered : ℤ → ℤ → Bool) (coarse fine : Field2) : Field2 := fun i0 i1 =>
  if covered i0 i1 ∨ covered (i0 - 1) i1 then coarsenX r fine i0 i1 else coarse i0 i1

/-- The composite y flux. -/
noncomputable def compositeY (r : ℕ) (covered : ℤ → ℤ → Bool) (coarse fine : Field2) : Field2 := fun i0 i1 =>
  if covered i0 i1 ∨ covered i0 (i1 - 1) then coarsenY r fine i0 i1 else coarse i0 i1

/-! ## Slot of the preconditioner's diffusion coefficient -/

/-- `depth_in_Dmat`, source/EBSCompositionRHSStrategy.cc:374 (0-based species index). -/
def precondSlot (ic : ℕ) : ℕ := (ic + 1) * (ic + 1) - 1

end AMPE.Flux
