import Verif.Model.Coupling

/-!
# Solute flux written with the gradient of the phase, three dimensions

The 3D build of the loops of `AMPE.Coupling`.  Cell arrays are kept as memory, as there.  The face arrays are given by the
value of the face; the hand-computed addresses of faces are modelled separately (`sideX`, ...) beside the addresses that
the Fortran declarations give to the same faces (`fortSideX`, ...).  The `assert`s on `k` are not modelled.
-/

namespace AMPE.Coupling3

open AMPE.Functions AMPE.Flux AMPE.DiffCoeff AMPE.Coupling

/-- A 3D patch: lower corner and numbers of cells in x and y (`pbox`). -/
structure Box3 where
  lo0 : ℤ
  lo1 : ℤ
  lo2 : ℤ
  n0 : ℤ
  n1 : ℤ

/-- `jp = gbox.numberCells(0)`, source/BeckermannCompositionRHSStrategy.cc:230-234. -/
def row (b : Box3) (g : ℤ) : ℤ := b.n0 + 2 * g

/-- `kp = jp * gbox.numberCells(1)`, source/BeckermannCompositionRHSStrategy.cc:237-240. -/
def plane (b : Box3) (g : ℤ) : ℤ := row b g * (b.n1 + 2 * g)

/-- `(ii - imin) + (jj - jmin)*jp + (kk - kmin)*kp`, source/BeckermannCompositionRHSStrategy.cc:281-290. -/
def addr (b : Box3) (g i j l : ℤ) : ℤ :=
  (i - (b.lo0 - g)) + (j - (b.lo1 - g)) * row b g + (l - (b.lo2 - g)) * plane b g

/-- Value of cell `(i, j, l)`, as every other part of the code reads it (`CELL3d`). -/
def cell (b : Box3) (u : CellArr) : Field3 := fun i j l => u.mem (addr b u.g i j l)

/-! ## Addresses of faces -/

/-- `idx_dcoeff` of an x face, source/BeckermannCompositionRHSStrategy.cc:277-279,
source/KKSCompositionRHSStrategy.cc:284-286. -/
def sideX (b : Box3) (g i j l : ℤ) : ℤ :=
  (i - (b.lo0 - g)) + (j - (b.lo1 - g)) * (row b g + 1) + (l - (b.lo2 - g)) * (plane b g + (b.n1 + 2 * g))

/-- `idx_dcoeff` of a y face, source/BeckermannCompositionRHSStrategy.cc:314-316. -/
def sideY (b : Box3) (g i j l : ℤ) : ℤ :=
  (i - (b.lo0 - g)) + (j - (b.lo1 - g)) * row b g + (l - (b.lo2 - g)) * (plane b g + row b g)

/-- `idx_dcoeff` of a z face, source/BeckermannCompositionRHSStrategy.cc:353-355. -/
def sideZ (b : Box3) (g i j l : ℤ) : ℤ :=
  (i - (b.lo0 - g)) + (j - (b.lo1 - g)) * row b g + (l - (b.lo2 - g)) * plane b g

/-- Address of element `(i, j, l)` of a Fortran array with lower bounds `a0, a1, a2` and extents `e0, e1` of the first two
dimensions (column-major order, specification of the language). -/
def fort (a0 a1 a2 e0 e1 i j l : ℤ) : ℤ := (i - a0) + e0 * ((j - a1) + e1 * (l - a2))

/-- `SIDE3d0(ifirst,ilast,g)`, source/fortran/pdat_m4arrdim3d.i:76-78: one face more than cells along x. -/
def fortSideX (b : Box3) (g i j l : ℤ) : ℤ :=
  fort (b.lo0 - g) (b.lo1 - g) (b.lo2 - g) (b.n0 + 1 + 2 * g) (b.n1 + 2 * g) i j l

/-- `SIDE3d1(ifirst,ilast,g)`, source/fortran/pdat_m4arrdim3d.i:79-81. -/
def fortSideY (b : Box3) (g i j l : ℤ) : ℤ :=
  fort (b.lo0 - g) (b.lo1 - g) (b.lo2 - g) (b.n0 + 2 * g) (b.n1 + 1 + 2 * g) i j l

/-- `SIDE3d2(ifirst,ilast,g)`, source/fortran/pdat_m4arrdim3d.i:82-84. -/
def fortSideZ (b : Box3) (g i j l : ℤ) : ℤ :=
  fort (b.lo0 - g) (b.lo1 - g) (b.lo2 - g) (b.n0 + 2 * g) (b.n1 + 2 * g) i j l

/-! ## Flux of a face -/

/-- `concentrationflux`, source/fortran/3d/concentrationrhs.m4:14-100: the statement of one face with coefficients `d` and
`cp`; pairs are (lower cell, upper cell). -/
noncomputable def concFlux (h d cp : ℝ) (c phi : Pair) : ℝ :=
  1 / h * (d * (c.2 - c.1) + cp * (phi.2 - phi.1))

/-! ## Beckermann form -/

/-- Coupling coefficient of x faces, source/BeckermannCompositionRHSStrategy.cc:271-307; `c` is addressed with the ghost
box of `k` (line 249). -/
noncomputable def beckCouplX (it at_ : Char) (b : Box3) (d0 : ℝ) (phi c k : CellArr) (i j l : ℤ) : Option ℝ :=
  let idxPf := addr b phi.g i j l
  let idxC := addr b k.g i j l
  let idxK := addr b k.g i j l
  beckCoef it at_ d0 (phi.mem idxPf, phi.mem (idxPf - 1)) (c.mem idxC, c.mem (idxC - 1))
    (k.mem idxK, k.mem (idxK - 1))

/-- y faces, source/BeckermannCompositionRHSStrategy.cc:309-345: `idxm1_k = idx_k - 1` (line 328). -/
noncomputable def beckCouplY (it at_ : Char) (b : Box3) (d0 : ℝ) (phi c k : CellArr) (i j l : ℤ) : Option ℝ :=
  let idxPf := addr b phi.g i j l
  let idxC := addr b k.g i j l
  let idxK := addr b k.g i j l
  beckCoef it at_ d0 (phi.mem idxPf, phi.mem (idxPf - row b phi.g)) (c.mem idxC, c.mem (idxC - row b k.g))
    (k.mem idxK, k.mem (idxK - 1))

/-- z faces, source/BeckermannCompositionRHSStrategy.cc:347-388: again `idxm1_k = idx_k - 1` (line 368). -/
noncomputable def beckCouplZ (it at_ : Char) (b : Box3) (d0 : ℝ) (phi c k : CellArr) (i j l : ℤ) : Option ℝ :=
  let idxPf := addr b phi.g i j l
  let idxC := addr b k.g i j l
  let idxK := addr b k.g i j l
  beckCoef it at_ d0 (phi.mem idxPf, phi.mem (idxPf - plane b phi.g)) (c.mem idxC, c.mem (idxC - plane b k.g))
    (k.mem idxK, k.mem (idxK - 1))

/-- Flux through an x face: `concentrationdiffusion_beckermann` (source/fortran/3d/concentrationdiffusion.m4:774-792, with
`k` of the upper cell), the coupling coefficient, `concentrationflux`. -/
noncomputable def beckFluxX (it at_ : Char) (b : Box3) (dl ds h : ℝ) (phi c k : CellArr) (i j l : ℤ) : Option ℝ := do
  let d0 ← beckermann it at_ dl ds (cell b k i j l) (X3 (cell b phi) i j l)
  let cp ← beckCouplX it at_ b d0 phi c k i j l
  some (concFlux h d0 cp (X3 (cell b c) i j l) (X3 (cell b phi) i j l))

/-- Flux through a y face, source/fortran/3d/concentrationdiffusion.m4:794-812. -/
noncomputable def beckFluxY (it at_ : Char) (b : Box3) (dl ds h : ℝ) (phi c k : CellArr) (i j l : ℤ) : Option ℝ := do
  let d0 ← beckermann it at_ dl ds (cell b k i j l) (Y3 (cell b phi) i j l)
  let cp ← beckCouplY it at_ b d0 phi c k i j l
  some (concFlux h d0 cp (Y3 (cell b c) i j l) (Y3 (cell b phi) i j l))

/-- Flux through a z face, source/fortran/3d/concentrationdiffusion.m4:814-832. -/
noncomputable def beckFluxZ (it at_ : Char) (b : Box3) (dl ds h : ℝ) (phi c k : CellArr) (i j l : ℤ) : Option ℝ := do
  let d0 ← beckermann it at_ dl ds (cell b k i j l) (Z3 (cell b phi) i j l)
  let cp ← beckCouplZ it at_ b d0 phi c k i j l
  some (concFlux h d0 cp (Z3 (cell b c) i j l) (Z3 (cell b phi) i j l))

/-! ## KKS form -/

/-- Coupling coefficient of x faces, source/KKSCompositionRHSStrategy.cc:278-306; `ca` is addressed with the ghost box of
`cl` (line 249). -/
noncomputable def kksCouplX (it at_ : Char) (b : Box3) (d0 : ℝ) (phi cl ca : CellArr) (i j l : ℤ) : Option ℝ :=
  let idxPf := addr b phi.g i j l
  let idxC := addr b cl.g i j l
  kksCoef it at_ d0 (phi.mem idxPf, phi.mem (idxPf - 1)) (cl.mem idxC, cl.mem (idxC - 1))
    (ca.mem idxC, ca.mem (idxC - 1))

/-- y faces, source/KKSCompositionRHSStrategy.cc:308-338. -/
noncomputable def kksCouplY (it at_ : Char) (b : Box3) (d0 : ℝ) (phi cl ca : CellArr) (i j l : ℤ) : Option ℝ :=
  let idxPf := addr b phi.g i j l
  let idxC := addr b cl.g i j l
  kksCoef it at_ d0 (phi.mem idxPf, phi.mem (idxPf - row b phi.g)) (cl.mem idxC, cl.mem (idxC - row b cl.g))
    (ca.mem idxC, ca.mem (idxC - row b cl.g))

/-- z faces, source/KKSCompositionRHSStrategy.cc:340-371. -/
noncomputable def kksCouplZ (it at_ : Char) (b : Box3) (d0 : ℝ) (phi cl ca : CellArr) (i j l : ℤ) : Option ℝ :=
  let idxPf := addr b phi.g i j l
  let idxC := addr b cl.g i j l
  kksCoef it at_ d0 (phi.mem idxPf, phi.mem (idxPf - plane b phi.g)) (cl.mem idxC, cl.mem (idxC - plane b cl.g))
    (ca.mem idxC, ca.mem (idxC - plane b cl.g))

/-- Flux through an x face: `concentration_pfmdiffusion` (source/fortran/3d/concentrationdiffusion.m4:56-77), the coupling
coefficient, `concentrationflux`. -/
noncomputable def kksFluxX (it at_ : Char) (b : Box3) (R : ℝ) (m s : Arrhenius) (h : ℝ) (temp : Field3)
    (phi cl ca c : CellArr) (i j l : ℤ) : Option ℝ := do
  let d0 ← kksDiff it at_ R m s (X3 (cell b phi) i j l) (X3 temp i j l)
  let cp ← kksCouplX it at_ b d0 phi cl ca i j l
  some (concFlux h d0 cp (X3 (cell b c) i j l) (X3 (cell b phi) i j l))

/-- Flux through a y face, source/fortran/3d/concentrationdiffusion.m4:79-100. -/
noncomputable def kksFluxY (it at_ : Char) (b : Box3) (R : ℝ) (m s : Arrhenius) (h : ℝ) (temp : Field3)
    (phi cl ca c : CellArr) (i j l : ℤ) : Option ℝ := do
  let d0 ← kksDiff it at_ R m s (Y3 (cell b phi) i j l) (Y3 temp i j l)
  let cp ← kksCouplY it at_ b d0 phi cl ca i j l
  some (concFlux h d0 cp (Y3 (cell b c) i j l) (Y3 (cell b phi) i j l))

/-- Flux through a z face, source/fortran/3d/concentrationdiffusion.m4:102-123. -/
noncomputable def kksFluxZ (it at_ : Char) (b : Box3) (R : ℝ) (m s : Arrhenius) (h : ℝ) (temp : Field3)
    (phi cl ca c : CellArr) (i j l : ℤ) : Option ℝ := do
  let d0 ← kksDiff it at_ R m s (Z3 (cell b phi) i j l) (Z3 temp i j l)
  let cp ← kksCouplZ it at_ b d0 phi cl ca i j l
  some (concFlux h d0 cp (Z3 (cell b c) i j l) (Z3 (cell b phi) i j l))

end AMPE.Coupling3
