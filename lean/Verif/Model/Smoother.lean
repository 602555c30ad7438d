import Mathlib.Algebra.Order.Archimedean.Real.Basic
import Mathlib.Data.Int.Interval

/-! # Red-black Gauss-Seidel smoothing of the elliptic multigrid solver

Modelled: one patch, one depth, variable coefficients (the three variants with constant diffusion or constant scalar
field, source/fortran/2d/ellipticfacops.m4:129-345, are the instances with constant arrays).  Not modelled: ghost filling between the two
passes, `ewingFixFlux` at coarse-fine borders, early exit on `residual_tolerance`. -/

namespace AMPE.Smoother

/-- `ioffset` of `efo_rbgswithfluxmaxvardcvarsf2d`, source/fortran/2d/ellipticfacops.m4:108-113: `s` is `jfirst+j` in 2D and
`ifirst+j+k` in 3D (source/fortran/3d/ellipticfacops.m4:153-157). Fortran's integer `/` truncates towards zero. -/
def ioffset (s offset : ℤ) : ℤ := if s - s.tdiv 2 * 2 ≠ offset then 1 else 0

/-- `do i=ifirst+ioffset,ilast,2`, source/fortran/2d/ellipticfacops.m4:114 (the Fortran trip count, then the values). -/
def rowCells (ifirst ilast io : ℤ) : List ℤ :=
  (List.range ((ilast - (ifirst + io) + 2).tdiv 2).toNat).map fun (k : ℕ) => ifirst + io + 2 * (k : ℤ)

/-- `do j=jfirst,jlast`. -/
def rows (jfirst jlast : ℤ) : List ℤ := (List.range (jlast - jfirst + 1).toNat).map fun (k : ℕ) => jfirst + (k : ℤ)

structure Box2 where
  ifirst : ℤ
  ilast : ℤ
  jfirst : ℤ
  jlast : ℤ

structure Box3 extends Box2 where
  kfirst : ℤ
  klast : ℤ

/-- Cells in the order of the two loops, source/fortran/2d/ellipticfacops.m4:106-114. -/
def cells2 (B : Box2) (offset : ℤ) : List (ℤ × ℤ) :=
  (rows B.jfirst B.jlast).flatMap fun j => (rowCells B.ifirst B.ilast (ioffset (B.jfirst + j) offset)).map fun i => (i, j)

/-- Cells in the order of the three loops, source/fortran/3d/ellipticfacops.m4:150-159. -/
def cells3 (B : Box3) (offset : ℤ) : List (ℤ × ℤ × ℤ) :=
  (rows B.kfirst B.klast).flatMap fun k => (rows B.jfirst B.jlast).flatMap fun j =>
    (rowCells B.ifirst B.ilast (ioffset (B.ifirst + j + k) offset)).map fun i => (i, j, k)

/-- Loop body, source/fortran/2d/ellipticfacops.m4:115-125: `res p u` is the residual of cell `p` for the value `u` of this
cell (everything else frozen), `dudr p` the quantity of that name; the second component is `maxres`. -/
noncomputable def step {ι : Type} [DecidableEq ι] (res : ι → ℝ → ℝ) (dudr : ι → ℝ) (s : (ι → ℝ) × ℝ) (p : ι) :
    (ι → ℝ) × ℝ :=
  let residual := res p (s.1 p)
  let du := -residual * dudr p
  (Function.update s.1 p (s.1 p + du * 1), if s.2 < |residual| then |residual| else s.2)

/-- One pass, `maxres` starting from 0 (line 104). -/
noncomputable def pass {ι : Type} [DecidableEq ι] (res : ι → ℝ → ℝ) (dudr : ι → ℝ) (cells : List ι) (u : ι → ℝ) :
    (ι → ℝ) × ℝ := cells.foldl (step res dudr) (u, 0)

/-- Coefficients of one level in 2D. `dx, dy`: spacing of the patch (`patch_geom->getDx()`, source/EllipticFACOps.cc:2309);
`fx, fy`: spacing used for the fluxes (`d_hierarchy->getGridGeometry()`'s `getDx()`, source/EllipticFACOps.cc:1958-1966). -/
structure Coef2 where
  dx : ℝ
  dy : ℝ
  fx : ℝ
  fy : ℝ
  xdc : ℤ × ℤ → ℝ
  ydc : ℤ × ℤ → ℝ
  m : ℤ × ℤ → ℝ
  sf : ℤ × ℤ → ℝ
  rhs : ℤ × ℤ → ℝ

namespace Coef2

/-- `efo_compfluxvardc2d`, source/fortran/2d/ellipticfacops.m4:16-57, called by `computeFluxOnPatch`. -/
noncomputable def xflux (C : Coef2) (u : ℤ × ℤ → ℝ) (p : ℤ × ℤ) : ℝ := 1 / C.fx * C.xdc p * (u p - u (p.1 - 1, p.2))

/-- idem. -/
noncomputable def yflux (C : Coef2) (u : ℤ × ℤ → ℝ) (p : ℤ × ℤ) : ℝ := 1 / C.fy * C.ydc p * (u p - u (p.1, p.2 - 1))

/-- `residual`, source/fortran/2d/ellipticfacops.m4:115-119, for flux arrays `F`, `G` and cell value `v`. -/
noncomputable def residual (C : Coef2) (F G : ℤ × ℤ → ℝ) (p : ℤ × ℤ) (v : ℝ) : ℝ :=
  C.rhs p - C.m p * (1 / C.dx * (F (p.1 + 1, p.2) - F p) + 1 / C.dy * (G (p.1, p.2 + 1) - G p)) - C.sf p * v

/-- `dudr`, source/fortran/2d/ellipticfacops.m4:120-122. -/
noncomputable def dudr (C : Coef2) (p : ℤ × ℤ) : ℝ :=
  1 / (C.m p * (1 / C.dx * (1 / C.dx) * (C.xdc (p.1 + 1, p.2) + C.xdc p) +
    1 / C.dy * (1 / C.dy) * (C.ydc (p.1, p.2 + 1) + C.ydc p)) - C.sf p)

/-- Fluxes of the current iterate, then one pass of the colour `offset` (source/EllipticFACOps.cc:1154-1160). -/
noncomputable def colourPass (C : Coef2) (B : Box2) (offset : ℤ) (u : ℤ × ℤ → ℝ) : (ℤ × ℤ → ℝ) × ℝ :=
  pass (C.residual (C.xflux u) (C.yflux u)) C.dudr (cells2 B offset) u

/-- `residual_data` of `computeResidualOnPatch` (source/EllipticFACOps.cc:2144-2290, `efo_compresvarsca2d`,
source/fortran/2d/ellipticfacops.m4:347-391) after `computeFluxOnPatch`. -/
noncomputable def levelResidual (C : Coef2) (u : ℤ × ℤ → ℝ) (p : ℤ × ℤ) : ℝ :=
  C.residual (C.xflux u) (C.yflux u) p (u p)

end Coef2

/-- Coefficients of one level in 3D. -/
structure Coef3 where
  dx : ℝ
  dy : ℝ
  dz : ℝ
  fx : ℝ
  fy : ℝ
  fz : ℝ
  xdc : ℤ × ℤ × ℤ → ℝ
  ydc : ℤ × ℤ × ℤ → ℝ
  zdc : ℤ × ℤ × ℤ → ℝ
  m : ℤ × ℤ × ℤ → ℝ
  sf : ℤ × ℤ × ℤ → ℝ
  rhs : ℤ × ℤ × ℤ → ℝ

namespace Coef3

/-- `efo_compfluxvardc3d`, source/fortran/3d/ellipticfacops.m4:17-75. -/
noncomputable def xflux (C : Coef3) (u : ℤ × ℤ × ℤ → ℝ) (p : ℤ × ℤ × ℤ) : ℝ :=
  1 / C.fx * C.xdc p * (u p - u (p.1 - 1, p.2.1, p.2.2))

/-- idem. -/
noncomputable def yflux (C : Coef3) (u : ℤ × ℤ × ℤ → ℝ) (p : ℤ × ℤ × ℤ) : ℝ :=
  1 / C.fy * C.ydc p * (u p - u (p.1, p.2.1 - 1, p.2.2))

/-- idem. -/
noncomputable def zflux (C : Coef3) (u : ℤ × ℤ × ℤ → ℝ) (p : ℤ × ℤ × ℤ) : ℝ :=
  1 / C.fz * C.zdc p * (u p - u (p.1, p.2.1, p.2.2 - 1))

/-- `residual`, source/fortran/3d/ellipticfacops.m4:159-164. -/
noncomputable def residual (C : Coef3) (F G H : ℤ × ℤ × ℤ → ℝ) (p : ℤ × ℤ × ℤ) (v : ℝ) : ℝ :=
  C.rhs p - C.m p * (1 / C.dx * (F (p.1 + 1, p.2.1, p.2.2) - F p) + 1 / C.dy * (G (p.1, p.2.1 + 1, p.2.2) - G p) +
    1 / C.dz * (H (p.1, p.2.1, p.2.2 + 1) - H p)) - C.sf p * v

/-- `dudr`, source/fortran/3d/ellipticfacops.m4:165-168. -/
noncomputable def dudr (C : Coef3) (p : ℤ × ℤ × ℤ) : ℝ :=
  1 / (C.m p * (1 / C.dx * (1 / C.dx) * (C.xdc (p.1 + 1, p.2.1, p.2.2) + C.xdc p) +
    1 / C.dy * (1 / C.dy) * (C.ydc (p.1, p.2.1 + 1, p.2.2) + C.ydc p) +
    1 / C.dz * (1 / C.dz) * (C.zdc (p.1, p.2.1, p.2.2 + 1) + C.zdc p)) - C.sf p)

noncomputable def colourPass (C : Coef3) (B : Box3) (offset : ℤ) (u : ℤ × ℤ × ℤ → ℝ) : (ℤ × ℤ × ℤ → ℝ) × ℝ :=
  pass (C.residual (C.xflux u) (C.yflux u) (C.zflux u)) C.dudr (cells3 B offset) u

noncomputable def levelResidual (C : Coef3) (u : ℤ × ℤ × ℤ → ℝ) (p : ℤ × ℤ × ℤ) : ℝ :=
  C.residual (C.xflux u) (C.yflux u) (C.zflux u) p (u p)

end Coef3

/-- Spacing of level `ℓ`: the spacing of the coarsest level divided by the product of the refinement ratios
(`hier::PatchLevel` / `CartesianPatchGeometry`). -/
noncomputable def levelDx (dx0 : ℝ) (ratios : List ℕ) : ℝ := dx0 / (ratios.map Nat.cast).prod

/-- The coefficients as `EllipticFACOps` sees them on a level reached through `ratios`: patch spacing of the level, flux
spacing of the coarsest level. -/
noncomputable def onLevel2 (dx0 dy0 : ℝ) (ratios : List ℕ) (xdc ydc m sf rhs : ℤ × ℤ → ℝ) : Coef2 :=
  { dx := levelDx dx0 ratios, dy := levelDx dy0 ratios, fx := dx0, fy := dy0, xdc := xdc, ydc := ydc, m := m, sf := sf,
    rhs := rhs }

/-- The same in 3D. -/
noncomputable def onLevel3 (dx0 dy0 dz0 : ℝ) (ratios : List ℕ) (xdc ydc zdc m sf rhs : ℤ × ℤ × ℤ → ℝ) : Coef3 :=
  { dx := levelDx dx0 ratios, dy := levelDx dy0 ratios, dz := levelDx dz0 ratios, fx := dx0, fy := dy0, fz := dz0,
    xdc := xdc, ydc := ydc, zdc := zdc, m := m, sf := sf, rhs := rhs }

end AMPE.Smoother
