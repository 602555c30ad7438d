import Verif.Model.QuatTransfer
import Mathlib.Algebra.BigOperators.Group.Finset.Basic
import Mathlib.Data.Finset.Prod

/-!
# Model of moving a cell field to a new grid

`QuatModel::Regrid` (source/QuatModel.cc:2733-2785) registers phase, temperature and composition for transfer to the
new levels with the operators looked up in `initializeRefineCoarsenAlgorithms` (source/QuatModel.cc:922-956):
`LINEAR_REFINE` for all three.  `QuatModel::initializeLevelData` (source/QuatModel.cc:2990-2998) then fills a new level
from the old level of the same number where the two overlap and from the next coarser level elsewhere.  Before that
`QuatIntegrator::Advance` has coarsened the solution with `CONSERVATIVE_COARSEN` (source/QuatIntegrator.cc:2193-2196 and
2289-2333).

The two operators belong to SAMRAI, whose source is not part of /repo.  `LINEAR_REFINE` of cell data is modelled after
the routine AMPE derived from it, `quatlinrefine2d/3d` (source/fortran/2d/quatlinrefine.m4:13-115 and
source/fortran/3d/quatlinrefine.m4:13-150) without the rotations and the normalisation; `CONSERVATIVE_COARSEN` after
`quatcoarsen` (source/fortran/2d/quatcoarsen.m4:62-109) without the normalisation.  Both are trusted to be what SAMRAI
does.

Simplifications: two levels; the refined region is a set of coarse cells (patch boundaries of the fine level lie on
coarse cell boundaries); one component of the field; boundary and ghost values are part of the coarse array.
-/

namespace AMPE.Regrid

open AMPE.QuatTransfer

/-- `LINEAR_REFINE` of one fine cell, 2D. -/
noncomputable def linRefine2 (r0 r1 : ℤ) (dxf0 dxf1 dxc0 dxc1 : ℝ) (c : ℤ × ℤ → ℝ) (i : ℤ × ℤ) : Option ℝ :=
  (locate i.2 r1 dxf1 dxc1).bind fun ly => (locate i.1 r0 dxf0 dxc0).map fun lx =>
    bilinear (c (lx.2.1, ly.2.1)) (c (lx.2.1, ly.2.1 + 1)) (c (lx.2.1 + 1, ly.2.1)) (c (lx.2.1 + 1, ly.2.1 + 1))
      lx.2.2 ly.2.2

/-- `LINEAR_REFINE` of one fine cell, 3D. -/
noncomputable def linRefine3 (r0 r1 r2 : ℤ) (dxf0 dxf1 dxf2 dxc0 dxc1 dxc2 : ℝ) (c : ℤ × ℤ × ℤ → ℝ)
    (i : ℤ × ℤ × ℤ) : Option ℝ :=
  (locate i.2.2 r2 dxf2 dxc2).bind fun lz => (locate i.2.1 r1 dxf1 dxc1).bind fun ly =>
    (locate i.1 r0 dxf0 dxc0).map fun lx =>
    trilinear (c (lx.2.1, ly.2.1, lz.2.1)) (c (lx.2.1, ly.2.1 + 1, lz.2.1)) (c (lx.2.1 + 1, ly.2.1, lz.2.1))
      (c (lx.2.1 + 1, ly.2.1 + 1, lz.2.1)) (c (lx.2.1, ly.2.1, lz.2.1 + 1)) (c (lx.2.1, ly.2.1 + 1, lz.2.1 + 1))
      (c (lx.2.1 + 1, ly.2.1, lz.2.1 + 1)) (c (lx.2.1 + 1, ly.2.1 + 1, lz.2.1 + 1)) lx.2.2 ly.2.2 lz.2.2

/-- `LINEAR_REFINE` of the orientation (depth 4), chosen without the symmetry option: source/QuatModel.cc:945-949. -/
noncomputable def linRefineQ2 (r0 r1 : ℤ) (dxf0 dxf1 dxc0 dxc1 : ℝ) (q : ℤ × ℤ → AMPE.Quat.Q4) (i : ℤ × ℤ) :
    Option AMPE.Quat.Q4 :=
  (locate i.2 r1 dxf1 dxc1).bind fun ly => (locate i.1 r0 dxf0 dxc0).map fun lx =>
    bilinearQ (q (lx.2.1, ly.2.1)) (q (lx.2.1, ly.2.1 + 1)) (q (lx.2.1 + 1, ly.2.1)) (q (lx.2.1 + 1, ly.2.1 + 1))
      lx.2.2 ly.2.2

/-- Fine cells of a coarse cell, 2D (source/fortran/2d/quatcoarsen.m4:71-75). -/
def kids2 (r0 r1 : ℕ) (i : ℤ × ℤ) : Finset (ℤ × ℤ) :=
  (Finset.range r0 ×ˢ Finset.range r1).image fun k => (i.1 * r0 + (k.1 : ℤ), i.2 * r1 + (k.2 : ℤ))

/-- Fine cells of a coarse cell, 3D (source/fortran/3d/quatcoarsen.m4:77-83). -/
def kids3 (r0 r1 r2 : ℕ) (i : ℤ × ℤ × ℤ) : Finset (ℤ × ℤ × ℤ) :=
  (Finset.range r0 ×ˢ Finset.range r1 ×ˢ Finset.range r2).image fun k =>
    (i.1 * r0 + (k.1 : ℤ), i.2.1 * r1 + (k.2.1 : ℤ), i.2.2 * r2 + (k.2.2 : ℤ))

/-- A field on two levels: the coarse array, the coarse cells covered by the fine level and the fine array. -/
structure Field (ι : Type) where
  coarse : ι → ℝ
  region : Finset ι
  fine : ι → ℝ

/-- `CONSERVATIVE_COARSEN` of one coarse cell: sum of the fine values times the fine volume, times the inverse of the
coarse volume. -/
noncomputable def coarsenCell {ι : Type} (kids : ι → Finset ι) (dVf dVcinv : ℝ) (f : ι → ℝ) (i : ι) : ℝ :=
  (∑ k ∈ kids i, f k * dVf) * dVcinv

/-- The coarsening at the end of `Advance`, source/QuatIntegrator.cc:2193-2196. -/
noncomputable def coarsenData {ι : Type} [DecidableEq ι] (kids : ι → Finset ι) (dVf dVcinv : ℝ) (s : Field ι) :
    Field ι :=
  { s with coarse := fun i => if i ∈ s.region then coarsenCell kids dVf dVcinv s.fine i else s.coarse i }

/-- The transfer to a new fine level covering the coarse cells `region`, source/QuatModel.cc:2990-2998: `t` is a result
of it.  `refine` is the refine operator. -/
def Regrids {ι : Type} [DecidableEq ι] (kids : ι → Finset ι) (refine : (ι → ℝ) → ι → Option ℝ) (s : Field ι)
    (region : Finset ι) (t : Field ι) : Prop :=
  t.coarse = s.coarse ∧ t.region = region ∧
  ∀ i ∈ region, ∀ k ∈ kids i,
    if i ∈ s.region then t.fine k = s.fine k else refine s.coarse k = some (t.fine k)

end AMPE.Regrid
