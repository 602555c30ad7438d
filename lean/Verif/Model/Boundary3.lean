import Verif.Model.Boundary

/-! # Ghost cells at physical boundaries in 3D (one patch)

As in `Verif.Model.Boundary`.  Only the ghost cells next to a face of the box are modelled; the ghost cells next to its edges and corners
(source/CartesianRobinBcHelperWithDepth.cc:490-540) are read by no seven-point stencil and keep their value here. -/

namespace AMPE.Boundary

open AMPE.Flux

/-- Location index in 3D, source/CartesianRobinBcHelperWithDepth.cc:312-449. -/
inductive Side3 | xlo | xhi | ylo | yhi | zlo | zhi
  deriving DecidableEq

/-- Patch box in 3D. -/
structure Box3 where
  f0 : ℤ
  l0 : ℤ
  f1 : ℤ
  l1 : ℤ
  f2 : ℤ
  l2 : ℤ

/-- One component after the faces have been set, source/CartesianRobinBcHelperWithDepth.cc:311-455: `ifac`, `iint` of each location are
the cells next to the face; the mesh size is the one across the face. -/
noncomputable def fillFaces3 (B : Box3) (touch : Side3 → Bool) (coef : Side3 → Coef) (dx dy dz : ℝ) (u : ℤ → ℤ → ℤ → ℝ) :
    ℤ → ℤ → ℤ → ℝ := fun i j k =>
  if touch .xlo = true ∧ i = B.f0 - 1 ∧ B.f1 ≤ j ∧ j ≤ B.l1 ∧ B.f2 ≤ k ∧ k ≤ B.l2 then ghost (coef .xlo) dx (u B.f0 j k)
  else if touch .xhi = true ∧ i = B.l0 + 1 ∧ B.f1 ≤ j ∧ j ≤ B.l1 ∧ B.f2 ≤ k ∧ k ≤ B.l2 then ghost (coef .xhi) dx (u B.l0 j k)
  else if touch .ylo = true ∧ j = B.f1 - 1 ∧ B.f0 ≤ i ∧ i ≤ B.l0 ∧ B.f2 ≤ k ∧ k ≤ B.l2 then ghost (coef .ylo) dy (u i B.f1 k)
  else if touch .yhi = true ∧ j = B.l1 + 1 ∧ B.f0 ≤ i ∧ i ≤ B.l0 ∧ B.f2 ≤ k ∧ k ≤ B.l2 then ghost (coef .yhi) dy (u i B.l1 k)
  else if touch .zlo = true ∧ k = B.f2 - 1 ∧ B.f0 ≤ i ∧ i ≤ B.l0 ∧ B.f1 ≤ j ∧ j ≤ B.l1 then ghost (coef .zlo) dz (u i j B.f2)
  else if touch .zhi = true ∧ k = B.l2 + 1 ∧ B.f0 ≤ i ∧ i ≤ B.l0 ∧ B.f1 ≤ j ∧ j ≤ B.l1 then ghost (coef .zhi) dz (u i j B.l2)
  else u i j k

end AMPE.Boundary
