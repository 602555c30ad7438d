import Verif.Model.Flux
import Verif.Model.ConservedFlow

/-! # Ghost cells at physical boundaries (2D, one patch)

`CartesianRobinBcHelperWithDepth` sets the ghost cells of the order parameters, the quaternion and the composition.  The
arithmetic of one ghost cell is done by SAMRAI (`settype1cells2d`, not in the repository); it is modelled by the contract stated at
source/CartesianRobinBcHelperWithDepth.cc:165-174: with the value on the face the mean of the two cells next to it and the outward
derivative their difference over the mesh size, `a u + b u_n = g` holds on the face.  Patches overlap the boundary on any subset of
the four sides; ghost cells that belong to other patches keep the value they already have. -/

namespace AMPE.Boundary

open AMPE.Flux AMPE.ConservedFlow

/-- Location index, source/CartesianRobinBcHelperWithDepth.cc:222-296. -/
inductive Side | xlo | xhi | ylo | yhi
  deriving DecidableEq

/-- Coefficients of one side, `setBcCoefs` (source/CartesianRobinBcHelperWithDepth.cc:203-212). -/
structure Coef where
  a : ℝ
  b : ℝ
  g : ℝ

/-- Value of the ghost cell next to the interior value `ui`, mesh size `h`: contract of `settype1cells2d`,
source/CartesianRobinBcHelperWithDepth.cc:165-174. -/
noncomputable def ghost (c : Coef) (h ui : ℝ) : ℝ := (2 * h * c.g + (2 * c.b - c.a * h) * ui) / (2 * c.b + c.a * h)

/-- Patch box. -/
structure Box where
  f0 : ℤ
  l0 : ℤ
  f1 : ℤ
  l1 : ℤ

/-- One component after the sides have been set, source/CartesianRobinBcHelperWithDepth.cc:186-457: only the ghost cells next to
the box are written ("Lower and upper are the same", 229). -/
noncomputable def fillEdges (B : Box) (touch : Side → Bool) (coef : Side → Coef) (dx dy : ℝ) (u : Field2) : Field2 := fun i j =>
  if touch .xlo = true ∧ i = B.f0 - 1 ∧ B.f1 ≤ j ∧ j ≤ B.l1 then ghost (coef .xlo) dx (u B.f0 j)
  else if touch .xhi = true ∧ i = B.l0 + 1 ∧ B.f1 ≤ j ∧ j ≤ B.l1 then ghost (coef .xhi) dx (u B.l0 j)
  else if touch .ylo = true ∧ j = B.f1 - 1 ∧ B.f0 ≤ i ∧ i ≤ B.l0 then ghost (coef .ylo) dy (u i B.f1)
  else if touch .yhi = true ∧ j = B.l1 + 1 ∧ B.f0 ≤ i ∧ i ≤ B.l0 then ghost (coef .yhi) dy (u i B.l1)
  else u i j

/-- The corner ghost cells are set afterwards by the linear interpolation through the nearest interior cell and the two nearest edge
values, source/CartesianRobinBcHelperWithDepth.cc:459-489 (`settype2cells2d` of SAMRAI). -/
def fillCorners (B : Box) (touch : Side → Bool) (e : Field2) : Field2 := fun i j =>
  if touch .xlo = true ∧ touch .ylo = true ∧ i = B.f0 - 1 ∧ j = B.f1 - 1 then e B.f0 j + e i B.f1 - e B.f0 B.f1
  else if touch .xhi = true ∧ touch .ylo = true ∧ i = B.l0 + 1 ∧ j = B.f1 - 1 then e B.l0 j + e i B.f1 - e B.l0 B.f1
  else if touch .xlo = true ∧ touch .yhi = true ∧ i = B.f0 - 1 ∧ j = B.l1 + 1 then e B.f0 j + e i B.l1 - e B.f0 B.l1
  else if touch .xhi = true ∧ touch .yhi = true ∧ i = B.l0 + 1 ∧ j = B.l1 + 1 then e B.l0 j + e i B.l1 - e B.l0 B.l1
  else e i j

/-- One component, source/CartesianRobinBcHelperWithDepth.cc:186-489. -/
noncomputable def fillDepth (B : Box) (touch : Side → Bool) (coef : Side → Coef) (dx dy : ℝ) (u : Field2) : Field2 :=
  fillCorners B touch (fillEdges B touch coef dx dy u)

/-- `for (int depth = 0; depth < data.getDepth(); depth++)`, source/CartesianRobinBcHelperWithDepth.cc:221: the coefficient arrays
have depth 1 (203-208), so all components use the same coefficients.  One database per variable:
source/QuatRefinePatchStrategy.cc:33-90 (`Phase`, `Quat`, `Conc`). -/
noncomputable def fill {n : ℕ} (B : Box) (touch : Side → Bool) (coef : Side → Coef) (dx dy : ℝ) (u : Fin n → Field2) : Fin n → Field2 :=
  fun d => fillDepth B touch coef dx dy (u d)

/-- `concRHSneeds2Ghosts` and `nghosts_required`, source/QuatModelParameters.h:304-311. -/
def ghostsRequired (order4 upwind cahnHilliard wangSintering : Bool) : ℕ :=
  if order4 || upwind || cahnHilliard || wangSintering then 2 else 1

end AMPE.Boundary
