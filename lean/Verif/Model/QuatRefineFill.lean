import Verif.Model.QuatTransfer
import Verif.Proofs.CellLoop

/-!
Which cells the symmetry-aware refinement operator fills.

`QuatLinearRefine::refine` is called by the refine schedules with an overlap: the list of the
cell boxes of the finer level which have to be filled from the coarser level.
-/

namespace AMPE.QuatRefineFill

open AMPE AMPE.DrivingForce AMPE.QuatTransfer AMPE.Quat

/-- source/QuatLinearRefine.cc:104-106, `fine_box.growUpper(hier::IntVector(ratio.getDim(), -1))`:
the upper corner of a box of the overlap is lowered by one in every space direction (`three`
tells whether the third direction is a space direction). -/
def shrink (three : Bool) (b : Box) : Box :=
  { b with hi0 := b.hi0 - 1, hi1 := b.hi1 - 1, hi2 := if three then b.hi2 - 1 else b.hi2 }

/-- source/QuatLinearRefine.cc:110-174 with the loops of
source/fortran/2d/quatlinrefine.m4:64-112 (source/fortran/3d/quatlinrefine.m4:66-160): over the
cells of a box, store the interpolated orientation. `interp` is the value computed at a cell,
`none` when the Fortran routine stops the program. -/
def refineBox (interp : Cell → Option Q4) (b : Box) (q : Cell → Q4) : Option (Cell → Q4) :=
  b.list.foldlM (fun a c => (interp c).map (fun v => Function.update a c v)) q

/-- source/QuatLinearRefine.cc:91-108: `for (b : t_overlap->getDestinationBoxContainer())
refine(..., shrunk box, ...)`. -/
def refine (three : Bool) (interp : Cell → Option Q4) (boxes : List Box) (q : Cell → Q4) :
    Option (Cell → Q4) :=
  boxes.foldlM (fun a b => refineBox interp (shrink three b) a) q

/-- source/QuatLinearRefine.cc:140-155: the two-dimensional operator, with the value computed by
`QUATLINREFINE2D` from the coarse orientations. -/
noncomputable def refine2d (r0 r1 : ℤ) (dxf0 dxf1 dxc0 dxc1 : ℝ) (arrayc : ℤ → ℤ → Q4)
    (boxes : List Box) (q : Cell → Q4) : Option (Cell → Q4) :=
  refine false (fun c => quatlinrefine2d r0 r1 dxf0 dxf1 dxc0 dxc1 arrayc c.1 c.2.1) boxes q

end AMPE.QuatRefineFill
