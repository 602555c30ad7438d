import Verif.Model.Quat

/-!
# Model of the orientation transfer operators between levels

`quatcoarsen` (source/fortran/2d/quatcoarsen.m4:11-113, source/fortran/3d/quatcoarsen.m4:11-128) and
`quatlinrefine2d/3d` (source/fortran/2d/quatlinrefine.m4:13-115, source/fortran/3d/quatlinrefine.m4:13-150).

Simplifications: orientation depth 4 (the depth asserted in source/QuatLinearRefine.cc:125); arrays are
total functions on cell indices (the ghost extents are not modelled for the data arrays; the range of
indices read is a theorem); the fixed-size work array `deltax(0:15,...)` keeps its bounds.  `stop` is
`none`.
-/

namespace AMPE.QuatTransfer

open AMPE.Quat

/-- Componentwise sum. -/
def addQ (a b : Q4) : Q4 := ⟨a.q1 + b.q1, a.q2 + b.q2, a.q3 + b.q3, a.q4 + b.q4⟩

/-- Componentwise scaling `q(m) * s`. -/
def scaleQ (a : Q4) (s : ℝ) : Q4 := ⟨a.q1 * s, a.q2 * s, a.q3 * s, a.q4 * s⟩

/-- Values `0 .. r-1` of a Fortran `do` loop over the refinement offsets. -/
def offsets (r : ℤ) : List ℤ := (List.range r.toNat).map fun k : ℕ => (k : ℤ)

/-- The value added for one fine cell: source/fortran/2d/quatcoarsen.m4:77-93 (3d: 85-104).  `first` is the test
`ir1 == 0 .and. ir0 == 0`; the rotation index is the local variable `iq`, never assigned after
`iq = 0`. -/
noncomputable def fineValue (symmetryAware : Bool) (iq : ℤ) (first : Bool) (q : Q4) : Option Q4 :=
  if symmetryAware then
    if first then some q else (quatsymmrotate4 q iq).map Prod.fst
  else some q

/-- The accumulation over the fine cells of one coarse cell followed by the normalisation:
source/fortran/2d/quatcoarsen.m4:62-109.  `cells` lists the fine cells in loop order. -/
noncomputable def coarsenCell (symmetryAware : Bool) (iq : ℤ) (dVf dVcinv : ℝ) (cells : List (Bool × Q4)) :
    Option Q4 :=
  (cells.foldlM (fun acc c => (fineValue symmetryAware iq c.1 c.2).map fun q => addQ acc (scaleQ q dVf))
    ⟨0, 0, 0, 0⟩).map fun s => quatnorm4 (scaleQ s dVcinv)

/-- Fine cells of coarse cell `(ic0, ic1)` in loop order, source/fortran/2d/quatcoarsen.m4:71-75. -/
def fineCells2d (r0 r1 : ℤ) (qfine : ℤ → ℤ → Q4) (ic0 ic1 : ℤ) : List (Bool × Q4) :=
  (offsets r1).flatMap fun ir1 => (offsets r0).map fun ir0 =>
    (decide (ir1 = 0 ∧ ir0 = 0), qfine (ic0 * r0 + ir0) (ic1 * r1 + ir1))

/-- Fine cells of a coarse cell in loop order, source/fortran/3d/quatcoarsen.m4:77-83. -/
def fineCells3d (r0 r1 r2 : ℤ) (qfine : ℤ → ℤ → ℤ → Q4) (ic0 ic1 ic2 : ℤ) : List (Bool × Q4) :=
  (offsets r2).flatMap fun ir2 => (offsets r1).flatMap fun ir1 => (offsets r0).map fun ir0 =>
    (decide (ir0 = 0 ∧ ir1 = 0 ∧ ir2 = 0), qfine (ic0 * r0 + ir0) (ic1 * r1 + ir1) (ic2 * r2 + ir2))

/-- `quatcoarsen` in 2D for one coarse cell. -/
noncomputable def quatcoarsen2d (symmetryAware : Bool) (r0 r1 : ℤ) (dxf0 dxf1 dxc0 dxc1 : ℝ)
    (qfine : ℤ → ℤ → Q4) (ic0 ic1 : ℤ) : Option Q4 :=
  coarsenCell symmetryAware 0 (dxf0 * dxf1) (1 / (dxc0 * dxc1)) (fineCells2d r0 r1 qfine ic0 ic1)

/-- `quatcoarsen` in 3D for one coarse cell. -/
noncomputable def quatcoarsen3d (symmetryAware : Bool) (r0 r1 r2 : ℤ) (dxf0 dxf1 dxf2 dxc0 dxc1 dxc2 : ℝ)
    (qfine : ℤ → ℤ → ℤ → Q4) (ic0 ic1 ic2 : ℤ) : Option Q4 :=
  coarsenCell symmetryAware 0 (dxf0 * dxf1 * dxf2) (1 / (dxc0 * dxc1 * dxc2))
    (fineCells3d r0 r1 r2 qfine ic0 ic1 ic2)

/-- Coarse index of a fine index, source/fortran/2d/quatlinrefine.m4:64-68; Fortran division truncates. -/
def coarseIndex (i r : ℤ) : ℤ := if i < 0 then (i + 1).tdiv r - 1 else i.tdiv r

/-- `deltax(ir, d)`, source/fortran/2d/quatlinrefine.m4:55-61; the array is declared `0:15` (line 43). -/
noncomputable def deltax (ir r : ℤ) (dxf dxc : ℝ) : Option ℝ :=
  if 0 ≤ ir ∧ ir < r ∧ ir ≤ 15 then some (((ir : ℝ) + 1 / 2) * dxf - dxc * (1 / 2)) else none

/-- Lower coarse neighbour, its offset and the reference index in one direction,
source/fortran/2d/quatlinrefine.m4:64-75. -/
noncomputable def locate (i r : ℤ) (dxf dxc : ℝ) : Option (ℤ × ℤ × ℝ) :=
  let iref := coarseIndex i r
  let ir := i - iref * r
  (deltax ir r dxf dxc).map fun d =>
    let x := d / dxc
    if x < 0 then (iref, iref - 1, x + 1) else (iref, iref, x)

/-- Bilinear combination, source/fortran/2d/quatlinrefine.m4:103-106. -/
def bilinear (q1 q2 q3 q4 x y : ℝ) : ℝ := (q1 + (q3 - q1) * x) * (1 - y) + (q2 + (q4 - q2) * x) * y

/-- Trilinear combination, source/fortran/3d/quatlinrefine.m4:124-135. -/
def trilinear (q1 q2 q3 q4 q5 q6 q7 q8 x y z : ℝ) : ℝ :=
  ((q1 + (q3 - q1) * x) * (1 - y) + (q2 + (q4 - q2) * x) * y) * (1 - z) +
  ((q5 + (q7 - q5) * x) * (1 - y) + (q6 + (q8 - q6) * x) * y) * z

/-- Componentwise bilinear combination. -/
def bilinearQ (a b c d : Q4) (x y : ℝ) : Q4 :=
  ⟨bilinear a.q1 b.q1 c.q1 d.q1 x y, bilinear a.q2 b.q2 c.q2 d.q2 x y,
   bilinear a.q3 b.q3 c.q3 d.q3 x y, bilinear a.q4 b.q4 c.q4 d.q4 x y⟩

/-- One fine cell of `quatlinrefine2d` with rotation index `iq`. -/
noncomputable def refineCell2d (iq : ℤ) (r0 r1 : ℤ) (dxf0 dxf1 dxc0 dxc1 : ℝ) (arrayc : ℤ → ℤ → Q4)
    (if0 if1 : ℤ) : Option Q4 :=
  (locate if1 r1 dxf1 dxc1).bind fun ly => (locate if0 r0 dxf0 dxc0).bind fun lx =>
    (quatsymmrotate4 (arrayc lx.2.1 ly.2.1) iq).bind fun p1 =>
    (quatsymmrotate4 (arrayc lx.2.1 (ly.2.1 + 1)) p1.2).bind fun p2 =>
    (quatsymmrotate4 (arrayc (lx.2.1 + 1) ly.2.1) p2.2).bind fun p3 =>
    (quatsymmrotate4 (arrayc (lx.2.1 + 1) (ly.2.1 + 1)) p3.2).map fun p4 =>
      quatnorm4 (bilinearQ p1.1 p2.1 p3.1 p4.1 lx.2.2 ly.2.2)

/-- `quatlinrefine2d` for one fine cell: `iq = 0` throughout (source/fortran/2d/quatlinrefine.m4:51). -/
noncomputable def quatlinrefine2d (r0 r1 : ℤ) (dxf0 dxf1 dxc0 dxc1 : ℝ) (arrayc : ℤ → ℤ → Q4)
    (if0 if1 : ℤ) : Option Q4 :=
  refineCell2d 0 r0 r1 dxf0 dxf1 dxc0 dxc1 arrayc if0 if1

end AMPE.QuatTransfer
