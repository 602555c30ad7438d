import Verif.Model.Quat
import Verif.Model.OrientSolve

/-!
# Orientation right-hand side with crystal symmetry (2D)

From the stored orientations to the rate handed to the integrator: rotation indices, differences, side gradients, face
coefficients, fluxes, Lagrange multiplier, divergence.  One level; patch boundaries, coarse/fine flux replacement and
physical boundary values are not modelled (fields are functions on the integer plane).  `stop` is `none`.
-/

namespace AMPE.QuatFlow

open AMPE.Flux AMPE.Tagging AMPE.Quat AMPE.OrientSolve AMPE.Functions

/-- Components of a quaternion array. -/
def toQ4 (v : QVec 4) : Q4 := ⟨v 0, v 1, v 2, v 3⟩
@[inherit_doc toQ4]
def ofQ4 (q : Q4) : QVec 4 := ![q.q1, q.q2, q.q3, q.q4]
@[inherit_doc toQ4]
def toQ2 (v : QVec 2) : Q2 := ⟨v 0, v 1⟩
@[inherit_doc toQ4]
def ofQ2 (q : Q2) : QVec 2 := ![q.q1, q.q2]

/-- `quatsymmrotate`, source/fortran/quat.f:41-69: dispatch on the number of components. -/
noncomputable def quatsymmrotate : (n : ℕ) → QVec n → ℤ → Option (QVec n × ℤ)
  | 4, q, iq => (quatsymmrotate4 (toQ4 q) iq).map fun r => (ofQ4 r.1, r.2)
  | 2, q, iq => (quatsymmrotate2 (toQ2 q) iq).map fun r => (ofQ2 r.1, r.2)
  | 1, q, iq => (quatsymmrotate1 (q 0) iq).map fun r => (fun _ => r.1, r.2)
  | _, _, _ => none

/-- `quatfindsymm`, source/fortran/quat.f:9-37. -/
noncomputable def quatfindsymm : (n : ℕ) → QVec n → QVec n → ℤ → Option (QVec n × ℤ)
  | 4, q1, q2, iq => let r := quatfindsymm4 (toQ4 q1) (toQ4 q2) iq; some (ofQ4 r.1, r.2)
  | 2, q1, q2, iq => let r := quatfindsymm2 (toQ2 q1) (toQ2 q2) iq; some (ofQ2 r.1, r.2)
  | 1, q1, q2, iq => let r := quatfindsymm1 (q1 0) (q2 0) iq; some (fun _ => r.1, r.2)
  | _, _, _, _ => none

/-- Result of a `quatsymmrotate` call; the argument itself when the call stops the program (not used with such indices
below: the arrays are filled by `symmRotX`, `symmRotY`). -/
noncomputable def rotBy {n : ℕ} (iq : ℤ) (v : QVec n) : QVec n := ((quatsymmrotate n v iq).map (·.1)).getD v

/-- `quat_symm_rotation`, source/fortran/2d/quatrotation.m4:12-63, x sides: `old` is what the index array held before. -/
noncomputable def symmRotX {n : ℕ} (q : QField n) (old : ℤ → ℤ → ℤ) (i j : ℤ) : ℤ :=
  ((quatfindsymm n (q i j) (q (i - 1) j) (old i j)).map (·.2)).getD (old i j)

/-- `quat_symm_rotation`, y sides, source/fortran/2d/quatrotation.m4:49-61. -/
noncomputable def symmRotY {n : ℕ} (q : QField n) (old : ℤ → ℤ → ℤ) (i j : ℤ) : ℤ :=
  ((quatfindsymm n (q i j) (q i (j - 1)) (old i j)).map (·.2)).getD (old i j)

/-- The rotations applied by the routines: `x i j` rotates by `iqrot_x(i,j)`, `xi i j` by `-iqrot_x(i,j)`; `y`, `yi`
likewise on y sides. -/
structure RotOps (n : ℕ) where
  x : ℤ → ℤ → QVec n → QVec n
  xi : ℤ → ℤ → QVec n → QVec n
  y : ℤ → ℤ → QVec n → QVec n
  yi : ℤ → ℤ → QVec n → QVec n

/-- The routines without symmetry. -/
def RotOps.plain (n : ℕ) : RotOps n := ⟨fun _ _ => id, fun _ _ => id, fun _ _ => id, fun _ _ => id⟩

/-- The `_symm` routines with index arrays `kx`, `ky`. -/
noncomputable def RotOps.ofIndices (n : ℕ) (kx ky : ℤ → ℤ → ℤ) : RotOps n :=
  ⟨fun i j => rotBy (kx i j), fun i j => rotBy (-1 * kx i j), fun i j => rotBy (ky i j), fun i j => rotBy (-1 * ky i j)⟩

/-- Where the gradient routines rotate (`depth > 1`, source/fortran/2d/quatgrad.m4:357, 381): for one component they do not. -/
def RotOps.forGrad {n : ℕ} (R : RotOps n) : RotOps n := if n > 1 then R else RotOps.plain n

/-- Differences, gradients. `quatgrad_side` (source/fortran/2d/quatgrad.m4:157-230) and `quatgrad_side_symm` (311-449):
x gradient on x sides, line 398. -/
noncomputable def gXX {n : ℕ} (hx : ℝ) (dX : QField n) : QField n := fun i j m => 1 / hx * dX i j m

/-- y gradient on x sides, source/fortran/2d/quatgrad.m4:359-395. -/
noncomputable def gYX {n : ℕ} (hy : ℝ) (R : RotOps n) (dY : QField n) : QField n := fun i j m =>
  0.25 * (1 / hy) * (R.x i j (R.yi (i - 1) (j + 1) (dY (i - 1) (j + 1)) + dY (i - 1) j) m
    + R.yi i (j + 1) (dY i (j + 1)) m + dY i j m)

/-- x gradient on y sides, source/fortran/2d/quatgrad.m4:409-439. -/
noncomputable def gXY {n : ℕ} (hx : ℝ) (R : RotOps n) (dX : QField n) : QField n := fun i j m =>
  0.25 * (1 / hx) * (R.y i j (R.xi (i + 1) (j - 1) (dX (i + 1) (j - 1)) + dX i (j - 1)) m
    + R.xi (i + 1) j (dX (i + 1) j) m + dX i j m)

/-- y gradient on y sides, line 442. -/
noncomputable def gYY {n : ℕ} (hy : ℝ) (dY : QField n) : QField n := fun i j m => 1 / hy * dY i j m

/-- `quatgrad_side_symm_isotropic` (source/fortran/2d/quatgrad.m4:454-645) for `depth > 1`, x gradient on x sides, 543-569. -/
noncomputable def gIsoXX {n : ℕ} (hx : ℝ) (R : RotOps n) (dX : QField n) : QField n := fun i j m =>
  1 / hx / 12 * (10 * dX i j m + R.y i j (dX i (j - 1)) m + R.yi i (j + 1) (dX i (j + 1)) m)

/-- The same, y gradient on y sides, source/fortran/2d/quatgrad.m4:613-639. -/
noncomputable def gIsoYY {n : ℕ} (hy : ℝ) (R : RotOps n) (dY : QField n) : QField n := fun i j m =>
  1 / hy / 12 * (10 * dY i j m + R.x i j (dY (i - 1) j) m + R.xi (i + 1) j (dY (i + 1) j) m)

/-- `quatgrad_side_symm_isotropic` for `depth = 1`: the neighbours are read with the loop variable `m` left over from
the loop before (source/fortran/2d/quatgrad.m4:558-559, 628-629), whose value is then `depth + 1 = 2`: the second component of the
differences array, which holds the differences without symmetry (source/computeQDiffs.cc:247-248). -/
noncomputable def gIsoXX1 {n : ℕ} (hx : ℝ) (dX nX : QField n) : QField n := fun i j m =>
  1 / hx / 12 * (10 * dX i j m + nX i (j - 1) m + nX i (j + 1) m)

@[inherit_doc gIsoXX1]
noncomputable def gIsoYY1 {n : ℕ} (hy : ℝ) (dY nY : QField n) : QField n := fun i j m =>
  1 / hy / 12 * (10 * dY i j m + nY (i - 1) j m + nY (i + 1) j m)

/-- Arguments of `compute_face_coef2d` that do not vary over the grid. -/
structure CoefParams where
  epsQ : ℝ
  misorientation : ℝ
  gradientFloor : ℝ
  floorType : Char
  interp1 : Char
  interp2 : Char
  avg : Char

/-- `compute_face_coef2d`, source/fortran/2d/quatfacops.m4:14-122, one face: phases and temperatures of the two cells, the two
components of the side gradient. -/
noncomputable def faceCoef {n : ℕ} (P : CoefParams) (phi1 phi2 temp1 temp2 : ℝ) (gx gy : QVec n) : Option ℝ := do
  let phia ← averageFunc P.avg phi1 phi2
  let tempa := 0.5 * (temp1 + temp2)
  let p1 ← interpFunc P.interp1 phia
  let diff := P.misorientation * tempa * p1
  let hphi2 ← interpFunc P.interp2 phia
  let gradNorm2 := acc (fun m => gx m ^ 2) + acc (fun m => gy m ^ 2)
  let gradNormi ← evalGradNormi P.floorType gradNorm2 (P.gradientFloor ^ 2) (1 / P.gradientFloor)
  some (-gradNormi * diff - P.epsQ * P.epsQ * hphi2)

/-- Grid data of the right-hand side. -/
structure Grid where
  hx : ℝ
  hy : ℝ
  phi : Field2
  temp : Field2
  mob : Field2

/-- Side gradients: `grad_q(side, component, direction)`. -/
structure SideGrad (n : ℕ) where
  xx : QField n
  yx : QField n
  xy : QField n
  yy : QField n

/-- `computeQGradSide`, source/computeQDiffs.cc:20-170, standard stencil (`iso = false`) or the isotropic one
(`iso = true`), from the differences `dX`, `dY` and those stored after them, `nX`, `nY` (the differences without
symmetry; without symmetry the routine `quatgrad_side_isotropic` reads the right ones, which are then the same). -/
noncomputable def sideGrad {n : ℕ} (iso : Bool) (hx hy : ℝ) (R : RotOps n) (dX dY nX nY : QField n) : SideGrad n :=
  ⟨if iso then (if n > 1 then gIsoXX hx R dX else gIsoXX1 hx dX nX) else gXX hx dX, gYX hy R dY, gXY hx R dX,
    if iso then (if n > 1 then gIsoYY hy R dY else gIsoYY1 hy dY nY) else gYY hy dY⟩

/-- Face coefficients on x and y sides, `QuatFaceCoeff::computeFaceCoefs` (source/QuatFaceCoeff.cc:38-121). -/
noncomputable def coefX {n : ℕ} (P : CoefParams) (G : Grid) (g : SideGrad n) (i j : ℤ) : Option ℝ :=
  faceCoef P (G.phi (i - 1) j) (G.phi i j) (G.temp (i - 1) j) (G.temp i j) (g.xx i j) (g.yx i j)
@[inherit_doc coefX]
noncomputable def coefY {n : ℕ} (P : CoefParams) (G : Grid) (g : SideGrad n) (i j : ℤ) : Option ℝ :=
  faceCoef P (G.phi i (j - 1)) (G.phi i j) (G.temp i (j - 1)) (G.temp i j) (g.xy i j) (g.yy i j)

/-- `compute_flux2d_from_gradq`, source/fortran/2d/quatfacops.m4:232-282, one side. -/
def flux {n : ℕ} (fc : ℝ) (g : QVec n) : QVec n := fun m => fc * g m

/-- `add_quat_op2d`, source/fortran/2d/quatfacops.m4:487-540: amount added for one cell (`depth = 1`). -/
noncomputable def plainOp {n : ℕ} (mobility hx hy : ℝ) (left right down up : QVec n) : QVec n := fun m =>
  0 - mobility * ((right m - left m) * (1 / hx) + (up m - down m) * (1 / hy))

/-- `QuatFACOps::accumulateOperatorOnLevel` with `project = true` on one cell (source/QuatFACOps.cc:2078-2120), given
the face coefficients: `Rd` are the rotations of the divergence routines.  One component: `accumulateOperatorOnPatch`,
no rotation, no projection.  Otherwise `computeLambdaOnPatch` and `accumulateProjectedOperatorOnPatch`. -/
noncomputable def cellRate {n : ℕ} (mobility hx hy : ℝ) (Rd : RotOps n) (g : SideGrad n) (cX cY : ℤ → ℤ → ℝ)
    (q : QField n) (i j : ℤ) : Option (QVec n) :=
  let left := flux (cX i j) (g.xx i j)
  let right := flux (cX (i + 1) j) (g.xx (i + 1) j)
  let down := flux (cY i j) (g.yy i j)
  let up := flux (cY i (j + 1)) (g.yy i (j + 1))
  if n = 1 then some (plainOp mobility hx hy left right down up)
  else
    let right := Rd.xi (i + 1) j right
    let up := Rd.yi i (j + 1) up
    (lambdaFlux hx hy left right down up (q i j)).map (projOp mobility hx hy left right down up (q i j))

/-- `QuatIntegrator::evaluateQuatRHS` (source/QuatIntegrator.cc:2693-2778) at one cell.  `symm` is `d_symmetry_aware`,
`useDiffs` is `d_use_gradq_for_flux` (the input `use_diffs_to_compute_flux`), `iso` the stencil switch, `kx`, `ky` the
index arrays.  The gradients are computed by `computeQuatGradients` (2782-2826) from the same orientations, with the
symmetric differences if and only if `symm` (source/QuatModel.cc:4134-4150, source/computeQDiffs.cc:243-270); they are always the
ones used for the flux (last argument `true` at line 2709).  The rotation array reaches the divergence only with
`useDiffs` (2702); otherwise the correction routine runs (2742-2745).  The separate copy of the gradients used for the
coefficients is taken to be up to date (flag `recompute_quat_sidegrad`). -/
noncomputable def evaluateQuatRHS {n : ℕ} (symm useDiffs iso : Bool) (P : CoefParams) (G : Grid) (kx ky : ℤ → ℤ → ℤ)
    (q : QField n) (i j : ℤ) : Option (QVec n) := do
  let R := if symm then RotOps.ofIndices n kx ky else RotOps.plain n
  let sX := qdiffX R.x q
  let sY := qdiffY R.y q
  let nX := qdiffX (RotOps.plain n).x q
  let nY := qdiffY (RotOps.plain n).y q
  let g := sideGrad iso G.hx G.hy R.forGrad sX sY nX nY
  let Rd := if symm && useDiffs then R else RotOps.plain n
  let c1 ← coefX P G g i j
  let c2 ← coefX P G g (i + 1) j
  let c3 ← coefY P G g i j
  let c4 ← coefY P G g i (j + 1)
  let cX := fun (a b : ℤ) => if a = i then c1 else c2
  let cY := fun (a b : ℤ) => if b = j then c3 else c4
  let rate ← cellRate (G.mob i j) G.hx G.hy Rd g cX cY q i j
  if symm && !useDiffs then
    let Rc := R.forGrad
    let add ← symmAdd (G.mob i j) (q i j) (symmTmp G.hx G.hy nX nY sX sY Rc.xi Rc.yi cX cY i j)
    some (rate + add)
  else some rate

end AMPE.QuatFlow
