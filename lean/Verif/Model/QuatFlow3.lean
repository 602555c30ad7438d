import Verif.Model.QuatFlow

/-!
# Orientation right-hand side in three dimensions

The routines of source/fortran/3d/quatdiffs.m4, quatgrad.m4, quatrotation.m4, quatfacops.m4 and
correctrhsquatforsymmetry.m4 (same directory), and the calls of source/QuatFACOps.cc, source/computeQDiffs.cc and
source/QuatIntegrator.cc with `NDIM == 3`.

The Fortran text treats the directions x, y, z by three copies of the same block with the roles of the indices exchanged; here a
direction is an element of `Fin 3` and `mv d a` moves a cell index by `a` in direction `d`.  One level; patch
boundaries, coarse/fine flux replacement and physical boundary values are not modelled (fields are functions on the integer
lattice).  `stop` and a failed `assert` are `none`.
-/

namespace AMPE.QuatFlow3

open AMPE.Tagging AMPE.Quat AMPE.OrientSolve AMPE.Functions AMPE.QuatFlow

/-- Index of a cell. -/
abbrev Cell := ℤ × ℤ × ℤ

/-- The cell `a` further in direction `d`. -/
def mv : Fin 3 → ℤ → Cell → Cell
  | 0, a, (i, j, k) => (i + a, j, k)
  | 1, a, (i, j, k) => (i, j + a, k)
  | 2, a, (i, j, k) => (i, j, k + a)

/-- A quantity per component, on cells or on the sides of one direction. -/
abbrev QField3 (n : ℕ) := Cell → QVec n

/-- The rotations of the routines: `r d p` rotates by `iqrot` of the side between `mv d (-1) p` and `p`, `ri d p` by
`-1 * iqrot`. -/
structure RotOps3 (n : ℕ) where
  r : Fin 3 → Cell → QVec n → QVec n
  ri : Fin 3 → Cell → QVec n → QVec n

/-- The routines without symmetry. -/
def RotOps3.plain (n : ℕ) : RotOps3 n := ⟨fun _ _ => id, fun _ _ => id⟩

/-- The `_symm` routines with index arrays `k`. -/
noncomputable def RotOps3.ofIndices (n : ℕ) (k : Fin 3 → Cell → ℤ) : RotOps3 n :=
  ⟨fun d p => rotBy (k d p), fun d p => rotBy (-1 * k d p)⟩

/-- Where the gradient routines rotate (`depth > 1`, source/fortran/3d/quatgrad.m4:440, 474, 522, 556, 604, 638). -/
def RotOps3.forGrad {n : ℕ} (R : RotOps3 n) : RotOps3 n := if n > 1 then R else RotOps3.plain n

/-- `quat_symm_rotation`, source/fortran/3d/quatrotation.m4:12-88: `old` is what the index arrays held before. -/
noncomputable def symmRot3 {n : ℕ} (q : QField3 n) (old : Fin 3 → Cell → ℤ) (d : Fin 3) (p : Cell) : ℤ :=
  ((quatfindsymm n (q p) (q (mv d (-1) p)) (old d p)).map (·.2)).getD (old d p)

/-- `quatdiffs` and `quatdiffs_symm`, source/fortran/3d/quatdiffs.m4:66-218: difference on the side of `p` in direction `d`. -/
def qdiff3 {n : ℕ} (S : Fin 3 → Cell → QVec n → QVec n) (q : QField3 n) (d : Fin 3) : QField3 n :=
  fun p => q p - S d p (q (mv d (-1) p))

/-- `quatgrad_side` (source/fortran/3d/quatgrad.m4:213-333) and `quatgrad_side_symm` (376-677): component `c` of the gradient on
the sides of direction `s`, from the differences `D`. -/
noncomputable def sideGrad3 {n : ℕ} (h : Fin 3 → ℝ) (R : RotOps3 n) (D : Fin 3 → QField3 n) (s c : Fin 3) : QField3 n := fun p m =>
  if c = s then 1 / h s * D s p m
  else 0.25 * (1 / h c) * (R.r s p (R.ri c (mv c 1 (mv s (-1) p)) (D c (mv c 1 (mv s (-1) p))) + D c (mv s (-1) p)) m
    + R.ri c (mv c 1 p) (D c (mv c 1 p)) m + D c p m)

/-- `compute_face_coef3d`, source/fortran/3d/quatfacops.m4:14-155, one face: phases and temperatures of the two cells, the three
components of the side gradient. -/
noncomputable def faceCoef3 {n : ℕ} (P : CoefParams) (phi1 phi2 temp1 temp2 : ℝ) (g : Fin 3 → QVec n) : Option ℝ := do
  let phia ← averageFunc P.avg phi1 phi2
  let tempa := 0.5 * (temp1 + temp2)
  let p1 ← interpFunc P.interp1 phia
  let diff := P.misorientation * tempa * p1
  let hphi2 ← interpFunc P.interp2 phia
  let gradNorm2 := acc (fun m => g 0 m ^ 2) + acc (fun m => g 1 m ^ 2) + acc (fun m => g 2 m ^ 2)
  let gradNormi ← evalGradNormi P.floorType gradNorm2 (P.gradientFloor ^ 2) (1 / P.gradientFloor)
  some (-gradNormi * diff - P.epsQ * P.epsQ * hphi2)

/-- Grid data of the right-hand side. -/
structure Grid3 where
  h : Fin 3 → ℝ
  phi : Cell → ℝ
  temp : Cell → ℝ
  mob : Cell → ℝ

/-- Face coefficients on the sides of direction `s`, `QuatFaceCoeff::computeFaceCoefs` (source/QuatFaceCoeff.cc:38-121). -/
noncomputable def coef3 {n : ℕ} (P : CoefParams) (G : Grid3) (g : Fin 3 → Fin 3 → QField3 n) (s : Fin 3) (p : Cell) : Option ℝ :=
  faceCoef3 P (G.phi (mv s (-1) p)) (G.phi p) (G.temp (mv s (-1) p)) (G.temp p) (fun c => g s c p)

/-- Divergence of a cell from the fluxes on its lower and upper sides: source/fortran/3d/quatfacops.m4:540-543, 642-645,
707-710. -/
noncomputable def div3 {n : ℕ} (h : Fin 3 → ℝ) (lo hi : Fin 3 → QVec n) (m : Fin n) : ℝ :=
  (hi 0 m - lo 0 m) * (1 / h 0) + (hi 1 m - lo 1 m) * (1 / h 1) + (hi 2 m - lo 2 m) * (1 / h 2)

/-- `add_quat_op3d`, source/fortran/3d/quatfacops.m4:596-657: amount added for one cell. -/
noncomputable def plainOp3 {n : ℕ} (mobility : ℝ) (h : Fin 3 → ℝ) (lo hi : Fin 3 → QVec n) : QVec n := fun m =>
  0 - mobility * div3 h lo hi m

/-- `compute_lambda_flux3d`, source/fortran/3d/quatfacops.m4:729-791; `none` when the orientation is zero. -/
noncomputable def lambdaFlux3 {n : ℕ} (h : Fin 3 → ℝ) (lo hi : Fin 3 → QVec n) (q : QVec n) : Option ℝ :=
  let l := (List.finRange n).foldl (fun s m =>
    s - q m * ((hi 0 m - lo 0 m) * (0.5 / h 0) + (hi 1 m - lo 1 m) * (0.5 / h 1) + (hi 2 m - lo 2 m) * (0.5 / h 2))) 0
  let sumq2 := acc fun m => q m ^ 2
  if sumq2 = 0 then none else some (l / sumq2)

/-- `add_quat_proj_op3d`, source/fortran/3d/quatfacops.m4:659-727: amount added for one cell. -/
noncomputable def projOp3 {n : ℕ} (mobility : ℝ) (h : Fin 3 → ℝ) (lo hi : Fin 3 → QVec n) (q : QVec n) (lambda : ℝ) : QVec n :=
  fun m => 0 - mobility * (div3 h lo hi m + 2 * q m * lambda)

/-- `compute_q_residual3d` (source/fortran/3d/quatfacops.m4:483-551) on one cell, or, with a rotation index
(`QuatFACOps::computeResidualOnPatch`, source/QuatFACOps.cc:1757-1850), `compute_q_residual3d_symm` (553-594), which stops. -/
noncomputable def residual3 {n : ℕ} (rotated : Bool) (gamma sqrtM : ℝ) (h : Fin 3 → ℝ) (lo hi : Fin 3 → QVec n) (q rhs : QVec n) :
    Option (QVec n) :=
  if rotated then none else some fun m => rhs m - q m - gamma * sqrtM * div3 h lo hi m

/-- `QuatFACOps::accumulateOperatorOnLevel` with `project = true` on one cell of a 3D build (source/QuatFACOps.cc:2078-2120), from
the fluxes on the sides.  `rotated` says whether a rotation index was handed over; it is not used by the 3D routines, only asserted to
be absent (1281, 2257; for one component 2144) in builds with assertions (`checks`: all but those with `NDEBUG`,
CMakeLists.txt:347-351). -/
noncomputable def cellRate3 {n : ℕ} (checks rotated : Bool) (mobility : ℝ) (h : Fin 3 → ℝ) (lo hi : Fin 3 → QVec n) (q : QVec n) :
    Option (QVec n) :=
  if checks && rotated then none
  else if n = 1 then some (plainOp3 mobility h lo hi)
  else (lambdaFlux3 h lo hi q).map (projOp3 mobility h lo hi q)

/-- `tmp` of `correctrhsquatforsymmetry`, source/fortran/3d/correctrhsquatforsymmetry.m4:72-133: `nd` plain and `sd`
symmetry-aware differences of the lower (`Lo`) and upper (`Hi`) sides, the latter turned back already (`sdBack`). -/
noncomputable def symmTmp3 {n : ℕ} (h : Fin 3 → ℝ) (ndLo ndHi sdLo sdBack : Fin 3 → QVec n) (cLo cHi : Fin 3 → ℝ) : QVec n := fun m =>
  1 / (h 0 * h 0) * (cHi 0 * (ndHi 0 m - sdBack 0 m) - cLo 0 * (ndLo 0 m - sdLo 0 m))
    + 1 / (h 1 * h 1) * (cHi 1 * (ndHi 1 m - sdBack 1 m) - cLo 1 * (ndLo 1 m - sdLo 1 m))
    + 1 / (h 2 * h 2) * (cHi 2 * (ndHi 2 m - sdBack 2 m) - cLo 2 * (ndLo 2 m - sdLo 2 m))

/-- `QuatIntegrator::evaluateQuatRHS` (source/QuatIntegrator.cc:2693-2778) at one cell of a 3D build.  `symm` is
`d_symmetry_aware`, `useDiffs` is `d_use_gradq_for_flux` (the input `use_diffs_to_compute_flux`), `iso` the stencil switch of
`computeQGradSide` (source/computeQDiffs.cc:20-170; both isotropic routines stop in 3D, source/fortran/3d/quatgrad.m4:337-372,
681-721), `k` the index arrays.  The rotation array is handed over only with `useDiffs` (2702); otherwise the correction routine runs
(2742-2745), whose caller asserts that the face coefficients have as many components as the orientation although they
have one (source/QuatIntegrator.cc:4007, source/QuatFACOps.cc:147-148).  The last step of the correction (source/fortran/3d/
correctrhsquatforsymmetry.m4:136-165) is the same as in 2D.  The separate copy of the gradients used for the coefficients is
taken to be up to date. -/
noncomputable def evaluateQuatRHS3 {n : ℕ} (checks symm useDiffs iso : Bool) (P : CoefParams) (G : Grid3) (k : Fin 3 → Cell → ℤ)
    (q : QField3 n) (p : Cell) : Option (QVec n) :=
  if iso then none
  else
    let R := if symm then RotOps3.ofIndices n k else RotOps3.plain n
    let sd := qdiff3 R.r q
    let nd := qdiff3 (RotOps3.plain n).r q
    let g := sideGrad3 G.h R.forGrad sd
    do
      let a0 ← coef3 P G g 0 p
      let b0 ← coef3 P G g 0 (mv 0 1 p)
      let a1 ← coef3 P G g 1 p
      let b1 ← coef3 P G g 1 (mv 1 1 p)
      let a2 ← coef3 P G g 2 p
      let b2 ← coef3 P G g 2 (mv 2 1 p)
      let cLo : Fin 3 → ℝ := ![a0, a1, a2]
      let cHi : Fin 3 → ℝ := ![b0, b1, b2]
      let rate ← cellRate3 checks (symm && useDiffs) (G.mob p) G.h (fun d => flux (cLo d) (g d d p))
        (fun d => flux (cHi d) (g d d (mv d 1 p))) (q p)
      if symm && !useDiffs then
        if checks && decide (n ≠ 1) then none
        else
          let add ← symmAdd (G.mob p) (q p) (symmTmp3 G.h (fun d => nd d p) (fun d => nd d (mv d 1 p)) (fun d => sd d p)
            (fun d => R.forGrad.ri d (mv d 1 p) (sd d (mv d 1 p))) cLo cHi)
          some (rate + add)
      else some rate

end AMPE.QuatFlow3
