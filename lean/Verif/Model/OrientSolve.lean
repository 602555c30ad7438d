import Verif.Model.Functions
import Verif.Model.Tagging
import Mathlib.Analysis.SpecialFunctions.Exp
import Mathlib.Analysis.SpecialFunctions.Sqrt

/-! # Orientation mobility, symmetry correction and projection onto the unit sphere -/

namespace AMPE.OrientSolve

open AMPE.Flux AMPE.Tagging

/-- `qfunc` of `quatmobility`, source/fortran/2d/mobility.m4:43-84 (3D: the same), one cell; `none` for `stop`. Divisions by
zero (exponential kind with `alt = 0`) are left to the total division of the reals and excluded in the theorems. -/
noncomputable def qfunc (kind : Char) (alt phase : ℝ) : Option ℝ :=
  if kind = 'p' ∨ kind = 'P' then
    let phi := max 0 (min 1 phase)
    some (1 - phi * phi * phi * (10 - 15 * phi + 6 * phi * phi))
  else if kind = 'e' ∨ kind = 'E' then
    let c := alt
    let phi := max 0 (min 1 phase)
    some (1 - (1 - Real.exp (c * phi)) / (1 - Real.exp c))
  else if kind = 'i' ∨ kind = 'I' then
    let phi := max 1e-6 (min 1 phase)
    some (min (max 0 ((1 - phi) / (phi * phi))) alt)
  else none

/-- `quatmobility`, source/fortran/2d/mobility.m4:13-93. -/
noncomputable def quatMobility (kind : Char) (scale minM alt phase : ℝ) : Option ℝ :=
  (qfunc kind alt phase).map fun q => minM + (scale - minM) * q

/-- `dqfunc` of `quatmobilityderiv`, source/fortran/2d/mobility.m4:126-163. -/
noncomputable def dqfunc (kind : Char) (alt phase : ℝ) : Option ℝ :=
  if kind = 'p' ∨ kind = 'P' then
    let phi := max 0 (min 1 phase)
    some (-30 * phi * phi * (1 - phi) * (1 - phi))
  else if kind = 'e' ∨ kind = 'E' then
    let c := alt
    let phi := max 0 (min 1 phase)
    some (c * Real.exp (c * phi) / (1 - Real.exp c))
  else if kind = 'i' ∨ kind = 'I' then
    let phi := max 1e-6 (min 1 phase)
    some ((phi - 2) / (phi * phi * phi))
  else none

/-- `quatmobilityderiv`, source/fortran/2d/mobility.m4:97-172. -/
noncomputable def quatMobilityDeriv (kind : Char) (scale minM alt phase : ℝ) : Option ℝ :=
  (dqfunc kind alt phase).map fun q => (scale - minM) * q

/-- A loop `do m = 1, depth` accumulating a sum. -/
noncomputable def acc {n : ℕ} (t : Fin n → ℝ) : ℝ := (List.finRange n).foldl (fun s m => s + t m) 0

/-! ## Symmetry correction -/

/-- `tmp` of `correctrhsquatforsymmetry`, source/fortran/2d/correctrhsquatforsymmetry.m4:90-108, at cell `(i,j)`: `nX`, `nY`
plain and `sX`, `sY` symmetry-aware differences, `R` the rotations by `-iqrot` (used for `depth > 1`, 66-88; for
`depth = 1` they are not applied, which is `R = id`). -/
noncomputable def symmTmp {n : ℕ} (dx dy : ℝ) (nX nY sX sY : QField n) (RX RY : ℤ → ℤ → QVec n → QVec n)
    (fx fy : Field2) (i j : ℤ) : QVec n := fun m =>
  1 / (dx * dx) * (fx (i + 1) j * (nX (i + 1) j m - RX (i + 1) j (sX (i + 1) j) m) - fx i j * (nX i j m - sX i j m))
    + 1 / (dy * dy) * (fy i (j + 1) * (nY i (j + 1) m - RY i (j + 1) (sY i (j + 1)) m) - fy i j * (nY i j m - sY i j m))

/-- The amount added to `rhs(i,j,:)`, lines 111-133; `none` when `beta = 0` (division by zero). -/
noncomputable def symmAdd {n : ℕ} (mobility : ℝ) (q tmp : QVec n) : Option (QVec n) :=
  if n > 1 then
    let beta := acc fun m => q m * q m
    let lambda := acc fun m => q m * tmp m
    if beta = 0 then none else
      let lambda := lambda / beta
      some fun m => mobility * (tmp m - lambda * q m)
  else some fun m => mobility * tmp m

/-! ## Lagrange multiplier form of the right-hand side -/

/-- `compute_lambda_flux2d` (source/fortran/2d/quatfacops.m4:683-735) and `_symm` (737-799): right and upper fluxes already
rotated. `none` when the orientation is zero. -/
noncomputable def lambdaFlux {n : ℕ} (hx hy : ℝ) (left right down up q : QVec n) : Option ℝ :=
  let l := (List.finRange n).foldl (fun s m =>
    s - q m * ((right m - left m) * (0.5 / hx) + (up m - down m) * (0.5 / hy))) 0
  let sumq2 := acc fun m => q m ^ 2
  if sumq2 = 0 then none else some (l / sumq2)

/-- `add_quat_proj_op2d` (source/fortran/2d/quatfacops.m4:542-602) and `_symm` (604-681): the amount added to `rhs(i,j,:)`. -/
noncomputable def projOp {n : ℕ} (mobility hx hy : ℝ) (left right down up q : QVec n) (lambda : ℝ) : QVec n := fun m =>
  0 - mobility * ((right m - left m) * (1 / hx) + (up m - down m) * (1 / hy) + 2 * q m * lambda)

/-! ## Projection -/

/-- `project2d`, source/fortran/2d/quatfacops.m4:940-997, one cell: new error and correction; `none` for a zero orientation. -/
noncomputable def project {n : ℕ} (q err : QVec n) : Option (QVec n × QVec n) :=
  let s := acc fun m => q m ^ 2
  if s = 0 then none else
    let fac := 1 / Real.sqrt s
    let corr : QVec n := fun m => q m * fac
    let fac := acc fun m => corr m * err m
    some (fun m => err m - corr m * fac, fun m => corr m - q m)

end AMPE.OrientSolve
