import Mathlib.Analysis.SpecialFunctions.Log.Basic
import Mathlib.Analysis.Complex.Trigonometric

/-!
# Model of the scalar phase-field functions (source/fortran/functions.f)

Each Fortran function dispatches on the first character of its `type` argument; the model takes
that character.  `none` is the Fortran `stop` after the "type unknown" message.  `double precision`
is modelled by `ℝ`.
-/

namespace AMPE.Functions

/-- `max(0.d0, phi)`. -/
noncomputable def pos (x : ℝ) : ℝ := max 0 x

/-- `max(0.d0, min(1.d0, phi))`. -/
noncomputable def clamp (x : ℝ) : ℝ := max 0 (min 1 x)

/-- `gamma = 10.d0`, source/fortran/functions.f:26, 105. -/
def gamma : ℝ := 10

/-- `interp_func`, source/fortran/functions.f:17-91. -/
noncomputable def interpFunc (ty : Char) (phi : ℝ) : Option ℝ :=
  if ty = 'q' then
    let phit := pos phi
    some (phit * phit)
  else if ty = 'p' then
    let phit := clamp phi
    some (phit * phit * phit * (10 - 15 * phit + 6 * phit * phit))
  else if ty = 'h' then
    let phit := clamp phi
    some (phit * phit * (3 - 2 * phit))
  else if ty = 'w' then
    let phit := pos phi
    some (phit * phit * (2 - phit))
  else if ty = 'l' then
    let phit := pos phi
    let phit := min 1 phit
    some phit
  else if ty = 'm' then
    let phit := clamp phi
    some (phit * phit / (2 * phit * (phit - 1) + 1))
  else if ty = '3' then
    let phit := pos phi
    some (phit * phit * phit)
  else if ty = 's' then
    some (Real.log (Real.cosh (gamma * phi)) / Real.log (Real.cosh gamma))
  else if ty = 'c' then
    some 1
  else none

/-- `deriv_interp_func`, source/fortran/functions.f:95-172. -/
noncomputable def derivInterpFunc (ty : Char) (phi : ℝ) : Option ℝ :=
  if ty = 'q' then
    let phit := pos phi
    some (2 * phit)
  else if ty = 'p' then
    let phit := clamp phi
    some (30 * phit * phit * (1 - phit) * (1 - phit))
  else if ty = 'h' then
    let phit := clamp phi
    some (6 * phit * (1 - phit))
  else if ty = 'w' then
    let phit := pos phi
    some (phit * (4 - 3 * phit))
  else if ty = 'l' then
    if phi > 0 ∨ phi < 1 then some 1 else some 0
  else if ty = 'm' then
    let phit := clamp phi
    let tmp := 2 * phit * (phit - 1) + 1
    some (2 * phit * (1 - phit) / (tmp * tmp))
  else if ty = '3' then
    let phit := pos phi
    some (3 * phit * phit)
  else if ty = 's' then
    let phit := pos phi
    some (gamma * Real.tanh (gamma * phit) / Real.log (Real.cosh gamma))
  else if ty = 'c' then
    some 0
  else none

/-- `second_deriv_interp_func`, source/fortran/functions.f:176-242. -/
noncomputable def secondDerivInterpFunc (ty : Char) (phi : ℝ) : Option ℝ :=
  if ty = 'q' then
    if phi ≥ 0 then some 2 else some 0
  else if ty = 'p' then
    let phit := clamp phi
    some (60 * phit * (1 - 3 * phit + 2 * phit * phit))
  else if ty = 'h' then
    let phit := clamp phi
    some (6 * (1 - 2 * phit))
  else if ty = 'w' then
    let phit := pos phi
    some (4 - 6 * phit)
  else if ty = 'l' then
    some 0
  else if ty = 'a' then
    if phi < 0.08333333333333333 then
      let phit := max 0 phi
      some (324 * phit)
    else if phi > 0.9166666666666666 then
      let phit := min 1 phi
      let phit := 1 - phit
      some (-324 * phit)
    else some 0
  else if ty = 'c' then
    some 0
  else none

/-- `well_func`, source/fortran/functions.f:246-271. -/
noncomputable def wellFunc (ty : Char) (phi : ℝ) : Option ℝ :=
  if ty = 'd' then some (16 * phi * phi * (1 - phi) * (1 - phi))
  else if ty = 's' then some ((1 - phi) * (1 - phi))
  else none

/-- `deriv_well_func`, source/fortran/functions.f:275-300. -/
noncomputable def derivWellFunc (ty : Char) (phi : ℝ) : Option ℝ :=
  if ty = 'd' then some (32 * phi * (1 - phi) * (1 - 2 * phi))
  else if ty = 's' then some (2 * (phi - 1))
  else none

/-- `second_deriv_well_func`, source/fortran/functions.f:304-329. -/
noncomputable def secondDerivWellFunc (ty : Char) (phi : ℝ) : Option ℝ :=
  if ty = 'd' then some (32 * (1 + 6 * phi * (phi - 1)))
  else if ty = 's' then some 2
  else none

/-- `threshold = 1.0d-16`, source/fortran/functions.f:341, 379. -/
noncomputable def threshold : ℝ := 1 / 10 ^ 16

/-- `average_func`, source/fortran/functions.f:333-367. -/
noncomputable def averageFunc (ty : Char) (phi1 phi2 : ℝ) : Option ℝ :=
  if ty = 'a' then some (0.5 * (phi1 + phi2))
  else if ty = 'h' then
    if phi1 < threshold ∨ phi2 < threshold then some 0
    else some (2 / (1 / phi1 + 1 / phi2))
  else none

/-- `deriv_average_func`, source/fortran/functions.f:371-402. -/
noncomputable def derivAverageFunc (ty : Char) (avgPhi nextPhi : ℝ) : Option ℝ :=
  if ty = 'a' then some 0.5
  else if ty = 'h' then
    if avgPhi < threshold then some 0
    else some (0.5 * nextPhi * nextPhi / (avgPhi * avgPhi))
  else none

/-- `deriv_triple_well_func`, source/fortran/functions.f:609-623. -/
noncomputable def derivTripleWellFunc (p0 p1 p2 : ℝ) : ℝ :=
  32 * (1 / 3) * (2 * p0 * (1 - p0) * (1 - 2 * p0) - p1 * (1 - p1) * (1 - 2 * p1)
    - p2 * (1 - p2) * (1 - 2 * p2))

end AMPE.Functions
