import Mathlib.Data.Real.Basic
import Mathlib.Algebra.BigOperators.Group.Finset.Basic

/-!
# Scripts writing linear initial profiles

utils/make_init_1d.py and utils/add_temperature.py.  Numbers are real numbers; values that do not depend on `y` and `z` are functions of the column.  Python 2
divides integers without remainder.  Not modelled: the file itself.
-/

namespace AMPE.Profiles

/-- `cx = nx / 2`, utils/make_init_1d.py:82. -/
def cx (nx : ℕ) : ℕ := nx / 2

/-- One value of utils/make_init_1d.py:96-101; `none`: division by zero. -/
noncomputable def tent (center del : ℝ) (nx i : ℕ) : Option ℝ :=
  let x : ℝ := i + 0.5
  let distance := |x - cx nx|
  if cx nx = 0 then none else some (center + del * distance / cx nx)

/-- Column of `conc`, utils/make_init_1d.py:90-91, 100. -/
noncomputable def conc (nx i : ℕ) : Option ℝ := tent 0.02 0.04 nx i

/-- Column of `temp`, utils/make_init_1d.py:93-94, 101. -/
noncomputable def temp (nx i : ℕ) : Option ℝ := tent 860 (-60) nx i

/-- Column of `temp`, utils/add_temperature.py:54-61. -/
noncomputable def ramp (nx i : ℕ) : ℝ :=
  let tavg : ℝ := 837.15
  let delt : ℝ := 40
  let dt := delt / nx
  let t0 := tavg - 0.5 * delt
  let x : ℝ := i + 0.5
  t0 + x * dt

end AMPE.Profiles
