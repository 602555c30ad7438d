import Mathlib.Analysis.SpecialFunctions.Trigonometric.Basic
import Mathlib.Analysis.SpecialFunctions.Trigonometric.DerivHyp
import Mathlib.Algebra.BigOperators.Group.Finset.Basic

/-!
# Generator of a flat solid along a side (utils/make_initial_grains_on_boundary.py)

The script writes a solid in the lowest fraction of the domain across one axis (`dir1`), cut in `ngrains` slabs of different orientation along
another axis (`dir0`).  Numbers are real numbers (the script stores single precision).  Not modelled: printing, the draw of the
orientations (see C142) and of the noise, which are arguments here, and the orientations of the liquid when smoothing is off.
-/

namespace AMPE.BoundaryGrains

/-- `dir0` and `dir1`, utils/make_initial_grains_on_boundary.py:80-88. -/
def dir0 (plane : ℤ) : Fin 3 := if plane = 0 then 1 else 0
@[inherit_doc dir0]
def dir1 (plane : ℤ) : Fin 3 := if plane = 2 then 2 else if plane = 0 then 0 else 1

/-- Position of a cell between 0 and 1, utils/make_initial_grains_on_boundary.py:263, 267, 279. -/
noncomputable def pos (n i : ℕ) : ℝ := ((i : ℝ) + 0.5) / (1 * n)

/-- `delta`, utils/make_initial_grains_on_boundary.py:270-275: the fluctuation is used only without noise.  `draw` is the random number
in `[-1, 1]`. -/
noncomputable def delta (noise fluctuation draw x : ℝ) : ℝ :=
  if 0 < noise then noise * draw else if 0 < fluctuation then fluctuation * Real.sin (x * 2 * Real.pi) else 0

/-- `d`, utils/make_initial_grains_on_boundary.py:284. -/
noncomputable def depth (y sf delta : ℝ) : ℝ := (y - sf) + delta

/-- Phase before the grain boundaries, utils/make_initial_grains_on_boundary.py:287-292. -/
noncomputable def front (widthy d : ℝ) : ℝ :=
  if 0 < widthy then (if d < 0.1 then 0.5 * (1 + Real.tanh (-3 * d / widthy)) else 0) else if d < 0 then 1 else 0

/-- The factor of a grain boundary, utils/make_initial_grains_on_boundary.py:295-298. -/
noncomputable def cut (n0 ngrains : ℕ) (x : ℝ) (g : ℕ) : ℝ :=
  let dx := |x - g * (1 / ngrains)|
  if (n0 : ℝ) * dx < 5 then (let s := Real.sin (0.5 * Real.pi * dx * n0 / 5); s * s) else 1

/-- The phase of the cell `a` along `dir0` and `b` along `dir1`, utils/make_initial_grains_on_boundary.py:262-298; `n0` and `n1` are the
numbers of cells along these axes, `width` the option (`widthy = width/n1`, line 93). -/
noncomputable def phase (n0 n1 ngrains : ℕ) (sf width noise fluctuation draw : ℝ) (a b : ℕ) : ℝ :=
  (List.range' 1 (ngrains - 1)).foldl (fun p g => p * cut n0 ngrains (pos n0 a) g)
    (front (width / n1) (depth (pos n1 b) sf (delta noise fluctuation draw (pos n0 a))))

/-- Composition of the liquid, utils/make_initial_grains_on_boundary.py:209-222: with a nominal composition the option for the liquid is not
used.  `none` is the division by zero. -/
noncomputable def outside (nominal given : Option ℝ) (ci sf : ℝ) : Option ℝ :=
  match nominal with
  | some c => if 1 - sf = 0 then none else some ((c - ci * sf) / (1 - sf))
  | none => some (given.getD 0)

/-- Composition of the solid, utils/make_initial_grains_on_boundary.py:110-114, 202-207. -/
noncomputable def inside (nominal given : Option ℝ) : ℝ := (given.orElse fun _ => nominal).getD 0

/-- Composition of a cell, utils/make_initial_grains_on_boundary.py:338-340. -/
noncomputable def composition (ci co y : ℝ) : ℝ := ci * y + co * (1 - y)

/-- The grain of a plane across `dir0`, utils/make_initial_grains_on_boundary.py:312-325: `nx` is `nn[0]` (in `offset`), `n0` is `nn[dir0]`; the
last slab that contains the position, the first one when there is none. -/
noncomputable def grain (nx n0 ngrains : ℕ) (i : ℕ) : ℕ :=
  (List.range ngrains).foldl (fun (gmin g : ℕ) =>
    if |((i : ℝ) + 0.5) - g * (1 / ngrains) * n0 - 0.5 * (1 / ngrains) * nx| < 0.5 * (1 / ngrains) * n0 then g else gmin) 0

/-- First index and end of the loop along an axis, utils/make_initial_grains_on_boundary.py:159-176. -/
def bounds (periodic : Bool) (n : ℕ) : ℕ × ℕ := if periodic then (0, n) else (1, n - 1)
@[inherit_doc bounds]
def boundsZ (periodic : Bool) (n : ℕ) : ℕ × ℕ := if periodic || n == 1 then (0, n) else (1, n - 1)

/-- `(i-1)%m` of Python. -/
def before (i m : ℕ) : ℕ := (((i : ℤ) - 1) % (m : ℤ)).toNat
/-- `(i+1)%m` of Python. -/
def after (i m : ℕ) : ℕ := (((i : ℤ) + 1) % (m : ℤ)).toNat

/-- `smoothQuat` for one component, utils/make_initial_grains_on_boundary.py:157-192; arguments of the field in the order x, y, z.  The names
`nx`, `ny`, `nz` in the average are the ends of the loops, not the numbers of cells. -/
noncomputable def smooth (px py pz : Bool) (nx ny nz : ℕ) (q : ℕ → ℕ → ℕ → ℝ) (i j k : ℕ) : ℝ :=
  let bx := bounds px nx
  let byy := bounds py ny
  let bz := boundsZ pz nz
  if bx.1 ≤ i ∧ i < bx.2 ∧ byy.1 ≤ j ∧ j < byy.2 ∧ bz.1 ≤ k ∧ k < bz.2 then
    0.25 * q i j k + 0.125 * q i j (before k bz.2) + 0.125 * q i j (after k bz.2) + 0.125 * q i (before j byy.2) k
      + 0.125 * q i (after j byy.2) k + 0.125 * q (before i bx.2) j k + 0.125 * q (after i bx.2) j k
  else q i j k

end AMPE.BoundaryGrains
