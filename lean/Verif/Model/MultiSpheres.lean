import Mathlib.Analysis.SpecialFunctions.Trigonometric.DerivHyp
import Mathlib.Analysis.SpecialFunctions.Sqrt
import Mathlib.Data.List.Dedup

/-!
# Generator of many spheres (utils/make_multi_spheres.py)

Numbers are real numbers (the script stores single precision).  A Python exception is `none`.  Not modelled: reading of the csv file beyond
the columns of a sphere, printing, writing.
-/

namespace AMPE.MultiSpheres

/-- A value of Python, as far as the comparison with `1` is concerned. -/
inductive PyVal
  | int (n : ℤ)
  | str (s : String)

/-- `v==n` of Python for an integer `n`: a string is never equal to a number. -/
def PyVal.eqInt : PyVal → ℤ → Bool
  | .int m, n => m == n
  | .str _, _ => false

/-- `periodic`, utils/make_multi_spheres.py:97: the pieces of the option are strings. -/
def periodic (text : String) : List PyVal := (text.splitOn ",").map .str

/-- The range of an axis, utils/make_multi_spheres.py:122-125. -/
def shifts (v : PyVal) : List ℤ := if v.eqInt 1 then [-1, 0, 1] else [0]

/-- Ranges of the three axes, utils/make_multi_spheres.py:122-135; `none` is an IndexError. -/
def ranges : List PyVal → Option (List ℤ × List ℤ × List ℤ)
  | a :: b :: c :: _ => some (shifts a, shifts b, shifts c)
  | _ => none

/-- `distance2_1d_x`, `_y`, `_z`, utils/make_multi_spheres.py:153-175. -/
noncomputable def distance1 (n : ℕ) (rg : List ℤ) (x1 x2 : ℝ) : ℝ :=
  rg.foldl (fun d2 (ir : ℤ) => if (x1 - x2 + ir * n) ^ 2 < d2 then (x1 - x2 + ir * n) ^ 2 else d2) ((x1 - x2) ^ 2)

/-- Innermost loop of `distance2`, utils/make_multi_spheres.py:145-149. -/
noncomputable def loopZ (nz : ℕ) (rz : List ℤ) (z dx2 dy2 d2 : ℝ) : ℝ :=
  rz.foldl (fun d2 (kr : ℤ) => if dx2 + dy2 + (z + kr * nz) ^ 2 < d2 then dx2 + dy2 + (z + kr * nz) ^ 2 else d2) d2

/-- Middle loop of `distance2`, utils/make_multi_spheres.py:142-149. -/
noncomputable def loopY (ny nz : ℕ) (ry rz : List ℤ) (y z dx2 d2 : ℝ) : ℝ :=
  ry.foldl (fun d2 (jr : ℤ) => if (y + jr * ny) ^ 2 ≤ d2 then loopZ nz rz z dx2 ((y + jr * ny) ^ 2) d2 else d2) d2

/-- `distance2`, utils/make_multi_spheres.py:137-150; `x`, `y`, `z` are the differences of the coordinates. -/
noncomputable def distance2 (nx ny nz : ℕ) (rx ry rz : List ℤ) (x y z : ℝ) : ℝ :=
  rx.foldl (fun d2 (ir : ℤ) => if (x + ir * nx) ^ 2 ≤ d2 then loopY ny nz ry rz y z ((x + ir * nx) ^ 2) d2 else d2)
    (x ^ 2 + y ^ 2 + z ^ 2)

/-- A line of the csv file. -/
structure Sphere where
  cx : ℝ
  cy : ℝ
  cz : ℝ
  r : ℝ
  phase : String

/-- Reading of a sphere, utils/make_multi_spheres.py:71-85: in a domain with one plane `cz` is 1; the phase is 'A' when it is missing. -/
noncomputable def readSphere (nz : ℕ) (cx cy cz r : ℝ) (phase : Option String) : Sphere :=
  ⟨cx, cy, if nz = 1 then 1 else cz, r, phase.getD "A"⟩

/-- The domain, the ranges and the width. -/
structure Grid where
  nx : ℕ
  ny : ℕ
  nz : ℕ
  rx : List ℤ
  ry : List ℤ
  rz : List ℤ
  width : ℝ

/-- `d`, utils/make_multi_spheres.py:232-234. -/
noncomputable def Grid.d (o : Grid) (s : Sphere) (i j k : ℕ) : ℝ :=
  Real.sqrt (distance2 o.nx o.ny o.nz o.rx o.ry o.rz ((i + 0.5) - s.cx) ((j + 0.5) - s.cy) ((k + 0.5) - s.cz)) - Real.sqrt (s.r ^ 2)

/-- The tests before the loop over x, utils/make_multi_spheres.py:211, 219-227. -/
def Grid.Near (o : Grid) (s : Sphere) (j k : ℕ) : Prop :=
  (distance1 o.nz o.rz (k + 0.5) s.cz < (s.r + 5 * o.width) ^ 2 ∨ o.nz = 1)
    ∧ distance1 o.ny o.ry (j + 0.5) s.cy < (s.r + 5 * o.width) ^ 2

open Classical in
/-- `phase[g,k,j,i]`, utils/make_multi_spheres.py:219-241. -/
noncomputable def Grid.phase (o : Grid) (s : Sphere) (i j k : ℕ) : ℝ :=
  if o.Near s j k then
    if 0 < o.width ∧ |o.d s i j k| < 8 * o.width then 0.5 * (1 + Real.tanh (-1 * o.d s i j k / (2 * o.width)))
    else if o.d s i j k < 0 then 1 else 0
  else 0

/-- The cell gets the composition of the sphere, utils/make_multi_spheres.py:223-238. -/
def Grid.Filled (o : Grid) (s : Sphere) (i j k : ℕ) : Prop := o.Near s j k ∧ o.d s i j k < 0

/-- `nspecies`, utils/make_multi_spheres.py:114. -/
noncomputable def species (concA : List ℝ) : ℕ := concA.dedup.length

/-- `cs`, utils/make_multi_spheres.py:214-217; `none` is the NameError for the missing `concB`. -/
def concOf (concA : List ℝ) (concB : Option (List ℝ)) (s : Sphere) : Option (List ℝ) := if s.phase = "A" then some concA else concB

open Classical in
/-- `conc[sp,k,j,i]`, utils/make_multi_spheres.py:201-238; `none` when an exception is raised on the way. -/
noncomputable def Grid.conc (o : Grid) (concL concA : List ℝ) (concB : Option (List ℝ)) (spheres : List Sphere) (sp i j k : ℕ) : Option ℝ :=
  spheres.foldl (fun acc s => acc.bind fun c => (concOf concA concB s).bind fun cs => if o.Filled s i j k then cs[sp]? else some c)
    (concL[sp]?)

end AMPE.MultiSpheres
