import Mathlib.Analysis.SpecialFunctions.Trigonometric.Basic
import Mathlib.Analysis.SpecialFunctions.Trigonometric.DerivHyp
import Mathlib.Analysis.SpecialFunctions.Sqrt
import Mathlib.Algebra.BigOperators.Group.Finset.Basic
import Mathlib.Data.Fin.VecNotation

/-!
# Generator of layers (utils/make_bilayer.py)

The script writes the file with the initial phase, orientation, composition and temperature of one or two flat layers of solid.  Numbers
are real numbers (the script stores single precision).  One species (every line about composition treats the entries of the lists
separately).  An exception is `none`.  Not modelled: the checks that options are given together, printing, and the rotations of
`--symmetry-test` and `--random-symmetry`.
-/

namespace AMPE.Bilayer

/-- The axis across the layers, `direction`, utils/make_bilayer.py:156-170. -/
inductive Axis where
  | x
  | y
  | z
  deriving DecidableEq

/-- `options.orient`, utils/make_bilayer.py:158-170: `none` stops the script. -/
def axis (orient : Option Char) : Option Axis :=
  match orient with
  | .none => some .x
  | .some c => if c = 'x' then some .x else if c = 'y' then some .y else if c = 'z' then some .z else none

/-- The options, utils/make_bilayer.py:31-97, after the axis has been found. -/
structure Opts where
  two : Bool
  ratio : ℝ
  nx : ℕ
  ny : ℕ
  nz : ℕ
  radius : Option ℤ
  delta : ℤ
  phaseIn : ℝ
  phaseOut : ℝ
  dir : Axis
  centerx : Option ℝ
  centery : Option ℝ
  centerz : Option ℝ
  nomconc : Option ℝ
  concIn : Option ℝ
  concOut : Option ℝ

variable (o : Opts)

/-- `width`, utils/make_bilayer.py:156-167. -/
def Opts.width : ℕ :=
  match o.dir with
  | .x => o.nx
  | .y => o.ny
  | .z => o.nz

/-- Number of cells of a plane parallel to the layers, utils/make_bilayer.py:493-498. -/
def Opts.area : ℕ :=
  match o.dir with
  | .x => o.ny * o.nz
  | .y => o.nx * o.nz
  | .z => o.ny * o.nx

/-- `centerx`, `centery`, `centerz`, utils/make_bilayer.py:136-149, along the axis. -/
noncomputable def Opts.center : ℝ :=
  match o.dir with
  | .x => o.centerx.getD (o.nx / 2)
  | .y => o.centery.getD (o.ny / 2)
  | .z => o.centerz.getD (o.nz / 2)

/-- `radius`, utils/make_bilayer.py:172-179. -/
noncomputable def Opts.rad : ℝ :=
  match o.radius with
  | some r => r
  | none => if o.two then (o.width : ℝ) / 8 else (o.width : ℝ) / 4

/-- `radius_two`, utils/make_bilayer.py:193-196. -/
noncomputable def Opts.radTwo : ℝ := if o.two then o.rad * o.ratio else 0

/-- `cx_one`, `cy_one`, `cz_one`, utils/make_bilayer.py:440-446: the third is not changed for two layers. -/
noncomputable def Opts.centerOne : ℝ :=
  if o.two then
    match o.dir with
    | .x => o.center / 2
    | .y => o.center / 2
    | .z => o.center
  else o.center

/-- `cx_two`, `cy_two`, `cz_two`, utils/make_bilayer.py:447-449. -/
noncomputable def Opts.centerTwo : ℝ :=
  match o.dir with
  | .x => 3 * o.center / 2
  | .y => 3 * o.center / 2
  | .z => o.center

/-- `d1`, utils/make_bilayer.py:538-550, for the cell of index `m` along the axis. -/
noncomputable def Opts.d1 (m : ℕ) : ℝ := Real.sqrt (((m : ℝ) + 1 / 2 - o.centerOne) ^ 2) - o.rad

/-- `d2`, utils/make_bilayer.py:578-585. -/
noncomputable def Opts.d2 (m : ℕ) : ℝ := Real.sqrt (((m : ℝ) + 1 / 2 - o.centerTwo) ^ 2) - o.radTwo

/-- `phi`, utils/make_bilayer.py:551-557, 587-593, with `invdelta` of lines 527-528. -/
noncomputable def phi (delta : ℤ) (d : ℝ) : ℝ :=
  if 0 < delta then 0.5 * (1 + Real.tanh (-0.5 * d * (1 / delta))) else if 0 < d then 0 else 1

/-- A field that is `inn` inside and `out` outside, utils/make_bilayer.py:566-571 for the first layer and 595-598 for the second, which
replaces the value where `d2 < delta`. -/
noncomputable def Opts.mix (inn out : ℝ) (m : ℕ) : ℝ :=
  let first := phi o.delta (o.d1 m) * inn + (1 - phi o.delta (o.d1 m)) * out
  if o.two then
    if o.d2 m < o.delta then phi o.delta (o.d2 m) * inn + (1 - phi o.delta (o.d2 m)) * out else first
  else first

/-- The phase, utils/make_bilayer.py:567, 596. -/
noncomputable def Opts.phase (m : ℕ) : ℝ := o.mix o.phaseIn o.phaseOut m

/-! ## Composition -/

/-- `vol`, utils/make_bilayer.py:492. -/
noncomputable def Opts.vol : ℝ := (o.nx : ℝ) * o.ny * o.nz

/-- `vs`, utils/make_bilayer.py:493-503. -/
noncomputable def Opts.vs : ℝ :=
  let vs := 2 * o.rad * o.area
  let vs := if o.two then 2 * vs else vs
  min vs o.vol

/-- `vl`, utils/make_bilayer.py:504. -/
noncomputable def Opts.vl : ℝ := o.vol - o.vs

/-- `ci[0]`, `co[0]` used in the loop, utils/make_bilayer.py:382-398, 510-521: `some none` without species, `none` when
`conc_outside*vl`, a product of a string, is subtracted from a number (line 517).  The assignments of lines 519-521 change only
variables that are not read again. -/
noncomputable def Opts.compositions : Option (Option (ℝ × ℝ)) :=
  if o.nomconc = none ∧ o.concIn = none then some none
  else
    let ci := o.concIn.getD 0
    let co := o.concOut.getD 0
    let co := match o.concIn, o.nomconc with
      | some ci, some c => if 0 < o.vl then (c * o.vol - ci * o.vs) / o.vl else co
      | _, _ => co
    if o.concOut.isSome ∧ o.nomconc.isSome ∧ 0 < o.vs then none else some (some (ci, co))

/-- The composition in a cell, utils/make_bilayer.py:569-571, 597-598. -/
noncomputable def Opts.conc (m : ℕ) : Option (Option ℝ) := (o.compositions).map fun p => p.map fun q => o.mix q.1 q.2 m

/-- The index across the layers of a cell. -/
def Opts.across (i j k : ℕ) : ℕ :=
  match o.dir with
  | .x => i
  | .y => j
  | .z => k

/-! ## Orientation -/

/-- The orientations of the three regions. -/
structure Orient (n : ℕ) where
  inside : Fin n → ℝ
  insideTwo : Fin n → ℝ
  outside : Fin n → ℝ

/-- `specify quaternions using angles`, utils/make_bilayer.py:340-379, four components, angle in radians.  `makeNormalizedQuat` divides
by the length (utils/quat.py:26-29), which is one here. -/
noncomputable def simple4 (two : Bool) (angle : ℝ) : Orient 4 :=
  let q0 := Real.cos (angle / 2)
  let q1 := Real.sqrt (1 - q0 * q0)
  let o : Fin 4 → ℝ := ![q0, q1, 0, 0]
  if two then
    let p0 := Real.cos (angle / 4)
    let p1 := Real.sqrt (1 - p0 * p0)
    ⟨![1, 0, 0, 0], o, ![p0, p1, 0, 0]⟩
  else ⟨![1, 0, 0, 0], ![0, 0, 0, 0], o⟩

/-- The same for two components. -/
noncomputable def simple2 (two : Bool) (angle : ℝ) : Orient 2 :=
  let q0 := Real.cos angle
  let q1 := Real.sqrt (1 - q0 * q0)
  let o : Fin 2 → ℝ := ![q0, q1]
  if two then
    let p0 := Real.cos (angle / 4)
    let p1 := Real.sqrt (1 - p0 * p0)
    ⟨![1, 0], o, ![p0, p1]⟩
  else ⟨![1, 0], ![0, 0], o⟩

/-- The orientation in a cell, utils/make_bilayer.py:572-575, 600-614. -/
noncomputable def Opts.quat {n : ℕ} (q : Orient n) (m : ℕ) : Fin n → ℝ :=
  if o.two then
    let d1 := o.d1 m
    let d2 := o.d2 m
    if 0 < d2 ∧ 0 < d1 ∧ 0 < o.delta then
      let f := d1 / (d1 + d2)
      let pf := f * f * f * (10 - 15 * f + 6 * f * f)
      fun a => pf * q.insideTwo a + (1 - pf) * q.inside a
    else if Real.sqrt (((m : ℝ) + 1 / 2 - o.centerTwo) ^ 2) < Real.sqrt (((m : ℝ) + 1 / 2 - o.centerOne) ^ 2) then q.insideTwo
    else q.inside
  else q.inside

/-! ## Temperature -/

/-- `temperature[k,j,i]` in a cell of index `i` along x, utils/make_bilayer.py:559-564, with `distance_one`. -/
noncomputable def temperature (nx : ℕ) (t0 : ℝ) (gradxT gaussT : Option ℝ) (i : ℕ) (distance : ℝ) : ℝ :=
  let t := t0
  let t := match gradxT with
    | some g => t + g * (i - 0.5 * nx + 0.5)
    | none => t
  match gaussT with
  | some g => t + g * Real.exp (-distance / (0.0625 * nx * nx))
  | none => t

end AMPE.Bilayer
