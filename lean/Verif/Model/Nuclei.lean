import Mathlib.Analysis.SpecialFunctions.Trigonometric.Basic
import Mathlib.Analysis.SpecialFunctions.Sqrt
import Mathlib.Algebra.BigOperators.Group.Finset.Basic
import Mathlib.Data.List.Dedup
import Mathlib.Algebra.Order.Floor.Defs
import Mathlib.Data.Real.Archimedean

/-!
# Generator of initial conditions (utils/make_nuclei.py)

The script writes the file with the initial phase, orientation and composition of a number of nuclei.  Numbers are real numbers (the
script computes in double precision and stores single precision by default); lists are functions of the index with a length.  Not
modelled: the fields `eta` and `temperature`, printing, the random choice of the centres before they are moved.
-/

namespace AMPE.Nuclei

/-- A position in units of cells. -/
structure Pt where
  x : ℝ
  y : ℝ
  z : ℝ

/-- Comparison of an entry of `options.periodic.split(',')`, a string, with the integer 1, utils/make_nuclei.py:138, 235-248: Python
compares values of different types as different. -/
def strEqInt (_s : String) (_n : ℤ) : Bool := false

/-- `rangex`, `rangey`, `rangez`, utils/make_nuclei.py:235-248. -/
def images (entry : String) : List ℤ := if strEqInt entry 1 then [-1, 0, 1] else [0]

/-- `distance2`, utils/make_nuclei.py:250-263: three nested loops, the two outer ones skipping images that are too far already. -/
noncomputable def distance2 (rx ry rz : List ℤ) (nx ny nz : ℝ) (p q : Pt) : ℝ :=
  rx.foldl (fun d2 (ir : ℤ) =>
    let dx2 := (p.x - q.x + ir * nx) ^ 2
    if dx2 ≤ d2 then
      ry.foldl (fun d2 (jr : ℤ) =>
        let dy2 := (p.y - q.y + jr * ny) ^ 2
        if dy2 ≤ d2 then
          rz.foldl (fun d2 (kr : ℤ) =>
            let dz2 := (p.z - q.z + kr * nz) ^ 2
            let l2 := dx2 + dy2 + dz2
            if l2 < d2 then l2 else d2) d2
        else d2) d2
    else d2) ((p.x - q.x) ^ 2 + (p.y - q.y) ^ 2 + (p.z - q.z) ^ 2)

/-- `distance2_1d_x`, `_y`, `_z`, utils/make_nuclei.py:266-288. -/
noncomputable def distance1 (r : List ℤ) (n x1 x2 : ℝ) : ℝ :=
  r.foldl (fun d2 (ir : ℤ) => let l2 := (x1 - x2 + ir * n) ^ 2; if l2 < d2 then l2 else d2) ((x1 - x2) ^ 2)

/-! ## Moving nuclei apart -/

/-- Closest image found so far: distance and vector, utils/make_nuclei.py:378-381. -/
structure Closest where
  dr : ℝ
  dx : ℝ
  dy : ℝ
  dz : ℝ

/-- Search for the closest image of `q` seen from `p`, utils/make_nuclei.py:355, 378-396. -/
noncomputable def closest (nx ny nz : ℝ) (p q : Pt) : Closest :=
  let fac : List ℝ := [0, -1, 1]
  fac.foldl (fun b fi =>
    let dx := q.x - p.x + fi * nx
    if dx < b.dr then
      fac.foldl (fun b fj =>
        let dy := q.y - p.y + fj * ny
        if dy < b.dr then
          fac.foldl (fun b fk =>
            let dz := q.z - p.z + fk * nz
            let dr := Real.sqrt (dx * dx + dy * dy + dz * dz)
            if dr < b.dr then ⟨dr, dx, dy, dz⟩ else b) b
        else b) b
    else b) ⟨1000, nx, ny, nz⟩

/-- Force of the first on the second of two nuclei, utils/make_nuclei.py:398-409; `rnd` are the three random numbers. -/
noncomputable def push (drmin : ℝ) (b : Closest) (rnd : Pt) : Pt :=
  if b.dr < drmin then
    let factor := 0.5
    if b.dr > 0.000001 then
      let af := factor * (drmin - b.dr + 0.0001)
      let invdr0 := 1 / b.dr
      ⟨af * b.dx * invdr0, af * b.dy * invdr0, af * b.dz * invdr0⟩
    else ⟨factor * drmin * rnd.x, factor * drmin * rnd.y, factor * drmin * rnd.z⟩
  else ⟨0, 0, 0⟩

/-- One pass of the loop, utils/make_nuclei.py:362-426: all forces, then all moves. -/
noncomputable def move (n : ℕ) (nx ny nz drmin : ℝ) (rnd : ℕ → ℕ → Pt) (c : ℕ → Pt) (k : ℕ) : Pt :=
  let F := fun i j => push drmin (closest nx ny nz (c i) (c j)) (rnd i j)
  let fx := ∑ j ∈ Finset.range n, (if k < j then -(F k j).x else if j < k then (F j k).x else 0)
  let fy := ∑ j ∈ Finset.range n, (if k < j then -(F k j).y else if j < k then (F j k).y else 0)
  let fz := ∑ j ∈ Finset.range n, (if k < j then -(F k j).z else if j < k then (F j k).z else 0)
  ⟨(c k).x + fx, (c k).y + fy, (c k).z + fz⟩

/-- `npairs` of a pass, utils/make_nuclei.py:361-417. -/
noncomputable def pairs (n : ℕ) (nx ny nz drmin : ℝ) (c : ℕ → Pt) : ℕ :=
  ∑ i ∈ Finset.range n, ∑ j ∈ Finset.range n, if i < j ∧ (closest nx ny nz (c i) (c j)).dr < drmin then 1 else 0

/-- `imposeMinDistance`, utils/make_nuclei.py:351-433, at most `fuel` passes; `none`: still running. -/
noncomputable def imposeMinDistance (n : ℕ) (nx ny nz drmin : ℝ) (rnd : ℕ → ℕ → ℕ → Pt) : ℕ → (ℕ → Pt) → Option (ℕ → Pt)
  | 0, _ => none
  | fuel + 1, c =>
    let c' := move n nx ny nz drmin (rnd fuel) c
    if pairs n nx ny nz drmin c > 0 then imposeMinDistance n nx ny nz drmin rnd fuel c' else some c'

/-! ## Filling the fields -/

/-- What the filling loops read. -/
structure Job where
  nx : ℕ
  ny : ℕ
  nz : ℕ
  n : ℕ
  centre : ℕ → Pt
  r : ℕ → ℝ
  width : ℝ
  phaseIn : ℝ
  phaseOut : ℝ
  periodic : String × String × String

/-- Images used for the distances of a job. -/
noncomputable def Job.dist (J : Job) (p q : Pt) : ℝ :=
  distance2 (images J.periodic.1) (images J.periodic.2.1) (images J.periodic.2.2) J.nx J.ny J.nz p q

/-- Centre of a cell, utils/make_nuclei.py:634, 638, 642. -/
noncomputable def mid (c : ℕ × ℕ × ℕ) : Pt := ⟨c.1 + 0.5, c.2.1 + 0.5, c.2.2 + 0.5⟩

/-- Value given to a cell by nucleus `g`, utils/make_nuclei.py:629-660 (`none`: the cell is left alone).  `N.tanh` is
`(e^x - e^-x)/(e^x + e^-x)`. -/
noncomputable def paint (J : Job) (g : ℕ) (c : ℕ × ℕ × ℕ) : Option ℝ :=
  let r_sq := (J.r g) ^ 2
  let threshold := (J.r g + 5 * J.width) ^ 2
  if distance1 (images J.periodic.2.2) J.nz (mid c).z (J.centre g).z < threshold then
    if distance1 (images J.periodic.2.1) J.ny (mid c).y (J.centre g).y < threshold then
      let d := Real.sqrt (J.dist (mid c) (J.centre g)) - Real.sqrt r_sq
      if J.width > 0 then
        if d < 8 * J.width then some (J.phaseIn * 0.5 * (1 + Real.tanh (-1 * d / (2 * J.width)))) else none
      else if d < 0 then some J.phaseIn else none
    else none
  else none

/-- The field `phase`, utils/make_nuclei.py:609-613, 629-660: nuclei in turn, later ones overwriting earlier ones. -/
noncomputable def phase (J : Job) (c : ℕ × ℕ × ℕ) : ℝ := (List.range J.n).foldl (fun old g => (paint J g c).getD old) J.phaseOut

/-- The cells. -/
def cells (J : Job) : Finset (ℕ × ℕ × ℕ) := Finset.range J.nx ×ˢ Finset.range J.ny ×ˢ Finset.range J.nz

/-- `vol`, utils/make_nuclei.py:624. -/
noncomputable def vol (J : Job) : ℝ := J.nx * J.ny * J.nz

/-- `vs`, utils/make_nuclei.py:625, 652, 658: the value is added whenever a nucleus sets a cell. -/
noncomputable def vs (J : Job) : ℝ := ∑ g ∈ Finset.range J.n, ∑ c ∈ cells J, (paint J g c).getD 0

/-- `vl`, utils/make_nuclei.py:662. -/
noncomputable def vl (J : Job) : ℝ := vol J - vs J

/-! ## Composition -/

/-- Compositions on the command line: nominal, inside, outside, utils/make_nuclei.py:124-128. -/
structure Comps where
  nominal : Option (List ℝ)
  inside : Option (List ℝ)
  outside : Option (List ℝ)

open Classical in
/-- Number of species and the lists `ci`, `co`, utils/make_nuclei.py:126-128, 141-160.  `none`: `None.split` raises an exception. -/
noncomputable def readComps (o : Comps) : Option (ℕ × List ℝ × List ℝ) :=
  let n0 := match o.nominal with
    | some c => c.dedup.length
    | none => 0
  let insideGiven := o.inside.isSome || o.nominal.isSome
  let r1 : Option (ℕ × List ℝ) :=
    if insideGiven then
      match o.inside with
      | some ci => some (if n0 = 0 then ci.length else n0, ci)
      | none => none
    else some (n0, List.replicate n0 0)
  r1.map fun r => (r.1, r.2, match o.outside with
    | some co => co
    | none => List.replicate r.1 0)

/-- `co` after utils/make_nuclei.py:716-729.  `none`: index out of range, or a string times a number (line 723). -/
noncomputable def outsideComp (o : Comps) (n : ℕ) (ci co : List ℝ) (vol vs vl : ℝ) : Option (List ℝ) :=
  let co1 : Option (List ℝ) :=
    match o.nominal with
    | some c =>
      if vl > 0 then
        if n ≤ c.length ∧ n ≤ ci.length ∧ n ≤ co.length then
          some ((List.range n).map (fun s => (c.getD s 0 * vol - ci.getD s 0 * vs) / vl) ++ co.drop n)
        else none
      else some co
    | none => some co
  match o.outside, o.nominal with
  | some _, some _ => if vs > 0 then none else co1
  | _, _ => co1

/-- The fields `concentration`, utils/make_nuclei.py:716-740: for each species a function of the cell; `none`: the script fails. -/
noncomputable def composition (J : Job) (o : Comps) : Option (List (ℕ × ℕ × ℕ → ℝ)) :=
  match readComps o with
  | none => none
  | some (n, ci, co) =>
    if n = 0 then some []
    else match outsideComp o n ci co (vol J) (vs J) (vl J) with
      | none => none
      | some co => if n ≤ ci.length ∧ n ≤ co.length then
          some ((List.range n).map fun s => fun c => ci.getD s 0 * phase J c + co.getD s 0 * (1 - phase J c))
        else none

/-! ## Orientation -/

/-- Inner loop over the nuclei, utils/make_nuclei.py:694-700. -/
noncomputable def search (dist : ℕ → ℝ) (halfmind2 : ℝ) : List ℕ → ℝ → ℕ → ℕ
  | [], _, gmin => gmin
  | g :: l, d2min, gmin =>
    if dist g < d2min then
      if dist g < halfmind2 then g else search dist halfmind2 l (dist g) g
    else search dist halfmind2 l d2min gmin

/-- Nucleus of a cell from that of the cell before, utils/make_nuclei.py:541-542, 684, 693-701. -/
noncomputable def owner (n : ℕ) (radius : ℝ) (dist : ℕ → ℝ) (gmin : ℕ) : ℕ :=
  let mind := 4 * radius
  let halfmind2 := 0.25 * mind * mind
  let d2min := dist gmin
  if d2min > halfmind2 then search dist halfmind2 (List.range n) d2min gmin else gmin

/-- Nuclei of the cells in the order of the loops, utils/make_nuclei.py:674-701, without `--quat-out`. -/
noncomputable def owners (n : ℕ) (radius : ℝ) (dist : (ℕ × ℕ × ℕ) → ℕ → ℝ) : List (ℕ × ℕ × ℕ) → ℕ → List ((ℕ × ℕ × ℕ) × ℕ)
  | [], _ => []
  | c :: l, gmin =>
    let g := owner n radius (dist c) gmin
    (c, g) :: owners n radius dist l g

/-- The same with `--quat-out`, utils/make_nuclei.py:684-691: `some g` is `quat_inside[g]`, `none` the outside orientation. -/
noncomputable def ownersOut (radius : ℝ) (dist : (ℕ × ℕ × ℕ) → ℕ → ℝ) (cs : List (ℕ × ℕ × ℕ)) : List ((ℕ × ℕ × ℕ) × Option ℕ) :=
  let gmin := 0
  cs.map fun c => (c, if dist c gmin < radius * radius then some gmin else none)

/-- `getQuatRandom`, utils/quat.py:522-551, four components; `u1 u2 u3` are the random numbers. -/
noncomputable def quatRandom (u1 u2 u3 : ℝ) : ℝ × ℝ × ℝ × ℝ :=
  let h1 := 0.1
  let h2 := 0.5 * h1
  let h3 := h2
  let u1 := ⌊u1 / h1⌋ * h1
  let u2 := ⌊u2 / h2⌋ * h2
  let u3 := ⌊u3 / h3⌋ * h3
  (Real.sqrt (1 - u1) * Real.sin (2 * Real.pi * u2), Real.sqrt (1 - u1) * Real.cos (2 * Real.pi * u2),
    Real.sqrt u1 * Real.sin (2 * Real.pi * u3), Real.sqrt u1 * Real.cos (2 * Real.pi * u3))

/-- Orientation angle of a grain with `qlen = 1`, utils/make_nuclei.py:168, 184-199: `q0` is set before `t` is reduced. -/
noncomputable def angle (sym : Bool) (t0 : ℝ) : ℝ :=
  let h := 2 * Real.pi / 20
  let t := ⌊t0 / h⌋ * h
  let q0 := t
  let t := if sym then (let t := if t < 0 then t + Real.pi else t; if t > 0.5 * Real.pi then t - 0.5 * Real.pi else t) else t
  let _ := t
  q0

end AMPE.Nuclei
