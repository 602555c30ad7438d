import Verif.Model.PyQuat

/-!
# Generator of one, two or random spheres (utils/make_sphere.py)

Python 3.  Numbers are real numbers.  The random numbers are arguments.  Not modelled: printing, the rotations by symmetry operations
(`--symmetry-test`, `--random-symmetry`), reading of the texts of the options (a text of four or two numbers for `--quat-in` etc.).
-/

namespace AMPE.Sphere

open AMPE.Quat AMPE.PyQuat

/-- The options, utils/make_sphere.py:32-86.  For the texts of orientations only their presence matters. -/
structure Opts where
  one : Bool := false
  two : Bool := false
  random : Option ℕ := none
  ratio : ℝ := 3 / 2
  ncells : Option ℕ := none
  nx : Option ℕ := none
  ny : Option ℕ := none
  nz : Option ℕ := none
  cx : Option ℤ := none
  cy : Option ℤ := none
  cz : Option ℤ := none
  radius : Option ℤ := none
  angle : Option ℝ := none
  phaseIn : ℝ := 1
  phaseOut : ℝ := 0
  qlen : ℤ := 4
  quatIn : Bool := false
  quatInTwo : Bool := false
  quatOut : Bool := false
  angleIn : Option ℝ := none
  angleInTwo : Option ℝ := none
  angleOut : Option ℝ := none
  concIn : ℝ := 0.1
  concOut : ℝ := 0.06

/-- The kinds of `n_spheres`. -/
inductive Kind
  | one
  | two
  | random (n : ℕ)

/-- The arrays of the file. -/
structure Data where
  phase : ℕ → ℕ → ℕ → ℝ
  /-- `none`: not a number -/
  quat : ℕ → ℕ → ℕ → Option (List ℝ)
  conc : ℕ → ℕ → ℕ → ℝ

/-- End of the script: exit before the file is opened, an exception (with the file already emptied or not), or the file. -/
inductive Result
  | exits
  | raises (opened : Bool)
  | file (d : Data)

/-- A sphere with its orientation. -/
structure Ball where
  cx : ℝ
  cy : ℝ
  cz : ℝ
  r : ℝ
  orient : List ℝ

/-- `n_spheres`, utils/make_sphere.py:100-114; `none` is the exit. -/
def Opts.kind (o : Opts) : Option Kind :=
  if o.two then (if o.one then none else if o.random.isSome then none else some .two)
  else match o.random with
    | some n => if o.one then none else some (.random n)
    | none => some .one

/-- Number of cells of an axis, utils/make_sphere.py:116-126; `none` is the exit (also for zero). -/
def size (ncells n : Option ℕ) : Option ℕ :=
  match n.orElse fun _ => ncells with
  | some (m + 1) => some (m + 1)
  | _ => none

/-- `radius`, utils/make_sphere.py:132-139. -/
noncomputable def Opts.rad (o : Opts) (nx : ℕ) (k : Kind) : ℝ :=
  match o.radius with
  | some r => r
  | none => match k with
    | .one => nx / 4
    | _ => nx / 8

/-- Coordinate of the centre of the one sphere, utils/make_sphere.py:144-155. -/
noncomputable def centre (c : Option ℤ) (n : ℕ) : ℝ := match c with
  | some c => c
  | none => n / 2

/-- The tests of the texts of orientations, utils/make_sphere.py:179-249: for `qlen` 1 the script exits; else `q[0]` is applied to a `map`
object, or `string.split` is not there.  `none`: the script goes on. -/
def Opts.quats (o : Opts) : Option Result :=
  if o.quatIn || o.quatInTwo || o.quatOut then (if o.qlen = 4 ∨ o.qlen = 2 then some (.raises false) else some .exits) else none

/-- The tests of the angles, utils/make_sphere.py:254-312; `true`: exit. -/
def Opts.badAngles (o : Opts) (k : Kind) : Bool :=
  if o.angleIn.isSome || o.angleInTwo.isSome || o.angleOut.isSome then
    o.qlen != 1 || match k with
      | .one => o.angleInTwo.isSome || !o.angleIn.isSome || !o.angleOut.isSome
      | .two => !(o.angleIn.isSome && o.angleInTwo.isSome && o.angleOut.isSome)
      | .random _ => false
  else false

/-- `use_simple_rotation`. -/
def Opts.simple (o : Opts) : Bool := !(o.angleIn.isSome || o.angleInTwo.isSome || o.angleOut.isSome)

/-- `angle`, utils/make_sphere.py:314, 323-325. -/
noncomputable def Opts.ang (o : Opts) : ℝ := o.angle.getD 44

/-- The components of an orientation. -/
def list4 (q : Q4) : List ℝ := [q.q1, q.q2, q.q3, q.q4]
@[inherit_doc list4]
def list2 (q : Q2) : List ℝ := [q.q1, q.q2]

/-- `q0`, utils/make_sphere.py:330. -/
noncomputable def q0 (a : ℝ) : ℝ := Real.cos ((Real.pi / 180) * (a / 2))
/-- `q1`, utils/make_sphere.py:331. -/
noncomputable def q1 (a : ℝ) : ℝ := Real.sqrt (1 - q0 a * q0 a)

/-- Orientation inside for `qlen` 4 and 2, utils/make_sphere.py:333, 335. -/
noncomputable def in4 (a : ℝ) : Q4 := normalize4 ⟨q0 a, q1 a, 0, 0⟩
@[inherit_doc in4]
noncomputable def in2 (a : ℝ) : Q2 := normalize2 ⟨q0 a, q1 a⟩
/-- Orientation outside, utils/make_sphere.py:319, 321. -/
noncomputable def out4 : Q4 := normalize4 ⟨1, 0, 0, 0⟩
@[inherit_doc out4]
noncomputable def out2 : Q2 := normalize2 ⟨1, 0⟩

/-- Orientation inside of the (first) sphere, utils/make_sphere.py:261, 327-335. -/
noncomputable def Opts.orientIn (o : Opts) : List ℝ :=
  if o.simple then
    if o.qlen = 1 then [o.ang * Real.pi / 180] else if o.qlen = 4 then list4 (in4 o.ang) else list2 (in2 o.ang)
  else [o.angleIn.getD 0 * Real.pi / 180]

/-- Orientation outside, utils/make_sphere.py:301, 316-321; `None` (with random spheres and only some of the angles) is stored as not a
number. -/
noncomputable def Opts.orientOut (o : Opts) : Option (List ℝ) :=
  if o.simple then some (if o.qlen = 1 then [0] else if o.qlen = 4 then list4 out4 else list2 out2)
  else o.angleOut.map fun a => [a * Real.pi / 180]

/-- `round` of Python: half to even. -/
noncomputable def pyRound (x : ℝ) : ℤ :=
  if x - ⌊x⌋ < 1 / 2 then ⌊x⌋ else if 1 / 2 < x - ⌊x⌋ then ⌊x⌋ + 1 else if Even ⌊x⌋ then ⌊x⌋ else ⌊x⌋ + 1

/-- The random numbers of one sphere: radius, centre, angle. -/
structure Draw where
  r : ℝ
  x : ℝ
  y : ℝ
  z : ℝ
  a : ℝ

/-- `max_radius`, utils/make_sphere.py:357-361. -/
noncomputable def maxRadius (nx ny nz : ℕ) : ℝ :=
  if nz < 12 then min ((nx : ℝ) / 6) (ny / 6) else min (min ((nx : ℝ) / 6) (ny / 6)) (nz / 6)

/-- Radius of a random sphere, utils/make_sphere.py:365. -/
noncomputable def randomRadius (nx ny nz : ℕ) (u : ℝ) : ℤ := 2 + pyRound ((maxRadius nx ny nz - 2) * u)

/-- Coordinate of the centre of a random sphere, utils/make_sphere.py:368-371. -/
noncomputable def randomCentre (n : ℕ) (r : ℤ) (u : ℝ) : ℤ := r + pyRound (((n : ℝ) - 2 * r) * u)

/-- A random sphere, utils/make_sphere.py:364-382; `none` is the exception for `qlen` 4. -/
noncomputable def randomBall (nx ny nz : ℕ) (qlen : ℤ) (d : Draw) : Option Ball :=
  let r := randomRadius nx ny nz d.r
  let a := Real.pi - 2 * Real.pi * d.a
  let z : ℝ := if nz < 12 then nz / 2 else randomCentre nz r d.z
  if qlen = 1 then some ⟨randomCentre nx r d.x, randomCentre ny r d.y, z, r, [a]⟩
  else if qlen = 2 then
    some ⟨randomCentre nx r d.x, randomCentre ny r d.y, z, r,
      list2 (normalize2 ⟨Real.sin a, Real.sqrt (1 - Real.sin a * Real.sin a)⟩)⟩
  else none

/-- The loop over the random spheres. -/
noncomputable def randomBalls (nx ny nz : ℕ) (qlen : ℤ) (draw : ℕ → Draw) (n : ℕ) : Option (List Ball) :=
  (List.range n).mapM fun i => randomBall nx ny nz qlen (draw i)

/-- The cell lies in the sphere, utils/make_sphere.py:482-489. -/
def Ball.Has (b : Ball) (i j k : ℕ) : Prop :=
  ((i : ℝ) + 0.5 - b.cx) ^ 2 + ((j : ℝ) + 0.5 - b.cy) ^ 2 + ((k : ℝ) + 0.5 - b.cz) ^ 2 < b.r * b.r

open Classical in
/-- Filling of the arrays, utils/make_sphere.py:464-498. -/
noncomputable def fill (o : Opts) (balls : List Ball) : Data where
  phase i j k := balls.foldl (fun p b => if b.Has i j k then o.phaseIn else p) o.phaseOut
  quat i j k := balls.foldl (fun p b => if b.Has i j k then some b.orient else p) o.orientOut
  conc i j k := balls.foldl (fun p b => if b.Has i j k then o.concIn else p) o.concOut

/-- The script after the tests of the options, utils/make_sphere.py:314-540.  For two spheres `cx` is replaced by a number (line 410) before
`cx[n]` (lines 475, 477) is used: an exception, after the file has been opened. -/
noncomputable def finish (o : Opts) (draw : ℕ → Draw) (nx ny nz : ℕ) : Kind → Result
  | .one => .file (fill o [⟨centre o.cx nx, centre o.cy ny, centre o.cz nz, o.rad nx .one, o.orientIn⟩])
  | .two => .raises true
  | .random n => match randomBalls nx ny nz o.qlen draw n with
    | none => .raises false
    | some l => .file (fill o l)

/-- The script, utils/make_sphere.py:94-540. -/
noncomputable def run (o : Opts) (draw : ℕ → Draw) : Result :=
  if ¬ (o.qlen = 4 ∨ o.qlen = 2 ∨ o.qlen = 1) then .exits else
  match o.kind with
  | none => .exits
  | some k =>
    match size o.ncells o.nx, size o.ncells o.ny, size o.ncells o.nz with
    | some nx, some ny, some nz =>
      match o.quats with
      | some r => r
      | none =>
        if o.badAngles k then .exits else
        finish o draw nx ny nz k
    | _, _, _ => .exits

end AMPE.Sphere
