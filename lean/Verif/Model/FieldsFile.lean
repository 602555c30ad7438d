import Mathlib.Algebra.Order.Archimedean.Real.Basic
import Mathlib.Algebra.BigOperators.Group.Finset.Basic

/-!
# Initial-conditions files: writing and reading

source/FieldsWriter.cc, source/FieldsInitializer.cc, source/QuatModel.cc:605-640, source/PFModel.cc:341-407,
with `HAVE_NETCDF4` and without the third phase `eta` (`with_third_phase` is never set).

Conventions.  `double` is `ℝ`; the conversion to the 4-byte type of the file and of the read buffer is a function
`fl : ℝ → ℝ` (properties are stated where needed).  A NetCDF file is a map from variable names to arrays; `putVar`
and `getVar` copy a hyperslab in row-major order (x fastest), and throw when it leaves the array.  The name
`o << base << i` is the pair (base, i).  A patch holds, for each field and component, an array in column-major order
(x fastest) without ghost cells (source/QuatModel.cc:1375, 1574, 1636, 1804).  Two dimensions: boxes with `z0 = 0`,
`nz = 1`.  The processes write one after the other (barrier at the end of each turn), so a write is the fold over
all patches.  A TBOX_ERROR, a NetCDF exception or a failed `assert` is `none`.
-/

namespace AMPE.FieldsFile

/-- The variable names of the file, without their number. -/
inductive Base | phase | temperature | quat | concentration
  deriving DecidableEq

/-- A variable name: base and optional number. -/
abbrev Name := Base × Option ℕ

/-- A component of a field: order parameter, temperature, orientation component, composition. -/
inductive Sel | phase (d : ℕ) | temp | quat (d : ℕ) | conc (d : ℕ)
  deriving DecidableEq

/-- A box of cells: lower corner and numbers of cells. -/
structure Box where
  x0 : ℤ
  y0 : ℤ
  z0 : ℤ
  nx : ℕ
  ny : ℕ
  nz : ℕ

/-- The cell `(x, y, z)` lies in the box. -/
def Box.has (b : Box) (x y z : ℤ) : Prop :=
  b.x0 ≤ x ∧ x < b.x0 + b.nx ∧ b.y0 ≤ y ∧ y < b.y0 + b.ny ∧ b.z0 ≤ z ∧ z < b.z0 + b.nz

/-- A variable of the file; `val z y x`. -/
structure Var where
  nz : ℕ
  ny : ℕ
  nx : ℕ
  isDouble : Bool
  val : ℕ → ℕ → ℕ → ℝ

/-- A file. -/
abbrev File := Name → Option Var

/-- `NC_FILL_FLOAT`. -/
noncomputable def fill : ℝ := 9.9692099683868690e+36

/-- The array after a hyperslab has been overwritten. -/
noncomputable def slab (fl : ℝ → ℝ) (sz sy sx cz cy cx : ℕ) (ptr : ℕ → ℝ) (val : ℕ → ℕ → ℕ → ℝ) (k j i : ℕ) : ℝ :=
  if (sz ≤ k ∧ k < sz + cz) ∧ (sy ≤ j ∧ j < sy + cy) ∧ (sx ≤ i ∧ i < sx + cx) then
    fl (ptr (((k - sz) * cy + (j - sy)) * cx + (i - sx)))
  else val k j i

/-- `NcVar::putVar(startp, countp, ptr)` into a float variable. -/
noncomputable def put (fl : ℝ → ℝ) (sz sy sx cz cy cx : ℕ) (ptr : ℕ → ℝ) (v : Var) : Option Var :=
  if sz + cz ≤ v.nz ∧ sy + cy ≤ v.ny ∧ sx + cx ≤ v.nx then
    some { v with val := slab fl sz sy sx cz cy cx ptr v.val }
  else none

/-- `NcVar::getVar(startp, countp, vals)`; `rd` the conversion to the element type of `vals`. -/
noncomputable def get (rd : ℝ → ℝ) (sz sy sx cz cy cx : ℕ) (v : Var) : Option (ℕ → ℝ) :=
  if sz + cz ≤ v.nz ∧ sy + cy ≤ v.ny ∧ sx + cx ≤ v.nx then
    some fun o => rd (v.val (sz + o / (cy * cx)) (sy + o / cx % cy) (sx + o % cx))
  else none

/-! ## Writing -/

/-- The settings both sides use. -/
structure Params where
  three : Bool
  norderp : ℕ
  norderpA : ℕ
  norderpB : ℕ
  /-- `d_qlen` with orientation, 0 without -/
  qlen : ℕ
  ncomp : ℕ

/-- Depth of the phase variable, source/QuatModelParameters.h:82 and source/QuatModel.cc:1570-1572. -/
def Params.depth (P : Params) : ℕ := if P.three then 3 else P.norderp

/-- source/QuatModelParameters.cc:818-829. -/
def defaultNorderpA (norderp : ℕ) : ℕ := if norderp = 1 then 1 else norderp - 1

/-- `d_norderp_B = d_norderp - d_norderp_A - 1`, at least 0; source/QuatModelParameters.cc:825-826. -/
def norderpBOf (norderp norderpA : ℕ) : ℕ := ((norderp : ℤ) - norderpA - 1).toNat

/-- The name given to composition `ii`, source/FieldsWriter.cc:195-202. -/
def concName (ncomp ii : ℕ) : Name := (Base.concentration, if ncomp > 1 then some ii else none)

/-- The variables and the data put into them, in the order of source/FieldsWriter.cc:400-467. -/
def vars (P : Params) : List (Name × Sel) :=
  (if P.three then [((Base.phase, some 0), Sel.phase 0), ((Base.phase, some 1), Sel.phase 1),
      ((Base.phase, some 2), Sel.phase 2)]
    else [((Base.phase, none), Sel.phase 0)])
  ++ [((Base.temperature, none), Sel.temp)]
  ++ (List.range P.qlen).map (fun ii => ((Base.quat, some (ii + 1)), Sel.quat ii))
  ++ (List.range P.ncomp).map (fun ii => (concName P.ncomp ii, Sel.conc ii))

/-- The file as created by process 0; source/FieldsWriter.cc:163-206. -/
noncomputable def create (P : Params) (nz ny nx : ℕ) : File := fun n =>
  if n ∈ (vars P).map Prod.fst then some ⟨nz, ny, nx, false, fun _ _ _ => fill⟩ else none

/-- A patch: its box and, for each component, the array `getPointer(depth)` points to. -/
structure Patch where
  box : Box
  mem : Sel → ℕ → ℝ

/-- One `putVar`: source/FieldsWriter.cc:386-399; a negative lower corner becomes a huge `size_t`. -/
noncomputable def putOne (fl : ℝ → ℝ) (b : Box) (f : File) (n : Name) (ptr : ℕ → ℝ) : Option File :=
  if 0 ≤ b.x0 ∧ 0 ≤ b.y0 ∧ 0 ≤ b.z0 then
    (f n).bind fun v =>
      (put fl b.z0.toNat b.y0.toNat b.x0.toNat b.nz b.ny b.nx ptr v).map fun v' => Function.update f n (some v')
  else none

/-- One patch: source/FieldsWriter.cc:354-468. -/
noncomputable def writePatch (fl : ℝ → ℝ) (P : Params) (f : File) (p : Patch) : Option File :=
  (vars P).foldlM (fun f ns => putOne fl p.box f ns.1 (p.mem ns.2)) f

/-- `writeInitialConditionsFile` on level 0: all patches of all processes in turn; source/FieldsWriter.cc:55-483. -/
noncomputable def writeFile (fl : ℝ → ℝ) (P : Params) (nz ny nx : ℕ) (patches : List Patch) : Option File :=
  patches.foldlM (writePatch fl P) (create P nz ny nx)

/-! ## Reading -/

/-- What the reader is told (source/QuatModel.cc:613-626): number of order parameters to read, whether the
temperature is read (constant type, no `init_t`), orientation and composition likewise. -/
structure Request where
  nread : ℕ
  depth : ℕ
  readT : Bool
  qlen : ℕ
  ncomp : ℕ
  /-- `NDIM == 2` -/
  flat : Bool
  slice : ℤ

/-- The request for the settings `P`, all fields read from the file: source/QuatModel.cc:615-622. -/
def request (P : Params) (readT flat : Bool) (slice : ℤ) : Request where
  nread := if P.three then 3 else P.norderpA + P.norderpB
  depth := P.depth
  readT := readT
  qlen := P.qlen
  ncomp := P.ncomp
  flat := flat
  slice := slice

/-- The name under which a component is looked up: `phase`, and only without it `phase<i>`
(source/FieldsInitializer.cc:143-158); `concentration`, and with one composition also `concentration0`
(source/FieldsInitializer.cc:289-303). -/
def lookupName (ncomp : ℕ) (f : File) : Sel → Name
  | Sel.phase i => if (f (Base.phase, none)).isSome then (Base.phase, none) else (Base.phase, some i)
  | Sel.temp => (Base.temperature, none)
  | Sel.quat ii => (Base.quat, some (ii + 1))
  | Sel.conc ii =>
      if (f (concName ncomp ii)).isNone ∧ ncomp = 1 then (Base.concentration, some 0) else concName ncomp ii

/-- The dimensions compared with the domain: those of the first phase variable (source/FieldsInitializer.cc:204-221). -/
def fileDims (f : File) : Option (ℕ × ℕ × ℕ) := (f (lookupName 0 f (Sel.phase 0))).map fun v => (v.nz, v.ny, v.nx)

/-- `islice`, source/FieldsInitializer.cc:224-232. -/
def islice (r : Request) (nzFile : ℕ) : ℕ := if r.flat then (if r.slice < 0 then nzFile / 2 else 0) else 0

/-- Conversion on reading: the buffer is `double` when the first phase variable is, `float` otherwise
(source/FieldsInitializer.cc:314-343). -/
noncomputable def conv (fl : ℝ → ℝ) (f : File) : ℝ → ℝ :=
  match f (lookupName 0 f (Sel.phase 0)) with
  | some v => if v.isDouble then id else fl
  | none => fl

/-- One component on one patch: `getVar`, then the loop over the cells with
`idx = nx*ny*iz + nx*iy + ix`; source/FieldsInitializer.cc:365-440. -/
noncomputable def readSel (fl : ℝ → ℝ) (r : Request) (isl : ℕ) (f : File) (b : Box) (s : Sel) :
    Option (ℤ → ℤ → ℤ → ℝ) :=
  (f (lookupName r.ncomp f s)).bind fun v =>
    if 0 ≤ b.x0 ∧ 0 ≤ b.y0 ∧ 0 ≤ b.z0 then
      let zl : ℕ := if r.flat then isl else b.z0.toNat
      (get (conv fl f) zl b.y0.toNat b.x0.toNat b.nz b.ny b.nx v).map fun vals => fun x y z =>
        vals (b.nx * b.ny * (z - b.z0).toNat + b.nx * (y - b.y0).toNat + (x - b.x0).toNat)
    else none

/-- The components read. -/
def requested (r : Request) : List Sel :=
  (List.range r.nread).map Sel.phase ++ (if r.readT then [Sel.temp] else [])
  ++ (List.range r.qlen).map Sel.quat ++ (List.range r.ncomp).map Sel.conc

open Classical in
/-- `initializePatchFromData` after the checks of `initializeLevelFromData`; `Nz, Ny, Nx` is the domain
(source/FieldsInitializer.cc:72-345, 350-640, 660-700).  The values are those of each component; the last order
parameter is `1 - sum` when it is not read; compositions outside `[0, 1]` fail an assertion. -/
noncomputable def readPatch (fl : ℝ → ℝ) (r : Request) (Nz Ny Nx : ℕ) (f : File) (b : Box) :
    Option (Sel → ℤ → ℤ → ℤ → ℝ) :=
  (fileDims f).bind fun dims =>
    if dims = (Nz, Ny, Nx) then
      let isl := islice r dims.1
      if (∀ s ∈ requested r, (readSel fl r isl f b s).isSome) then
        let u : Sel → ℤ → ℤ → ℤ → ℝ := fun s => (readSel fl r isl f b s).getD fun _ _ _ => 0
        if ∀ d < r.ncomp, ∀ x y z, b.has x y z → 0 ≤ u (Sel.conc d) x y z ∧ u (Sel.conc d) x y z ≤ 1 then
          some fun s x y z =>
            if r.depth > r.nread ∧ s = Sel.phase r.nread then 1 - ∑ d ∈ Finset.range r.nread, u (Sel.phase d) x y z
            else u s x y z
        else none
      else none
    else none

/-- The rescaling of the temperature after reading, source/QuatModel.cc:630-638: `1/rescale_factorT` times the
field when the heat equation is solved in reduced units. -/
noncomputable def startTemp (rescaled : Bool) (factor : ℝ) (t : ℝ) : ℝ := if rescaled then 1 / factor * t else t

end AMPE.FieldsFile
