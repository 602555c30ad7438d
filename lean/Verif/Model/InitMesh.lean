import Verif.Model.Regrid

/-!
# Initial conditions and mesh refinement

Start of a run without restart: `QuatModel::Initialize` (source/QuatModel.cc:597-643) reads the block `InitialConditions`
(source/PFModel.cc:341-407), builds the hierarchy (`PFModel::setupHierarchy`, source/PFModel.cc:419-434), allocates the level of the
data (`QuatModel::setupInitialDataLevel`, source/QuatModel.cc:1100-1144) and only then reads the file into it.  End of a run:
`FieldsWriter::FlattenHierarchy` (source/FieldsWriter.cc:489-639) brings a refined hierarchy to one level.

Simplifications: one component of one field; the domain and the regions of the levels are sets of cells of the level; ghost values are
part of the arrays; the refine operator of a level is a function of the array of the next coarser level (`LINEAR_REFINE` of SAMRAI is
modelled in `Model/Regrid.lean`); the tags of a level are a function of its number and its data (source/QuatModel.cc:3437-3474, or boxes
of the input through `StandardTagAndInitialize`, source/PFModel.cc:227-231); clustering, buffering and nesting are part of that function.
A failed `assert`, a null pointer followed or a TBOX_ERROR is `none`.
-/

namespace AMPE.InitMesh

/-- A level: its cells and its array. -/
structure Level (ι V : Type) where
  region : Set ι
  val : ι → V

/-- Levels made one after the other while the last one is tagged: source/PFModel.cc:425-433.  Each new one is filled by
`initializeLevelData` with `initial_time`, number greater than `d_level_of_init_data`, no old level: from the next coarser level
(source/QuatModel.cc:2940-2947).  `n` is the number of levels that may still be added, `ln` the number of the last one. -/
noncomputable def finer {ι V : Type} (tag : ℕ → Level ι V → Set ι) (refine : ℕ → (ι → V) → ι → V) : ℕ → ℕ → Level ι V → List (Level ι V)
  | 0, _, _ => []
  | n + 1, ln, l =>
      open Classical in
      if tag ln l = ∅ then []
      else
        let new : Level ι V := ⟨tag ln l, refine (ln + 1) l.val⟩
        new :: finer tag refine n (ln + 1) new

/-- Level 0 as `makeCoarsestLevel` makes it: `allocatePatchData` without initialisation (source/QuatModel.cc:3087-3110), then
`initializeLevelData` (source/QuatModel.cc:2926-2988): for `level = 0` the level becomes `d_initial_level` and is copied to itself; for
`level > 0` it is coarsened from `d_initial_level`, which nobody has set (source/PFModel.h:148, assigned at source/QuatModel.cc:2930
only). -/
def coarsest {ι V : Type} (level : ℕ) (domain : Set ι) (mem : ι → V) : Option (Level ι V) :=
  if level = 0 then some ⟨domain, mem⟩ else none

/-- The hierarchy at the start of a run: source/QuatModel.cc:602-629.  `level` is `amr_level_of_data`, `mem` what the memory of level 0
holds before it is read, `file` what is read for each cell (`none`: the file does not fit); `d_initial_level` is level 0 of the hierarchy
itself, so reading replaces its array. -/
noncomputable def start {ι V : Type} (level maxLevels : ℕ) (tag : ℕ → Level ι V → Set ι) (refine : ℕ → (ι → V) → ι → V) (domain : Set ι)
    (mem : ι → V) (file : Option (ι → V)) : Option (List (Level ι V)) :=
  (coarsest level domain mem).bind fun l0 =>
    file.map fun f => { l0 with val := f } :: finer tag refine (maxLevels - 1) 0 l0

/-- The array obtained for a level `l` from the coarser levels, finest first: its own data where it has cells, elsewhere refined from what
is obtained for the next coarser level (`createSchedule(flattened_level, src_level, level_number - 1, src_hierarchy)`,
source/FieldsWriter.cc:629-632). -/
noncomputable def flat {ι V : Type} (refine : ℕ → (ι → V) → ι → V) : List (Level ι V) → Level ι V → ι → V
  | [], l, k => l.val k
  | m :: rest, l, k =>
      open Classical in
      if k ∈ l.region then l.val k else refine (rest.length + 1) (flat refine rest m) k

/-- `FlattenHierarchy(hierarchy, level)`: source/FieldsWriter.cc:489-639.  `level < 10` is asserted (line 496).  Level 0 is returned
as it is (line 499); otherwise
`getPatchLevel(level)` (line 539) must exist. -/
noncomputable def flatten {ι V : Type} (refine : ℕ → (ι → V) → ι → V) (levels : List (Level ι V)) (level : ℕ) : Option (ι → V) :=
  if 10 ≤ level then none
  else if level = 0 then levels.head?.map Level.val
  else levels[level]?.map fun l => flat refine (levels.take level).reverse l

end AMPE.InitMesh
