import Verif.Model.EventInterval

/-!
# Optional blocks of the input: `Visit`, `Symmetry`, `GrainDiagnostics`, `GrainExtension`

What `QuatModel::Initialize` (source/QuatModel.cc:457-580), `QuatModelParameters::readVisitOptions` (source/QuatModelParameters.cc:414-423) and the
constructor of `Grains` (source/Grains.cc:22-56) make of these blocks, and the places that rely on it.  A member that no constructor and no reader has
set is `none`; reading it is undefined behaviour, also `none`; so is a null pointer.  Orders of initialisation other than those stated and the contents of
the fields are not modelled.
-/

namespace AMPE.OptionalBlocks

open AMPE.EventInterval (construct isActive)

/-- Block `Visit`: interval and options, source/EventInterval.cc:29-47, source/QuatModelParameters.cc:417-422. -/
structure Visit where
  interval : EventInterval.Input
  extra : Option Bool
  energy : Option Bool
  grain : Option Bool
  velocity : Option Bool
  rhs : Option Bool

/-- The input; `symmetry` is the entry `enabled` of the block, `hParam` and `eps` the entries `H_parameter` and `epsilon_anisotropy`, `aziz` whether
`partition_coeff = "Aziz"`. -/
structure Input where
  visit : Option Visit
  symmetry : Option (Option Bool)
  fundamental : EventInterval.Input
  grainDiag : Option EventInterval.Input
  grainExt : Option EventInterval.Input
  hParam : Option ℝ
  eps : Option ℝ
  aziz : Bool

/-- `EventInterval(input_db, name, 0.0, "step")` and `isActive`, source/QuatModel.cc:537-538, 549-551, source/PFModel.cc:133-134; `none`: invalid
`interval_type`. -/
noncomputable def active (b : Option EventInterval.Input) : Option Bool :=
  (construct (b.getD {}) 0 "step" false false).map isActive

/-- Members set by `readVisitOptions`; the constructor (source/QuatModelParameters.cc:30-133) sets `d_with_velocity` only. -/
structure Flags where
  extra : Option Bool
  energy : Option Bool
  grain : Option Bool
  rhs : Option Bool
  velocity : Bool

/-- After the constructor and the reading of the model parameters, source/QuatModelParameters.cc:132, 327-330. -/
def Flags.start (i : Input) : Flags := ⟨none, none, none, none, i.aziz⟩

/-- `readVisitOptions`, source/QuatModelParameters.cc:414-423. -/
def readVisitOptions (v : Visit) (f : Flags) : Flags :=
  { extra := some (v.extra.getD false)
    energy := some (v.energy.getD false)
    grain := some (v.grain.getD false)
    velocity := v.velocity.getD f.velocity
    rhs := some (v.rhs.getD false) }

/-- Flags of the run, source/QuatModel.cc:549-556; `none`: invalid `interval_type`. -/
noncomputable def flags (i : Input) : Option Flags := do
  let a ← active (i.visit.map (·.interval))
  match a, i.visit with
  | true, some v => some (readVisitOptions v (Flags.start i))
  | true, none => none
  | false, _ => some (Flags.start i)

/-- Members of `Grains`: variables for the numbering and for the extension, output of the volumes. -/
structure Grains where
  number : Bool
  extend : Bool
  volume : Bool

/-- `new Grains(d_qlen, with_visit_grain_output(), input_db)` and `registerVariables`, source/QuatModel.cc:558-561, source/Grains.cc:22-56, 78-124;
`none`: the flag has not been set. -/
noncomputable def createGrains (i : Input) : Option Grains := do
  let f ← flags i
  let g ← f.grain
  some { number := i.grainDiag.isSome, extend := i.grainExt.isSome, volume := i.grainDiag.isSome && g }

/-- `d_symmetry_aware`, source/QuatModel.cc:505-512. -/
def symmetryAware (i : Input) : Bool :=
  match i.symmetry with
  | none => false
  | some enabled =>
    match enabled with
    | none => false
    | some b => b

/-- `d_fundamental_interval`, source/QuatModel.cc:95, 514-515; `none`: null pointer (or invalid `interval_type`). -/
noncomputable def fundamental (i : Input) : Option EventInterval.State :=
  match i.symmetry with
  | none => none
  | some _ => construct i.fundamental 0 "step" false false

/-- Use of the interval at the start of a step, source/QuatModel.cc:2331-2332: whether orientations are to be tested; `none`: null pointer. -/
noncomputable def askFundamental (i : Input) : Option Bool :=
  if symmetryAware i then (fundamental i).map isActive else some false

/-- `Grains::resetHierarchyConfiguration` as called from source/QuatModel.cc:3424-3428, the coarsening schedules: source/Grains.cc:1116-1126; the
algorithm exists if the numbering was asked for (source/Grains.cc:133-158).  `false`: null pointer. -/
noncomputable def resetHierarchy (i : Input) (coarsest finest : ℕ) : Option Bool := do
  let d ← active i.grainDiag
  let e ← active i.grainExt
  let lnBeg := if 0 < coarsest then coarsest - 1 else coarsest
  if d || e then
    some ((List.range' lnBeg (finest - lnBeg)).all fun _ => i.grainDiag.isSome)
  else some true

/-- `computeGrainDiagnostics`, source/QuatModel.cc:2693-2705, source/PFModel.cc:457, 482, source/Grains.cc:267, 277, 651: `false`: assertion on the
variables of the numbering. -/
noncomputable def grainDiagnostics (i : Input) : Option Bool := do
  let d ← active i.grainDiag
  some (!d || i.grainDiag.isSome)

/-- `d_H_parameter`, source/QuatModelParameters.cc:831, 879-882 (not rescaled). -/
noncomputable def hOf (i : Input) : ℝ :=
  let h := i.hParam.getD (-1)
  if 0 < i.eps.getD (-1) ∧ h < 0 then 0 else h

/-- Start of `Advance`, source/QuatModel.cc:2326-2329, and of `resetGrains`, 2182-2186: `with_orientation` is `H ≥ 0`, the integrator of the
orientations exists for `H > 0` only (source/QuatModelParameters.h:90-95, source/QuatModel.cc:1169-1172).  `false`: assertion on that integrator. -/
noncomputable def advance (i : Input) : Option Bool := do
  let e ← active i.grainExt
  some (!(decide (0 ≤ hOf i) && e) || decide (0 < hOf i))

/-- Entries that matter for the motion of grains as rigid bodies: `norderp`, `norderp_A`, and the block `RigidBody` with `threshold` and the presence of
`equil_gb`; `conc`: there is a composition. -/
structure RigidIn where
  norderp : ℤ := 1
  norderpA : Option ℤ := none
  block : Option (Option ℝ × Bool) := none
  conc : Bool := false

/-- What becomes of the block. -/
inductive RigidEnd
  | off
  | refused
  | failsInStep
  | phaseForces
  | wangForces

/-- `d_norderp_A`, source/QuatModelParameters.cc:818-822. -/
def RigidIn.grains (r : RigidIn) : ℤ := r.norderpA.getD (if r.norderp = 1 then 1 else r.norderp - 1)

open Classical in
/-- Reading of the block (source/QuatModelParameters.cc:1068-1085), creation of the forces (source/QuatModel.cc:708-725: only with several order
parameters) and their first use (source/QuatIntegrator.cc:2496-2508; source/WangRigidBodyForces.cc:45-53 needs the composition).  A number of grains of A above
the number of order parameters is left out. -/
noncomputable def rigid (r : RigidIn) : RigidEnd :=
  match r.block with
  | none => .off
  | some (threshold, equil) =>
    if r.grains ≤ 0 then .refused
    else if 0 < threshold.getD 0 ∧ equil = false then .refused
    else if ¬ 1 < r.norderp then .failsInStep
    else if 0 < threshold.getD 0 then (if r.conc then .wangForces else .failsInStep)
    else .phaseForces

end AMPE.OptionalBlocks
