import Verif.Model.QuatFlow
import Verif.Model.EventInterval

/-!
# Resetting the orientations: decision, fundamental zone, smoothing, relaxation

source/QuatModel.cc (resetGrains 2182-2314, smoothQuat 3740-3805, makeQuatFundamental 5059-5104, Advance 2322-2340, constructor
158, Initialize 597-598), source/Grains.cc:28, 606 (count of grains), source/fortran/2d/smoothquat.m4, source/fortran/3d/smoothquat.m4,
source/fortran/2d/quatrotation.m4:69-117.

Simplifications: one level; the cells outside of the patch are the ghost cells filled by `copyCurrentToScratch`
(source/QuatModel.cc:3792), so that a smoothing pass reads the old values everywhere; orientations in three dimensions have the plain
or the symmetry-aware differences of source/fortran/3d/quatdiffs.m4 with one rotation per side.
-/

namespace AMPE.Smoothing

open AMPE.Flux AMPE.Tagging AMPE.Quat AMPE.QuatFlow

/-- `smoothquat`, source/fortran/2d/smoothquat.m4:11-57: `thr` is `phase_threshold`; the cells that are not treated keep the value
of `quat_out`, which is the same as `quat` (source/QuatModel.cc:3774-3784, 3792). -/
noncomputable def smooth2 {n : ℕ} (thr : ℝ) (phase : Field2) (dX dY : QField n) (q : QField n) : QField n := fun i j m =>
  if phase i j < thr then
    q i j m - 0.125 * dX i j m + 0.125 * dX (i + 1) j m - 0.125 * dY i j m + 0.125 * dY i (j + 1) m
  else q i j m

/-- One pass of `QuatModel::smoothQuat`, source/QuatModel.cc:3786-3805: differences (3912-3940), then smoothing. `Sx`, `Sy` are
the rotations on the sides, the identity without symmetry. -/
noncomputable def pass2 {n : ℕ} (thr : ℝ) (phase : Field2) (Sx Sy : ℤ → ℤ → QVec n → QVec n) (q : QField n) : QField n :=
  smooth2 thr phase (qdiffX Sx q) (qdiffY Sy q) q

/-- The smoothing passes of `resetGrains`, source/QuatModel.cc:2238-2249 (ten of them). -/
noncomputable def passes2 {n : ℕ} (k : ℕ) (thr : ℝ) (phase : Field2) (Sx Sy : ℤ → ℤ → QVec n → QVec n) (q : QField n) : QField n :=
  (pass2 thr phase Sx Sy)^[k] q

/-- Orientation field in three dimensions. -/
abbrev QField3 (n : ℕ) := ℤ → ℤ → ℤ → QVec n

/-- Rotations on the sides of one direction. -/
abbrev Rot3 (n : ℕ) := ℤ → ℤ → ℤ → QVec n → QVec n

/-- `quatdiffs` and `quatdiffs_symm`, source/fortran/3d/quatdiffs.m4:72-259, direction 0. -/
def qdiff3X {n : ℕ} (S : Rot3 n) (q : QField3 n) : QField3 n := fun i j k => q i j k - S i j k (q (i - 1) j k)
@[inherit_doc qdiff3X]
def qdiff3Y {n : ℕ} (S : Rot3 n) (q : QField3 n) : QField3 n := fun i j k => q i j k - S i j k (q i (j - 1) k)
@[inherit_doc qdiff3X]
def qdiff3Z {n : ℕ} (S : Rot3 n) (q : QField3 n) : QField3 n := fun i j k => q i j k - S i j k (q i j (k - 1))

/-- `smoothquat`, source/fortran/3d/smoothquat.m4:11-72. -/
noncomputable def smooth3 {n : ℕ} (thr : ℝ) (phase : Field3) (dX dY dZ : QField3 n) (q : QField3 n) : QField3 n := fun i j k m =>
  if phase i j k < thr then
    q i j k m - 1 / 6 * dX i j k m + 1 / 6 * dX (i + 1) j k m - 1 / 6 * dY i j k m + 1 / 6 * dY i (j + 1) k m
      - 1 / 6 * dZ i j k m + 1 / 6 * dZ i j (k + 1) m
  else q i j k m

/-- One pass in three dimensions, source/QuatModel.cc:3786-3805. -/
noncomputable def pass3 {n : ℕ} (thr : ℝ) (phase : Field3) (Sx Sy Sz : Rot3 n) (q : QField3 n) : QField3 n :=
  smooth3 thr phase (qdiff3X Sx q) (qdiff3Y Sy q) (qdiff3Z Sz q) q

/-- The reference orientation of `quat_fundamental`, source/fortran/2d/quatrotation.m4:91-97. -/
noncomputable def reference : (n : ℕ) → QVec n
  | 4 => ![1, 0, 0, 0]
  | 2 => ![1, 0]
  | _ => fun _ => 0

/-- `quat_fundamental`, source/fortran/2d/quatrotation.m4:99-114, one cell: the search starts with index 1.  `none`: `stop` in
`quatfindsymm` for other lengths. -/
noncomputable def fundamental (n : ℕ) (v : QVec n) : Option (QVec n) := (quatfindsymm n (reference n) v 1).map (·.1)

/-! ## Decision -/

/-- `INT_MAX` (`int` of 32 bits). -/
def intMax : ℤ := 2147483647

/-- What `resetGrains` depends on: `d_number_of_grains` of the model, the count held by `Grains`, the interval object. -/
structure Watch where
  seen : ℤ
  count : ℤ
  ext : AMPE.EventInterval.State

/-- At the start of a run: source/QuatModel.cc:158, 597-598, source/Grains.cc:28. -/
def startWatch (restart : Bool) (ext : AMPE.EventInterval.State) : Watch := ⟨if restart then -1 else intMax, -1, ext⟩

/-- `findAndNumberGrains` found `k` grains, source/Grains.cc:606; called from the grain diagnostics only
(source/QuatModel.cc:2692-2698, source/PFModel.cc:458, 484). -/
def counted (k : ℕ) (w : Watch) : Watch := { w with count := k }

/-- The head of `resetGrains`, source/QuatModel.cc:2189-2196, called from `Advance` when the interval is active (2327): `true` if the
orientations are reset.  The interval is asked only if the count has not decreased (`&&`). -/
noncomputable def decision (cycle : ℤ) (t : ℝ) (w : Watch) : Option (Watch × Bool) :=
  let old := w.seen
  let w := { w with seen := w.count }
  if old ≤ w.count then
    (AMPE.EventInterval.hasIntervalPassed w.ext cycle t).map fun r => ({ w with ext := r.1 }, r.2)
  else some (w, true)

/-! ## Relaxation -/

/-- One relaxation step: the new state, its step size and the energies found afterwards (`phase_energy`, `qint_energy`). -/
structure Relaxed (σ : Type) where
  state : σ
  dt : ℝ
  phaseE : ℝ
  qintE : ℝ

/-- The stopping test, source/QuatModel.cc:2286-2288; `prev` is `qint_energy` before the step. -/
def stops {σ : Type} (orig prev : ℝ) (r : Relaxed σ) : Prop := |prev - r.qintE| < 0.1 * r.phaseE * r.dt ∧ r.qintE < orig + 0.1

open Classical in
/-- The relaxation loop with `k` iterations left, source/QuatModel.cc:2261-2293: state and number of steps taken. -/
noncomputable def relaxLoop {σ : Type} (adv : σ → Relaxed σ) (orig : ℝ) : ℕ → ℝ → σ → σ × ℕ
  | 0, _, s => (s, 0)
  | k + 1, prev, s =>
    let r := adv s
    if stops orig prev r then (r.state, 1)
    else
      let x := relaxLoop adv orig k r.qintE r.state
      (x.1, x.2 + 1)

/-- `for (int it = 1; it < 200; it++)`, source/QuatModel.cc:2261. -/
noncomputable def relax {σ : Type} (adv : σ → Relaxed σ) (orig qint : ℝ) (s : σ) : σ × ℕ := relaxLoop adv orig 199 qint s

end AMPE.Smoothing
