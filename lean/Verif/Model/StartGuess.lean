import Mathlib.Algebra.Order.Archimedean.Real.Basic
import Mathlib.Data.Nat.Basic
import Mathlib.Data.Fin.VecNotation

/-!
# Starting guesses of the phase compositions

One cell of the mesh is followed through a run.  It holds the phase compositions (`d_conc_l_id`,
`d_conc_a_id`, `d_conc_b_id`) and the reference compositions (`d_conc_*_ref_id`) of phases L, A, B (indices 0,
1, 2) for every species.  The solver of the equal-potential equations belongs to an external library: it is
an arbitrary function of the local state (temperature, composition, order parameters) and of the content of
the array `x` it is called with; `none` is a failure, on which the code calls `MPI_Abort`.
-/

namespace AMPE.StartGuess

/-- Values for phases L, A, B and `nc` species. -/
abbrev Trip (nc : ℕ) := Fin 3 → Fin nc → ℝ

/-- Result of the solver for a local state and the initial content of `x`. -/
abbrev Solver (σ : Type) (nc : ℕ) := σ → Trip nc → Option (Trip nc)

/-- What one cell holds. -/
structure Cell (nc : ℕ) where
  cur : Trip nc
  ref : Trip nc

/-- Where `x` comes from: the references, the values of the previous evaluation, nowhere (the array is not
initialised), or not needed. -/
inductive Family
  | ref
  | current
  | unset
  | direct
  deriving DecidableEq

/-- Settings read by the factory. -/
structure Setup where
  kks : Bool
  calphad : Bool
  dilute : Bool
  quadratic : Bool
  hasB : Bool
  norderp : ℕ
  ncomp : ℕ

/-- `PhaseConcentrationsStrategyFactory::create`, source/PhaseConcentrationsStrategyFactory.h:62-218, reduced to
the origin of `x` in the strategy created:
source/CALPHADequilibriumPhaseConcentrationsStrategy.cc:368-375 (references),
source/KKSdiluteEquilibriumPhaseConcentrationsStrategy.cc:160-161 and
source/EquilibriumPhaseConcentrationsBinaryMultiOrderThreePhases.cc:155-156 (current values),
source/EquilibriumPhaseConcentrationsBinaryMultiOrder.cc:133,
source/QuadraticEquilibriumPhaseConcentrationsStrategy.cc:134,
source/QuadraticEquilibriumThreePhasesTernaryStrategyMultiOrder.cc:167 (not initialised).
`none`: no strategy is created.  The concentration models are tried in this order. -/
def select (s : Setup) : Option Family :=
  if s.kks then
    if s.calphad then
      if s.ncomp = 1 then
        if s.hasB then (if 1 < s.norderp then some .current else some .ref)
        else if 1 < s.norderp then some .unset else some .ref
      else if s.ncomp = 2 then some .ref else none
    else if s.dilute then some .current
    else if s.quadratic then some .unset else none
  else some .direct

/-- What the evaluation of a cell depends on: `three` is the presence of phase B in the loop of the strategy
(`nphases == 3`), `withB` is `withPhaseB()`, source/QuatModelParameters.h:86. -/
structure Cfg where
  fam : Family
  calphad : Bool
  three : Bool
  withB : Bool

/-- Copies phases L and A, and B only if `b`. -/
def store {nc : ℕ} (b : Bool) (new old : Trip nc) : Trip nc := fun p => if p = 2 ∧ b = false then old p else new p

/-- Content of `x`; entries that are not set for two phases are 0.  `junk` is the content of an array that was not
initialised. -/
def guess {nc : ℕ} (cfg : Cfg) (c : Cell nc) (junk : Trip nc) : Trip nc :=
  match cfg.fam with
  | .ref => store cfg.three c.ref 0
  | .current => store cfg.three c.cur 0
  | .unset => junk
  | .direct => 0

/-- One evaluation of the phase compositions in a cell (`computePhaseConcentrationsOnPatch`,
source/CALPHADequilibriumPhaseConcentrationsStrategy.cc:366-447 and the other strategies); called for every rate
evaluation (source/QuatIntegrator.cc:3073-3076, 3118-3122) and by `evaluateEnergy`, source/QuatModel.cc:4931-4937. -/
def eval {σ : Type} {nc : ℕ} (cfg : Cfg) (solve : Solver σ nc) (c : Cell nc) (e : σ × Trip nc) : Option (Cell nc) :=
  (solve e.1 (guess cfg c e.2)).map fun x => { c with cur := store cfg.three x c.cur }

/-- `resetRefPhaseConcentrations`, source/QuatModel.cc:5218-5233. -/
def resetRef {nc : ℕ} (withB : Bool) (c : Cell nc) : Cell nc := { c with ref := store withB c.cur c.ref }

/-- Evaluations one after the other. -/
def evals {σ : Type} {nc : ℕ} (cfg : Cfg) (solve : Solver σ nc) (c : Cell nc) (es : List (σ × Trip nc)) :
    Option (Cell nc) := es.foldlM (eval cfg solve) c

/-- One step: `QuatModel::Advance`, source/QuatModel.cc:2318-2363; `es` are the evaluations the time integrator asks
for, and those of the diagnostics that follow the step. -/
def advance {σ : Type} {nc : ℕ} (cfg : Cfg) (solve : Solver σ nc) (c : Cell nc) (es : List (σ × Trip nc)) :
    Option (Cell nc) := evals cfg solve (if cfg.calphad then resetRef cfg.withB c else c) es

/-- The steps of a run. -/
def steps {σ : Type} {nc : ℕ} (cfg : Cfg) (solve : Solver σ nc) (c : Cell nc) (L : List (List (σ × Trip nc))) :
    Option (Cell nc) := L.foldlM (advance cfg solve) c

/-! ## Start of a run -/

/-- Content of a cell of a level that has just been created, at the start or by `Regrid`:
`AllocateLocalPatchData`, source/QuatModel.cc:3147-3173, with `zero_data` (source/QuatModel.cc:2912, 3341-3358).
`Regrid` (source/QuatModel.cc:2733-2785) registers no transfer for these arrays. -/
def newCell (nc : ℕ) : Cell nc := ⟨0, 0⟩

/-- `cl->fill(init_cl, depth)` for the entries of `init_cl`: source/QuatModel.cc:758-775. -/
def fill {nc : ℕ} (l : List ℝ) (v : Fin nc → ℝ) : Fin nc → ℝ := fun i => l.getD i (v i)

/-- `setAuxilliaryCompositions`, source/QuatModel.cc:753-812; ghost cells included. -/
def setAuxiliary {nc : ℕ} (init : Fin 3 → List ℝ) (c : Cell nc) : Cell nc :=
  { c with cur := fun p => fill (init p) (c.cur p) }

/-- The settings `concL_ref`, `concA_ref`, `concB_ref`, source/QuatModel.cc:730-750: references are set with ghost
cells, phase compositions without. -/
noncomputable def setConfigured {nc : ℕ} (ghost : Bool) (cref : Fin 3 → ℝ) (c : Cell nc) : Cell nc where
  cur := fun p i => if 0 ≤ cref p ∧ ghost = false then cref p else c.cur p i
  ref := fun p i => if 0 ≤ cref p then cref p else c.ref p i

/-- Which reference arrays exist: source/QuatModel.cc:1223-1240 (`conc_b_ref` is registered with phase B only) and 3147-3160 (allocated for CALPHAD
only). -/
def refAllocated (cfg : Cfg) (p : Fin 3) : Bool := cfg.calphad && (p != 2 || cfg.withB)

open Classical in
/-- `setConfigured` as executed, source/QuatModel.cc:730-750: `setToScalar` on a reference array for every setting that is not negative, whatever the
model; `none`: the array is not there. -/
noncomputable def configure {nc : ℕ} (cfg : Cfg) (ghost : Bool) (cref : Fin 3 → ℝ) (c : Cell nc) : Option (Cell nc) :=
  if ∀ p, 0 ≤ cref p → refAllocated cfg p = true then some (setConfigured ghost cref c) else none

/-- Start of a new run: source/QuatModel.cc:645-646, 730-750. -/
noncomputable def fresh {nc : ℕ} (ghost : Bool) (init : Fin 3 → List ℝ) (cref : Fin 3 → ℝ) : Cell nc :=
  setConfigured ghost cref (setAuxiliary init (newCell nc))

/-- Start from a restart file: the phase compositions are read (source/QuatModel.cc:1764-1772), the references are
new arrays (source/QuatModel.cc:3149-3160), then source/QuatModel.cc:730-750. -/
noncomputable def restart {nc : ℕ} (ghost : Bool) (cref : Fin 3 → ℝ) (saved : Trip nc) : Cell nc :=
  setConfigured ghost cref ⟨saved, 0⟩

/-- `setRefPhaseConcentrationsToEquilibrium`, source/QuatModel.cc:5283-5296. -/
def setEquilibrium {nc : ℕ} (withB : Bool) (ceq : Fin 4 → ℝ) (c : Cell nc) : Cell nc :=
  { c with ref := fun p i => if p = 0 then ceq 0 else if p = 1 then ceq 1 else if withB then ceq 2 else c.ref p i }

/-- `preRunDiagnostics`, source/QuatModel.cc:2385-2440: `eq` is the equilibrium if it is computed (a diagnostics file
is named, CALPHAD, order parameter below 0.1 somewhere); `diag` is the state evaluated if the initial scalar
diagnostics are printed. -/
def preRun {σ : Type} {nc : ℕ} (cfg : Cfg) (solve : Solver σ nc) (fromRestart : Bool) (eq : Option (Fin 4 → ℝ))
    (diag : Option (σ × Trip nc)) (c : Cell nc) : Option (Cell nc) :=
  let c' := match eq with
    | none => c
    | some ceq => if fromRestart then c else setEquilibrium cfg.withB ceq c
  match diag with
  | none => some c'
  | some e => eval cfg solve c' e

/-! ## Equilibrium compositions -/

/-- The two estimates, source/QuatModel.cc:2450-2458; `lo` and `hi` are the extreme values of the composition. -/
noncomputable def bracket (lo hi : ℝ) : ℝ × ℝ :=
  let dc := hi - lo
  let cmin := max (0.25 * lo) (lo - 0.2 * dc)
  let cmax := min (1 - 0.25 * (1 - hi)) (hi + 0.2 * dc)
  if cmax - cmin ≤ 1e-8 then (max 0 (cmin - 0.1), min 1 (cmin + 0.1)) else (cmin, cmax)

/-- Initial `lceq`, source/QuatModel.cc:2464-2474; `known` are the `initc_in_phase` of phases L and A. -/
noncomputable def firstGuess {nc : ℕ} (lo hi : ℝ) (known : Option ((Fin nc → ℝ) × (Fin nc → ℝ))) : Fin 4 → ℝ :=
  let b := bracket lo hi
  let g : Fin 4 → ℝ := ![b.1, b.2, b.1, b.2]
  match known with
  | none => g
  | some k => fun m =>
      if h : m.val < nc then k.1 ⟨m.val, h⟩
      else if h' : m.val - nc < nc then k.2 ⟨m.val - nc, h'⟩ else g m

/-- The checks of source/QuatModel.cc:2488-2491. -/
noncomputable def accept (r : Bool × (Fin 4 → ℝ)) : Prop :=
  r.1 = true ∧ r.2 0 ≤ 1 ∧ 0 ≤ r.2 0 ∧ r.2 1 ≤ 1 ∧ 0 ≤ r.2 1

open Classical in
/-- `QuatModel::computeCeq`, source/QuatModel.cc:2443-2532, on any rank; `solve` is `computeCeqT` with its return
value and the final content of `lceq`; `none` is the abort. -/
noncomputable def computeCeq {nc : ℕ} (solve : (Fin 4 → ℝ) → Bool × (Fin 4 → ℝ)) (lo hi : ℝ)
    (known : Option ((Fin nc → ℝ) × (Fin nc → ℝ))) : Option (Fin 4 → ℝ) :=
  let r := solve (firstGuess lo hi known)
  if accept r then some r.2
  else
    let b := bracket lo hi
    let r' := solve ![b.2, b.1, r.2 2, r.2 3]
    if accept r' then some r'.2 else none

/-- Highest entry of the four-element array `x` that is written,
source/CALPHADequilibriumPhaseConcentrationsStrategy.cc:367-375. -/
def highest (nc : ℕ) (three : Bool) : ℕ := if three then nc - 1 + 2 * nc else nc - 1 + nc

end AMPE.StartGuess
