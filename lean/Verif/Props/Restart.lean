import Verif.Model.Restart
import Mathlib.Tactic.Linarith
import Mathlib.Tactic.NormNum

/-!
# C101: a run continued from a restart file continues from the state that was written

Specification side: the fields a run evolves, and the state of an uninterrupted run, which is the state written.
-/

namespace AMPE.Restart.Props

open AMPE.Restart

variable {α : Type} [Zero α]

/-- The fields that carry the solution: whatever the integrator advances, and a temperature that is not prescribed. -/
def Evolved (c : Config α) (f : Fld) : Prop :=
  (f = .phase ∧ c.withPhase = true) ∨ (f = .eta ∧ c.withThird = true) ∨ (f = .temperature ∧ c.prescribed = none) ∨
  (f = .quat ∧ c.withOrient = true) ∨ (f = .conc ∧ c.withConc = true)

/-- The fields carried over as starting points of the phase-equilibrium solver. -/
def Carried (c : Config α) (f : Fld) : Prop :=
  c.withConc = true ∧ c.needsPhaseConc = true ∧
    ((f = .concL ∧ c.concLRef = none) ∨ (f = .concA ∧ c.concARef = none) ∨
     (f = .concB ∧ c.concBRef = none ∧ c.withPhaseB = true))

omit [Zero α] in
theorem evolved_saved (c : Config α) (f : Fld) (h : Evolved c f) : saved c f = true := by
  rcases h with ⟨rfl, h⟩ | ⟨rfl, h⟩ | ⟨rfl, h⟩ | ⟨rfl, h⟩ | ⟨rfl, h⟩ <;> simp [saved, h]

theorem allocate_saved (c : Config α) (s : ℕ → Fld → α) (junk : ℕ → Fld → α) (ln : ℕ) (f : Fld) (h : saved c f = true) :
    allocate c (write c s) junk ln f = s ln f := by
  simp [allocate, write, h]

omit [Zero α] in
theorem post_evolved (c : Config α) (s : Fld → α) (f : Fld) (h : Evolved c f) :
    setReferences c (setTemperature c s) f = s f := by
  rcases h with ⟨rfl, h⟩ | ⟨rfl, h⟩ | ⟨rfl, h⟩ | ⟨rfl, h⟩ | ⟨rfl, h⟩ <;>
    cases hp : c.prescribed <;> simp_all [setReferences, setTemperature]

/-- **C101 (one level)**: a run on a single level resumes, with exactly the solution that was written — whatever the memory held
before and whatever else was in the state. -/
theorem c101_single_level_partial (c : Config α) (hm : c.maxLevels = 1) (s junk : ℕ → Fld → α) :
    ∃ r, resume c (write c s) junk = some r ∧ ∀ f, Evolved c f ∨ Carried c f → r 0 f = s 0 f := by
  refine ⟨fun ln => setReferences c (setTemperature c (if ln = 0 then allocate c (write c s) junk 0 else junk ln)), ?_, ?_⟩
  · simp only [resume, hm, initLevels, initLevel, Option.bind_some, Nat.lt_irrefl, if_false, Option.map_some]
  · rintro f (h | ⟨h1, h2, h⟩)
    · simp only [if_true]
      rw [post_evolved c _ f h, allocate_saved c s junk 0 f (evolved_saved c f h)]
    · simp only [if_true]
      rcases h with ⟨rfl, h⟩ | ⟨rfl, h⟩ | ⟨rfl, h, h'⟩ <;> cases hp : c.prescribed <;>
        simp_all [setReferences, setTemperature, allocate, write, saved]

/-- **C101**: the resumed state depends on the file and the input only, for every variable that is stored or cleared; the only
variable in use that keeps the content of the memory is the work copy of the orientation. -/
theorem c101_no_stale_memory (c : Config α) (hm : c.maxLevels = 1) (file : ℕ → Fld → Option α) (junk junk' : ℕ → Fld → α)
    (r r' : ℕ → Fld → α) (hr : resume c file junk = some r) (hr' : resume c file junk' = some r') (f : Fld)
    (hf : (file 0 f).isSome = true ∨ cleared c f = true) : r 0 f = r' 0 f := by
  have ha : ∀ g : Fld, (file 0 g).isSome = true ∨ cleared c g = true → allocate c file junk 0 g = allocate c file junk' 0 g := by
    intro g hg
    unfold allocate
    rcases hx : file 0 g with _ | v
    · have : cleared c g = true := by simpa [hx] using hg
      simp [this]
    · rfl
  simp only [resume, hm, initLevels, initLevel, Option.bind_some, Nat.lt_irrefl, if_false, Option.map_some,
    Option.some.injEq] at hr hr'
  rw [← hr, ← hr']
  simp only [if_true]
  cases hp : c.prescribed <;> cases f <;> simp only [setReferences, setTemperature, hp] <;> first
    | (rw [ha _ hf]; done)
    | exact ha _ hf
    | rfl

/-- **C101, violated**: a run set up for several levels cannot be resumed: initialising level 1 dereferences the refine algorithm,
which is created only by the first regridding — for every restart file. -/
theorem c101_violation_levels (c : Config α) (hm : 2 ≤ c.maxLevels) (file : ℕ → Fld → Option α) (junk : ℕ → Fld → α) :
    resume c file junk = none := by
  have key : ∀ n, 2 ≤ n → initLevels c none file junk n = none := by
    intro n hn
    induction n with
    | zero => omega
    | succ n ih =>
      rcases Nat.lt_or_ge 1 n with h | h
      · simp [initLevels, ih h]
      · have : n = 1 := by omega
        subst this
        simp [initLevels, initLevel]
  simp [resume, key _ hm]

/-- **C101**: the switch is sharp — resuming works exactly for runs with at most one level. -/
theorem c101_resumes_iff (c : Config α) (file : ℕ → Fld → Option α) (junk : ℕ → Fld → α) :
    (resume c file junk).isSome = true ↔ c.maxLevels ≤ 1 := by
  constructor
  · intro h
    by_contra hc
    rw [c101_violation_levels c (by omega) file junk] at h
    simp at h
  · intro h
    rcases Nat.lt_or_ge c.maxLevels 1 with h1 | h1
    · have : c.maxLevels = 0 := by omega
      simp [resume, this, initLevels]
    · have : c.maxLevels = 1 := by omega
      simp [resume, this, initLevels, initLevel]

/-- **C101, violated**: creating the algorithm earlier would not be enough: the stored data of every finer level would be replaced by
interpolation from the coarser one, and would agree with what was written only if that was already an interpolation. -/
theorem c101_violation_fine_data (c : Config α) (r : Fld → α → α) (s junk : ℕ → Fld → α) (f : Fld)
    (hf : Evolved c f) :
    ∃ t, initLevels c (some r) (write c s) junk 2 = some t ∧ t 0 f = s 0 f ∧ t 1 f = r f (s 0 f) ∧
      (t 1 f = s 1 f ↔ s 1 f = r f (s 0 f)) := by
  have ha := allocate_saved c s junk 0 f (evolved_saved c f hf)
  have hr : regridded c f = true := by
    rcases hf with ⟨rfl, h⟩ | ⟨rfl, h⟩ | ⟨rfl, h⟩ | ⟨rfl, h⟩ | ⟨rfl, h⟩ <;> simp [regridded, *]
  refine ⟨fun k => if k = 1 then (fun f => if regridded c f then r f (allocate c (write c s) junk 0 f)
      else allocate c (write c s) junk 1 f) else if k = 0 then allocate c (write c s) junk 0 else junk k, ?_, ?_, ?_, ?_⟩
  · simp [initLevels, initLevel]
  · simpa using ha
  · simp [hr, ha]
  · simp only [if_true, hr, ha]
    exact eq_comm

/-- **C101, violated**: with a prescribed temperature the resumed run holds the temperature of time 0, whatever the time of the file.
The energy printed before the first step, and a plot written there, use it. -/
theorem c101_violation_temperature (c : Config α) (hm : c.maxLevels = 1) (T : ℝ → α) (hp : c.prescribed = some T)
    (s junk : ℕ → Fld → α) (k : Kernels α) :
    ∃ r, resume c (write c s) junk = some r ∧ (energyData (preRun c k true (r 0))).1 = T 0 ∧
      ∀ t, s 0 .temperature = T t → (r 0 .temperature = s 0 .temperature ↔ T 0 = T t) := by
  refine ⟨fun ln => setReferences c (setTemperature c (if ln = 0 then allocate c (write c s) junk 0 else junk ln)), ?_, ?_, ?_⟩
  · simp only [resume, hm, initLevels, initLevel, Option.bind_some, Nat.lt_irrefl, if_false, Option.map_some]
  · cases h1 : c.initialDiag <;>
      simp [energyData, preRun, h1, evaluateEnergy, equilibriumRefs, setReferences, setTemperature, hp]
  · intro t ht
    simp only [if_true, setReferences, setTemperature, hp, ht]

/-- The state handed to the solver at the start of the first step of the resumed run. -/
def firstGuess (c : Config α) (k : Kernels α) (r : Fld → α) : α × α × α := guess (startStep c (preRun c k true r))

/-- **C101 (guess)**: without diagnostics before the first step and without reference compositions in the input, the solver for
the compositions of the phases starts from those of the file, like the uninterrupted run. -/
theorem c101_guess_partial (c : Config α) (hm : c.maxLevels = 1) (h1 : c.withConc = true) (h2 : c.needsPhaseConc = true)
    (h3 : c.calphad = true) (h4 : c.withPhaseB = true) (h5 : c.initialDiag = false) (h6 : c.concLRef = none)
    (h7 : c.concARef = none) (h8 : c.concBRef = none) (s junk : ℕ → Fld → α) (k : Kernels α) :
    ∃ r, resume c (write c s) junk = some r ∧ firstGuess c k (r 0) = guess (startStep c (s 0)) := by
  obtain ⟨r, hr, h⟩ := c101_single_level_partial c hm s junk
  refine ⟨r, hr, ?_⟩
  have hL := h .concL (Or.inr ⟨h1, h2, Or.inl ⟨rfl, h6⟩⟩)
  have hA := h .concA (Or.inr ⟨h1, h2, Or.inr (Or.inl ⟨rfl, h7⟩)⟩)
  have hB := h .concB (Or.inr ⟨h1, h2, Or.inr (Or.inr ⟨rfl, h8, h4⟩)⟩)
  simp [firstGuess, guess, startStep, preRun, equilibriumRefs, h1, h3, h4, h5, hL, hA, hB]

/-- **C101, violated**: with diagnostics before the first step the resumed run calls the solver with composition zero in every phase
(the references are not in the file, and the equilibrium compositions are set only in a new run); the compositions of the file
are replaced by its answer before they are used. -/
theorem c101_violation_guess_zero (c : Config α) (hm : c.maxLevels = 1) (h1 : c.withConc = true) (h2 : c.needsPhaseConc = true)
    (h3 : c.calphad = true) (h4 : c.withPhaseB = true) (h5 : c.initialDiag = true) (h6 : c.concLRef = none)
    (h7 : c.concARef = none) (h8 : c.concBRef = none) (h9 : c.withPhase = true) (h10 : c.prescribed = none)
    (s junk : ℕ → Fld → α) (k : Kernels α) :
    ∃ r, resume c (write c s) junk = some r ∧
      firstGuess c k (r 0) = k.solve (0, 0, 0) (s 0 .temperature) (s 0 .phase) (s 0 .conc) := by
  refine ⟨fun ln => setReferences c (setTemperature c (if ln = 0 then allocate c (write c s) junk 0 else junk ln)), ?_, ?_⟩
  · simp only [resume, hm, initLevels, initLevel, Option.bind_some, Nat.lt_irrefl, if_false, Option.map_some]
  · simp [firstGuess, guess, startStep, preRun, equilibriumRefs, evaluateEnergy, setReferences, setTemperature, allocate, write,
      saved, cleared, h1, h2, h3, h4, h5, h6, h7, h8, h9, h10]

/-- **C101**: the same diagnostics in a new run start from the equilibrium compositions when an energy file is requested. -/
theorem c101_new_run_guess (c : Config α) (h1 : c.withConc = true) (h3 : c.calphad = true) (h4 : c.withPhaseB = true)
    (h5 : c.energyFile = true) (k : Kernels α) (e : α × α × α) (he : k.equilibrium = some e) (s : Fld → α) :
    guess (equilibriumRefs c k false s) = e ∧ guess (equilibriumRefs c k true s) = guess s := by
  simp [guess, equilibriumRefs, h1, h3, h4, h5, he]

/-- **C101, violated**: with reference compositions in the input the stored compositions of the phases are discarded. -/
theorem c101_violation_guess_reference (c : Config α) (hm : c.maxLevels = 1) (v : α) (hv : c.concLRef = some v)
    (s junk : ℕ → Fld → α) :
    ∃ r, resume c (write c s) junk = some r ∧ r 0 .concL = v ∧ r 0 .concLRef = v := by
  refine ⟨fun ln => setReferences c (setTemperature c (if ln = 0 then allocate c (write c s) junk 0 else junk ln)), ?_, ?_, ?_⟩
  · simp only [resume, hm, initLevels, initLevel, Option.bind_some, Nat.lt_irrefl, if_false, Option.map_some]
  · simp [setReferences, hv]
  · simp [setReferences, hv]

/-- **C101, violated**: quantities of the last accepted step that are neither stored nor recomputed before they are read are zero
after resuming: the interface velocity, from which the partition coefficient of the printed energy is computed. -/
theorem c101_violation_velocity (c : Config α) (hm : c.maxLevels = 1) (hv : c.withVelocity = true) (h1 : c.withConc = true)
    (h2 : c.withPartition = true) (hd : c.initialDiag = true) (s junk : ℕ → Fld → α) (k : Kernels α) (hp : c.prescribed = none) :
    ∃ r, resume c (write c s) junk = some r ∧ preRun c k true (r 0) .partition = k.partitionCoeff 0 (s 0 .temperature) := by
  refine ⟨fun ln => setReferences c (setTemperature c (if ln = 0 then allocate c (write c s) junk 0 else junk ln)), ?_, ?_⟩
  · simp only [resume, hm, initLevels, initLevel, Option.bind_some, Nat.lt_irrefl, if_false, Option.map_some]
  · simp [preRun, hd, evaluateEnergy, equilibriumRefs, setReferences, setTemperature, allocate, write, saved, cleared, h1, h2, hv, hp]

/-- The fields in the file: order parameters, temperature, orientation and composition as far as the run has them, and the compositions of the
phases if it has those. -/
def InFile (c : Config α) (f : Fld) : Prop :=
  (f = .phase ∧ c.withPhase = true) ∨ (f = .eta ∧ c.withThird = true) ∨ f = .temperature ∨ (f = .quat ∧ c.withOrient = true) ∨
  (c.withConc = true ∧ (f = .conc ∨ c.needsPhaseConc = true ∧ (f = .concL ∨ f = .concA ∨ f = .concB ∧ c.withPhaseB = true)))

omit [Zero α] in
/-- **C101**: what the file holds, exactly. -/
theorem c101_file (c : Config α) (s : ℕ → Fld → α) (ln : ℕ) (f : Fld) :
    (InFile c f → write c s ln f = some (s ln f)) ∧ (¬ InFile c f → write c s ln f = none) := by
  have key : saved c f = true ↔ InFile c f := by cases f <;> simp [saved, InFile, and_assoc]
  by_cases h : InFile c f
  · exact ⟨fun _ => by rw [write, if_pos (key.2 h)], fun h' => absurd h h'⟩
  · exact ⟨fun h' => absurd h' h, fun _ => by rw [write, if_neg (fun e => h (key.1 e))]⟩

/-- Fields that do not depend on the memory: those of the file, the references and phase compositions the input prescribes, a prescribed
temperature, the references of a CALPHAD run, the partition coefficient and the velocity. -/
def Determined (c : Config α) (f : Fld) : Prop :=
  InFile c f ∨ ((f = .concL ∨ f = .concLRef) ∧ c.concLRef.isSome = true) ∨ ((f = .concA ∨ f = .concARef) ∧ c.concARef.isSome = true) ∨
  ((f = .concB ∨ f = .concBRef) ∧ c.concBRef.isSome = true) ∨
  (c.withConc = true ∧ c.needsPhaseConc = true ∧ c.calphad = true ∧ (f = .concLRef ∨ f = .concARef ∨ f = .concBRef ∧ c.withPhaseB = true)) ∨
  (f = .partition ∧ c.withConc = true ∧ c.withPartition = true) ∨ (f = .velocity ∧ c.withVelocity = true)

/-- **C101**: exactly these fields of a resumed run do not depend on what the memory held. -/
theorem c101_memory_iff [Nontrivial α] (c : Config α) (hm : c.maxLevels = 1) (s : ℕ → Fld → α) (f : Fld) :
    (∀ junk junk' r r', resume c (write c s) junk = some r → resume c (write c s) junk' = some r' → r 0 f = r' 0 f) ↔ Determined c f := by
  have hres : ∀ junk, resume c (write c s) junk =
      some fun ln => setReferences c (setTemperature c (if ln = 0 then allocate c (write c s) junk 0 else junk ln)) := fun junk => by
    simp only [resume, hm, initLevels, initLevel, Option.bind_some, Nat.lt_irrefl, if_false, Option.map_some]
  obtain ⟨x, y, hxy⟩ := exists_pair_ne α
  have key : (∀ junk junk' : ℕ → Fld → α, setReferences c (setTemperature c (allocate c (write c s) junk 0)) f
      = setReferences c (setTemperature c (allocate c (write c s) junk' 0)) f) ↔ Determined c f := by
    have hal : ∀ junk : ℕ → Fld → α, ∀ g, allocate c (write c s) junk 0 g = if saved c g then s 0 g else if cleared c g then 0 else junk 0 g :=
      fun junk g => by
        unfold allocate write
        by_cases hg : saved c g = true <;> simp only [hg, if_true, if_false, Bool.false_eq_true]
    have hgiv : ∃ g : Option α, (∀ junk : ℕ → Fld → α, setReferences c (setTemperature c (allocate c (write c s) junk 0)) f
          = g.getD (allocate c (write c s) junk 0 f)) ∧ (Determined c f ↔ saved c f = true ∨ cleared c f = true ∨ g.isSome = true) := by
      cases f
      case temperature =>
        cases hp : c.prescribed with
        | none => exact ⟨none, fun _ => by simp [setReferences, setTemperature, hp], by simp [Determined, InFile, saved]⟩
        | some T => exact ⟨some (T 0), fun _ => by simp [setReferences, setTemperature, hp], by simp [Determined, InFile, saved]⟩
      case concL => exact ⟨c.concLRef, fun _ => by simp [setReferences, setTemperature], by simp [Determined, InFile, saved, cleared, and_assoc]⟩
      case concA => exact ⟨c.concARef, fun _ => by simp [setReferences, setTemperature], by simp [Determined, InFile, saved, cleared, and_assoc]⟩
      case concB => exact ⟨c.concBRef, fun _ => by simp [setReferences, setTemperature], by simp [Determined, InFile, saved, cleared, and_assoc]⟩
      case concLRef => exact ⟨c.concLRef, fun _ => by simp [setReferences, setTemperature], by simp [Determined, InFile, saved, cleared, and_assoc]; tauto⟩
      case concARef => exact ⟨c.concARef, fun _ => by simp [setReferences, setTemperature], by simp [Determined, InFile, saved, cleared, and_assoc]; tauto⟩
      case concBRef => exact ⟨c.concBRef, fun _ => by simp [setReferences, setTemperature], by simp [Determined, InFile, saved, cleared, and_assoc]; tauto⟩
      all_goals exact ⟨none, fun _ => by simp [setReferences, setTemperature], by simp [Determined, InFile, saved, cleared]⟩
    obtain ⟨g, hg, hdet⟩ := hgiv
    rw [hdet]
    simp only [hg, hal]
    constructor
    · intro h
      have h := h (fun _ _ => x) (fun _ _ => y)
      by_contra hd
      push Not at hd
      obtain ⟨h1, h2, h3⟩ := hd
      simp only [h1, h2, if_false, Bool.false_eq_true] at h
      cases g with
      | none => exact hxy h
      | some v => simp at h3
    · rintro (h | h | h) junk junk'
      · simp only [h, if_true]
      · simp only [h, if_true]
      · obtain ⟨v, rfl⟩ := Option.isSome_iff_exists.1 h
        rfl
  rw [← key]
  constructor
  · intro h junk junk'
    simpa using h junk junk' _ _ (hres junk) (hres junk')
  · intro h junk junk' r r' hr hr'
    rw [hres] at hr hr'
    obtain rfl := Option.some.inj hr
    obtain rfl := Option.some.inj hr'
    simpa using h junk junk'

/-- **C101**: on a finer level, were it initialised, the compositions of the phases would be those of the file, and the work copy of the
orientation interpolated in a run that evolves orientations and left as it was in memory otherwise. -/
theorem c101_violation_fine_rest (c : Config α) (r : Fld → α → α) (s junk : ℕ → Fld → α) :
    ∃ t, initLevels c (some r) (write c s) junk 2 = some t ∧
      (c.withConc = true → c.needsPhaseConc = true → t 1 .concL = s 1 .concL ∧ t 1 .concA = s 1 .concA) ∧
      (c.withOrient = true → c.evolveQuat = true → t 1 .quatRelax = r .quatRelax (junk 0 .quatRelax)) ∧
      (c.withOrient = false ∨ c.evolveQuat = false → t 1 .quatRelax = junk 1 .quatRelax) := by
  refine ⟨fun k => if k = 1 then (fun f => if regridded c f then r f (allocate c (write c s) junk 0 f)
      else allocate c (write c s) junk 1 f) else if k = 0 then allocate c (write c s) junk 0 else junk k, ?_, ?_, ?_, ?_⟩
  · simp [initLevels, initLevel]
  · intro h1 h2
    simp [regridded, allocate, write, saved, h1, h2]
  · intro h1 h2
    simp [regridded, allocate, write, saved, cleared, h1, h2]
  · rintro (h | h) <;> simp [regridded, allocate, write, saved, cleared, h]

omit [Zero α] in
/-- **C101**: what the diagnostics before the first step change in a resumed run: with composition only, the partition coefficient and the
compositions of the phases in use. -/
theorem c101_diagnostics_change (c : Config α) (k : Kernels α) (s : Fld → α) (f : Fld) (h : preRun c k true s f ≠ s f) :
    c.initialDiag = true ∧ c.withConc = true ∧ ((f = .partition ∧ c.withPartition = true) ∨
      (c.needsPhaseConc = true ∧ (f = .concL ∨ f = .concA ∨ f = .concB ∧ c.withPhaseB = true))) := by
  have e : equilibriumRefs c k true s = s := by funext g; simp [equilibriumRefs]
  unfold preRun at h
  rw [e] at h
  by_cases hi : c.initialDiag = true
  · rw [if_pos hi] at h
    refine ⟨hi, ?_⟩
    cases f <;> simp only [evaluateEnergy] at h <;> simp_all
  · rw [if_neg hi] at h
    exact absurd rfl h

omit [Zero α] in
/-- **C101**: the first step changes nothing but the references, and those only in a CALPHAD run with composition. -/
theorem c101_step_change (c : Config α) (s : Fld → α) (f : Fld) (h : startStep c s f ≠ s f) :
    c.withConc = true ∧ c.calphad = true ∧ (f = .concLRef ∨ f = .concARef ∨ f = .concBRef ∧ c.withPhaseB = true) := by
  unfold startStep at h
  by_cases hi : (c.withConc && c.calphad) = true
  · rw [if_pos hi] at h
    have := (Bool.and_eq_true_iff).1 hi
    refine ⟨this.1, this.2, ?_⟩
    cases f <;> simp_all
  · rw [if_neg hi] at h
    exact absurd rfl h

/-! ## Grains -/

/-- A drop in the number of grains between two successive steps, or a step on the schedule. -/
def Due : ℤ → List (ℤ × Bool) → List Prop
  | _, [] => []
  | old, x :: xs => (x.1 < old ∨ x.2 = true) :: Due x.1 xs

/-- **C101**: orientations are reset exactly at the steps where the number of grains has dropped or the schedule says so, counted
from the number known at the step before. -/
theorem c101_grain_decisions (old : ℤ) (xs : List (ℤ × Bool)) :
    (resetDecisions old xs).map (fun b => b = true) = Due old xs := by
  induction xs generalizing old with
  | nil => rfl
  | cons x xs ih => simp [resetDecisions, resetDecision, Due, ih]

/-- **C101, violated**: the first step of a new run always resets the orientations; the first step of a resumed run does so only on
the schedule.  Hence a drop from the number of the file to that of the next step goes unnoticed. -/
theorem c101_violation_grains (stored n : ℤ) (hn : n < stored) (h0 : 0 ≤ n) (hs : stored ≤ intMax) (xs : List (ℤ × Bool)) :
    resetDecisions stored ((n, false) :: xs) = true :: resetDecisions n xs ∧
    resetDecisions (grainCount0 false) ((n, false) :: xs) = true :: resetDecisions n xs ∧
    resetDecisions (grainCount0 true) ((n, false) :: xs) = false :: resetDecisions n xs := by
  have h1 : n < intMax := lt_of_lt_of_le hn hs
  have h2 : ¬ n < -1 := by omega
  refine ⟨?_, ?_, ?_⟩
  · simp [resetDecisions, resetDecision, hn]
  · simp [resetDecisions, resetDecision, grainCount0, h1]
  · simp [resetDecisions, resetDecision, grainCount0, h2]

/-- **C101 (grains)**: if the number did not drop across the restart, all decisions are those of the uninterrupted run. -/
theorem c101_grains_partial (stored n : ℤ) (b : Bool) (hn : stored ≤ n) (h0 : 0 ≤ n) (xs : List (ℤ × Bool)) :
    resetDecisions (grainCount0 true) ((n, b) :: xs) = resetDecisions stored ((n, b) :: xs) := by
  have h2 : ¬ n < -1 := by omega
  have h3 : ¬ n < stored := by omega
  simp [resetDecisions, resetDecision, grainCount0, h2, h3]

/-! ## Mesh refinement -/

/-- **C101, violated**: the refinement switch of the input is ignored when resuming: the value of the file wins, and a file written
with refinement cannot be resumed with an input without an `Amr` block. -/
theorem c101_violation_amr (b : Bool) (input : Option Bool) :
    amrEnabled input (some (some b)) = b ∧ setupAmr none (some (some true)) = none ∧
    setupAmr (some false) (some (some true)) = some true ∧ setupAmr (some true) (some (some false)) = some false := by
  refine ⟨rfl, rfl, rfl, rfl⟩

/-- **C101, violated**: a restart file without the switch (written by an earlier version) turns refinement on, whatever the input says; without
an `Amr` block such a file cannot be resumed. -/
theorem c101_violation_amr_default (input : Option Bool) :
    amrEnabled input (some none) = true ∧ setupAmr none (some none) = none ∧ setupAmr (some false) (some none) = some true := by
  refine ⟨rfl, rfl, rfl⟩

/-- **C101 (refinement)**: the same input as in the run that wrote the file sets up the same mesh. -/
theorem c101_same_amr_partial (input : Option Bool) :
    setupAmr input (some (some (amrEnabled input none))) = setupAmr input none ∧ (setupAmr input none).isSome = true := by
  rcases input with _ | _ | _ <;> exact ⟨rfl, rfl⟩

/-! ## Non-vacuity -/

/-- A CALPHAD alloy on one level with a ramped temperature. -/
def sample : Config ℝ :=
  ⟨true, false, false, false, true, true, true, true, false, false, some (fun t => 1000 - t), none, none, none, 1, true, true⟩

example : ∃ r, resume sample (write sample fun _ _ => 7) (fun _ _ => 9) = some r ∧ r 0 .phase = 7 ∧ r 0 .concL = 7 ∧
    r 0 .concLRef = 0 ∧ r 0 .temperature = 1000 := by
  refine ⟨_, rfl, ?_, ?_, ?_, ?_⟩ <;>
    norm_num [setReferences, setTemperature, allocate, write, saved, cleared, sample]

example : Evolved sample .phase ∧ Carried sample .concA ∧ ¬ Evolved sample .temperature := by
  simp [Evolved, Carried, sample]

example : (resume { sample with maxLevels := 3 } (write sample fun _ _ => 7) fun _ _ => 9) = none :=
  c101_violation_levels _ (by norm_num [sample]) _ _

example : resetDecisions (grainCount0 true) [(-1, false), (8, false), (7, false), (7, true)] = [false, false, true, true] := by
  decide

end AMPE.Restart.Props
