import Verif.Model.CalphadFile

/-!
# C162: a thermodynamic database may be given in either syntax
-/

namespace AMPE.CalphadFile.Props

open AMPE.CalphadFile
open AMPE.InputEcho (DB Forest copyTree)

/-! ## Specification -/

/-- A name that stands for JSON: it ends with these letters. -/
def Json (name : List Char) : Prop := ∃ s, name = s ++ ['j', 's', 'o', 'n']

/-- Runs that need the database in input syntax. -/
def NeedsInput (o : Options) : Prop := (o.ebs = true ∧ o.ctd = true) ∨ o.aziz = true ∨ (o.scalarMobility = false ∧ o.ternary = true)

/-- Combination that is refused for any file. -/
def Refused (o : Options) : Prop := o.scalarMobility = false ∧ o.ctd = true

/-- The section `NewtonSolver`, optional elsewhere, is missing. -/
def Crashes (o : Options) : Prop := o.aziz = true ∧ o.newton = false

/-! ## Lemmas -/

theorem json_iff (name : List Char) : namedJson name = some true ↔ Json name := by
  unfold namedJson Json
  constructor
  · intro h
    split at h
    · exact absurd h (by simp)
    · refine ⟨name.take (name.length - 4), ?_⟩
      have : name.drop (name.length - 4) = ['j', 's', 'o', 'n'] := by simpa using h
      rw [← this, List.take_append_drop]
  · rintro ⟨s, rfl⟩
    simp

theorem input_iff (name : List Char) : namedJson name = some false ↔ 4 ≤ name.length ∧ ¬ Json name := by
  have := json_iff name
  by_cases h : name.length < 4
  · simp [namedJson, h]
  · rcases hj : namedJson name with _ | b
    · simp [namedJson, h] at hj
    · cases b <;> simp_all

theorem mapM_const {α β : Type} (f : α → Option β) (b : β) (l : List α) (h : ∀ a ∈ l, f a = some b) : l.mapM f = some (l.map fun _ => b) := by
  induction l with
  | nil => simp
  | cons a l ih => simp [List.mapM_cons, h a (by simp), ih fun c hc => h c (List.mem_cons_of_mem _ hc)]

theorem mapM_none {α β : Type} (f : α → Option β) (l : List α) (a : α) (ha : a ∈ l) (h : f a = none) : l.mapM f = none := by
  induction l with
  | nil => simp at ha
  | cons b l ih =>
    rw [List.mapM_cons]
    rcases List.mem_cons.1 ha with rfl | h'
    · simp [h]
    · rw [ih h']
      cases f b <;> rfl

theorem reads_input (o : Options) : false ∈ readers o ↔ NeedsInput o := by
  obtain ⟨a, b, c, d, e, f, g⟩ := o
  unfold readers NeedsInput
  cases a <;> cases b <;> cases c <;> cases d <;> cases e <;> cases f <;> simp

theorem reads_some (o : Options) : true ∈ readers o := by simp [readers]

theorem refused_iff (o : Options) : ((!o.scalarMobility && o.ctd) || (o.aziz && !o.newton)) = true ↔ Refused o ∨ Crashes o := by
  unfold Refused Crashes
  cases o.scalarMobility <;> cases o.aziz <;> simp

/-! ## Theorems -/

/-- **C162**: with a file in input syntax every run starts that is not refused for other reasons and does not crash, and all its parts get the same tree. -/
theorem c162_input (o : Options) (ho : ¬ Refused o) (hc : ¬ Crashes o) (name : List Char) (h4 : 4 ≤ name.length) (hn : ¬ Json name) (d : DB) :
    start o name (.input d) = some ((readers o).map fun _ => copyTree d .nil) := by
  have e := (input_iff name).2 ⟨h4, hn⟩
  unfold start
  rw [if_neg (by rw [refused_iff]; exact fun h => h.elim ho hc), mapM_const _ (copyTree d .nil)]
  · simp [e, parse]
  · intro b _
    cases b <;> simp [readEither, readInput, e, parse]

/-- **C162** (partial): the same database converted to JSON gives the same run, unless one of its parts needs input syntax.  Missing: those
runs, see below. -/
theorem c162_json_partial (o : Options) (ho : ¬ Refused o) (hi : ¬ NeedsInput o) (name name' : List Char) (h4 : 4 ≤ name.length) (hn : ¬ Json name)
    (hj : Json name') (d : DB) : start o name' (converted d) = start o name (.input d) := by
  rw [c162_input o ho (by rintro ⟨h, -⟩; exact hi (Or.inr (Or.inl h))) name h4 hn]
  have e := (json_iff name').2 hj
  unfold start
  rw [if_neg (by rw [refused_iff]; exact fun h => h.elim ho fun h => hi (Or.inr (Or.inl h.1))), mapM_const _ (copyTree d .nil)]
  · simp [e]
  · intro b hb
    cases b
    · exact absurd ((reads_input o).1 hb) hi
    · simp [readEither, e, converted, readJson]

/-- **C162, violated**: runs with composition dependent diffusion, with Aziz partitioning, or of ternary alloys with Kim's mobility do not start from any
JSON file. -/
theorem c162_violation_json (o : Options) (hi : NeedsInput o) (name : List Char) (f : Forest) : start o name (.json f) = none := by
  unfold start
  split
  · rfl
  · rw [mapM_none _ _ false ((reads_input o).2 hi) (by simp [readInput, parse])]
    rfl

/-- **C162, violated**: a file with a name of less than four letters cannot be used at all. -/
theorem c162_violation_short (o : Options) (name : List Char) (h : name.length < 4) (c : Content) : start o name c = none := by
  unfold start
  split
  · rfl
  · rw [mapM_none _ _ true (reads_some o) (by simp [readEither, namedJson, h])]
    rfl

/-- **C162, violated**: what a file is taken for depends only on the last four letters of its name: a file in input syntax called `oldjson`, and
a JSON file called `al.JSON`, cannot be used. -/
theorem c162_violation_name (o : Options) (name : List Char) (d : DB) (f : Forest) :
    (Json name → start o name (.input d) = none) ∧ (¬ Json name → start o name (.json f) = none) := by
  constructor
  · intro h
    have e := (json_iff name).2 h
    unfold start
    split
    · rfl
    · rw [mapM_none _ _ true (reads_some o) (by simp [readEither, e, readJson])]
      rfl
  · intro h
    by_cases h4 : name.length < 4
    · exact c162_violation_short o name h4 _
    · have e := (input_iff name).2 ⟨by omega, h⟩
      unfold start
      split
      · rfl
      · rw [mapM_none _ _ true (reads_some o) (by simp [readEither, e, parse])]
        rfl

/-- **C162, violated**: a run with Aziz partitioning and no section `NewtonSolver` crashes whatever the file. -/
theorem c162_violation_newton (o : Options) (hc : Crashes o) (name : List Char) (c : Content) : start o name c = none := by
  unfold start
  rw [if_pos ((refused_iff o).2 (Or.inr hc))]

/-! ## Examples -/

/-- A binary alloy with a given mobility. -/
example : ¬ Refused ⟨false, false, true, false, false, true, false⟩ ∧ ¬ NeedsInput ⟨false, false, true, false, false, true, false⟩ := by
  simp [Refused, NeedsInput]

/-- The same with Aziz partitioning. -/
example : NeedsInput ⟨false, false, true, false, true, true, true⟩ := by simp [NeedsInput]

/-- Aziz partitioning with a file in input syntax. -/
example : ¬ Refused ⟨false, false, true, false, true, true, true⟩ ∧ ¬ Crashes ⟨false, false, true, false, true, true, true⟩ := by
  simp [Refused, Crashes]

example : Json "calphad3phases.json".toList := ⟨"calphad3phases.".toList, by decide⟩

example : ¬ Json "al.dat".toList := by
  rintro ⟨s, h⟩
  have := congrArg List.getLast? h
  simp at this

end AMPE.CalphadFile.Props
