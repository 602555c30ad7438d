import Verif.Model.Options
import Verif.Props.PhaseFlow
import Mathlib.Analysis.Complex.ExponentialBounds

/-!
# C117: an option of the input means one thing to the whole run

Every accepted value is known to the routines it is handed to, every routine that depends on an option uses the value given, and
no setting is silently ignored.  Parts of this are false; the negations are proved beside what holds.
-/

namespace AMPE.Options.Props

open AMPE.Functions AMPE.Flux AMPE.PhaseRHS AMPE.Options AMPE.Quat AMPE.OrientSolve

/-! ## Which letters the evaluators know -/

/-- Specification: letters a routine evaluates for every argument. -/
def Known (f : Char → ℝ → Option ℝ) (c : Char) : Prop := ∀ x, (f c x).isSome

/-- Specification: letters for which a routine stops the program, whatever the argument. -/
def Stops (f : Char → ℝ → Option ℝ) (c : Char) : Prop := ∀ x, f c x = none

def interpLetters : List Char := ['q', 'p', 'h', 'w', 'l', 'm', '3', 's', 'c']

/-- **C117** (the interpolation routines): each letter is either evaluated everywhere, by function and derivative alike, or stops the
program everywhere. -/
theorem c117_interp_letters (c : Char) :
    (c ∈ interpLetters → Known interpFunc c ∧ Known derivInterpFunc c) ∧
    (c ∉ interpLetters → Stops interpFunc c ∧ Stops derivInterpFunc c) := by
  constructor
  · intro h
    simp only [interpLetters, List.mem_cons, List.not_mem_nil, or_false] at h
    rcases h with rfl | rfl | rfl | rfl | rfl | rfl | rfl | rfl | rfl <;>
      refine ⟨fun x => ?_, fun x => ?_⟩ <;> simp [interpFunc, derivInterpFunc] <;> split_ifs <;> rfl
  · intro h
    simp only [interpLetters, List.mem_cons, List.not_mem_nil, or_false, not_or] at h
    obtain ⟨a, b, d, e, f, g, i, j, k⟩ := h
    exact ⟨fun x => by simp [interpFunc, a, b, d, e, f, g, i, j, k], fun x => by simp [derivInterpFunc, a, b, d, e, f, g, i, j, k]⟩

/-- **C117** (the floor of the gradient). -/
theorem c117_floor_letters (c : Char) :
    (c ∈ ['m', 't', 's'] → ∀ g f m, (evalGradNormi c g f m).isSome) ∧
    (c ∉ ['m', 't', 's'] → ∀ g f m, evalGradNormi c g f m = none) := by
  constructor
  · intro h g f m
    simp only [List.mem_cons, List.not_mem_nil, or_false] at h
    rcases h with rfl | rfl | rfl <;> simp [evalGradNormi] <;> split_ifs <;> rfl
  · intro h g f m
    simp only [List.mem_cons, List.not_mem_nil, or_false, not_or] at h
    simp [evalGradNormi, h.1, h.2.1, h.2.2]

/-! ## Accepted options are known -/

theorem well_accepted {db : DB} {w : String} (h : readWell db = some w) : first w = 's' ∨ first w = 'd' := by
  unfold readWell at h
  generalize (match db.str "phi_well_func_type" with | some v => v | none => _) = t at h
  simp only at h
  split_ifs at h with hc
  obtain rfl := Option.some.inj h
  by_contra hn
  exact hc (not_or.1 hn)

/-- **C117** (well): an accepted well is known to energy, rate and preconditioner. -/
theorem c117_well_known (db : DB) (w : String) (h : readWell db = some w) (x : ℝ) :
    (wellFunc (first w) x).isSome ∧ (derivWellFunc (first w) x).isSome ∧ (secondDerivWellFunc (first w) x).isSome := by
  rcases well_accepted h with e | e <;> rw [e] <;> simp [wellFunc, derivWellFunc, secondDerivWellFunc]

theorem avg_accepted {db : DB} {a : String} (h : readAvg db = some a) : first a = 'a' ∨ first a = 'h' := by
  unfold readAvg at h
  generalize (db.str "avg_func_type").getD "harmonic" = t at h
  simp only at h
  split_ifs at h with hc
  obtain rfl := Option.some.inj h
  by_contra hn
  exact hc (not_or.1 hn)

theorem diffq_accepted {db : DB} {a : String} (h : readDiffqAvg db = some a) : first a = 'a' ∨ first a = 'h' := by
  unfold readDiffqAvg at h
  obtain ⟨b, hb, h⟩ := Option.bind_eq_some_iff.1 h
  generalize (db.str "diffq_avg_func_type").getD b = t at h
  simp only at h
  split_ifs at h with hc
  obtain rfl := Option.some.inj h
  by_contra hn
  exact hc (not_or.1 hn)

/-- **C117** (averages): both averages are known to the face routines and their derivatives. -/
theorem c117_average_known (db : DB) (a : String) (h : readAvg db = some a ∨ readDiffqAvg db = some a) (x y : ℝ) :
    (averageFunc (first a) x y).isSome ∧ (derivAverageFunc (first a) x y).isSome := by
  have : first a = 'a' ∨ first a = 'h' := h.elim avg_accepted diffq_accepted
  rcases this with e | e <;> rw [e] <;> constructor <;> simp [averageFunc, derivAverageFunc] <;> split_ifs <;> rfl

/-- **C117** (interpolations): the letters of accepted phase and composition interpolations are known, with their first and second
derivatives. -/
theorem c117_interp_known (db : DB) (t : Interp) (h : readEnergy db = some t ∨ readConc db = some t) (c : Char)
    (hc : t.char = some c) : Known interpFunc c ∧ Known derivInterpFunc c ∧ Known secondDerivInterpFunc c := by
  clear h
  cases t <;> simp only [Interp.char, Option.some.injEq, reduceCtorEq] at hc <;> subst hc
  all_goals
    refine ⟨((c117_interp_letters _).1 (by decide)).1, ((c117_interp_letters _).1 (by decide)).2, fun x => ?_⟩
    simp [secondDerivInterpFunc]

/-- **C117** (interpolations): an accepted composition interpolation always has a letter; a phase interpolation has one exactly when the
text does not begin with `u`. -/
theorem c117_interp_has_letter (db : DB) :
    (∀ t, readConc db = some t → ∃ c, t.char = some c) ∧
    (∀ t, readEnergy db = some t → ((∃ c, t.char = some c) ↔ first (energyText db) ≠ 'u' ∧ first (energyText db) ≠ 'U')) := by
  constructor
  · intro t h
    unfold readConc at h
    split at h <;> cases h <;> exact ⟨_, rfl⟩
  · intro t h
    unfold readEnergy at h
    split at h <;> rename_i e <;> cases h <;> rw [e] <;> simp [Interp.char]

/-- **C117** (diffusion, violated): the biased interpolation is accepted, and stops the program whatever the phase. Every other accepted
letter is known. -/
theorem c117_violation_biased (db : DB) (v : String) (hv : first v = 'b') :
    ∃ c, readDiffusion (db.setStr "diffusion_interp_func_type" v) = some c ∧ Stops interpFunc c := by
  refine ⟨'b', ?_, ((c117_interp_letters 'b').2 (by decide)).1⟩
  simp [readDiffusion, DB.setStr, hv]

theorem c117_diffusion_known_partial (db : DB) (c : Char) (h : readDiffusion db = some c) (hb : c ≠ 'b') : Known interpFunc c := by
  unfold readDiffusion at h
  split at h <;> cases h <;> first
    | exact absurd rfl hb
    | exact ((c117_interp_letters 'l').1 (by decide)).1
    | exact ((c117_interp_letters 'p').1 (by decide)).1

/-! ## Orientation -/

theorem orient_parts {db : DB} {o : Orient} (h : readOrientation db = some o) :
    readMobility db = some o.mobility ∧ readEpsilon db = some o.epsQ ∧ first (interp1Text db) ∈ interp1Letters ∧
    (first (kindText db) = 'p' ∨ first (kindText db) = 'i' ∨ first (kindText db) = 'e') ∧
    o.minMobility = newOrOld db "min_orient_mobility" "min_quat_mobility" 1e-6 ∧
    o.floor = newOrOld db "orient_grad_floor" "quat_grad_floor" 1e-2 ∧
    o.floorType = (db.str "orient_grad_floor_type").getD "max" ∧
    (o.modulusCells = true ↔ (db.str "quat_grad_modulus_type").getD "cells" = "cells") ∧
    o.interp1 = interp1Text db ∧ o.interp2 = (db.str "orient_interp_func_type2").getD "constant" ∧ o.mobilityKind = kindText db ∧
    o.maxMobility = (if first (kindText db) = 'i' then some (newOrOld db "max_orient_mobility" "max_quat_mobility" 1e6) else none) ∧
    o.expScale = (if first (kindText db) = 'e' then some (newOrOld db "exp_scale_orient_mobility" "exp_scale_quat_mobility" 1e6)
      else none) := by
  unfold readOrientation at h
  obtain ⟨m, hm, h⟩ := Option.bind_eq_some_iff.1 h
  obtain ⟨e, he, h⟩ := Option.bind_eq_some_iff.1 h
  simp only at h
  by_cases h1 : first (interp1Text db) ∈ interp1Letters
  swap
  · rw [if_pos h1] at h; cases h
  rw [if_neg (not_not.2 h1)] at h
  by_cases h2 : first (kindText db) ≠ 'p' ∧ first (kindText db) ≠ 'i' ∧ first (kindText db) ≠ 'e'
  · rw [if_pos h2] at h; cases h
  rw [if_neg h2] at h
  obtain rfl := Option.some.inj h
  refine ⟨hm, he, h1, ?_, rfl, rfl, rfl, by simp, rfl, rfl, rfl, rfl, rfl⟩
  by_contra hn
  exact h2 ⟨fun a => hn (.inl a), fun a => hn (.inr (.inl a)), fun a => hn (.inr (.inr a))⟩

/-- **C117** (orientation, partial): accepted settings are known to the evaluators provided the first interpolation does not begin
with `t` and the second interpolation and the floor begin with known letters — neither of which the program checks. -/
theorem c117_orientation_known_partial (db : DB) (o : Orient) (h : readOrientation db = some o) (ht : first o.interp1 ≠ 't')
    (h2 : first o.interp2 ∈ interpLetters) (hf : first o.floorType ∈ ['m', 't', 's']) :
    Known interpFunc (first o.interp1) ∧ Known derivInterpFunc (first o.interp1) ∧ Known interpFunc (first o.interp2) ∧
    Known derivInterpFunc (first o.interp2) ∧ ∀ g f m, (evalGradNormi (first o.floorType) g f m).isSome := by
  obtain ⟨-, -, hl, -, -, -, -, -, e1, -⟩ := orient_parts h
  rw [← e1] at hl
  have : first o.interp1 ∈ interpLetters := by
    revert hl ht
    generalize first o.interp1 = c
    intro ht hl
    simp only [interp1Letters, interpLetters, List.mem_cons, List.not_mem_nil, or_false] at hl ⊢
    tauto
  exact ⟨((c117_interp_letters _).1 this).1, ((c117_interp_letters _).1 this).2, ((c117_interp_letters _).1 h2).1,
    ((c117_interp_letters _).1 h2).2, (c117_floor_letters _).1 hf⟩

/-- **C117** (orientation mobility): the kind is known, and the extra factor is set whenever the routine looks at it. -/
theorem c117_mobility_known (db : DB) (o : Orient) (h : readOrientation db = some o) :
    (∀ phase, ∃ m, ∀ alt, (∀ s, o.scaleFactor = some s → alt = s) →
      quatMobility (first o.mobilityKind) o.mobility o.minMobility alt phase = some m) ∧
    (∀ phase, ∃ m, ∀ alt, (∀ s, o.scaleFactor = some s → alt = s) →
      quatMobilityDeriv (first o.mobilityKind) o.mobility o.minMobility alt phase = some m) := by
  obtain ⟨-, -, -, hk, -, -, -, -, -, -, ek, em, ee⟩ := orient_parts h
  rw [← ek] at hk em ee
  rcases hk with k | k | k
  · constructor <;> intro phase <;> rw [k] <;> simp [quatMobility, quatMobilityDeriv, qfunc, dqfunc] <;>
      exact ⟨_, fun _ _ => rfl⟩
  · have : o.scaleFactor = o.maxMobility := by simp [Orient.scaleFactor, k]
    rw [em, if_pos k] at this
    constructor <;> intro phase <;> rw [k, this] <;> simp [quatMobility, quatMobilityDeriv, qfunc, dqfunc]
  · have : o.scaleFactor = o.expScale := by simp [Orient.scaleFactor, k]
    rw [ee, if_pos k] at this
    constructor <;> intro phase <;> rw [k, this] <;> simp [quatMobility, quatMobilityDeriv, qfunc, dqfunc]

/-! ### Violations -/

theorem set_str (db : DB) (k v k' : String) : (db.setStr k v).str k' = if k' = k then some v else db.str k' := rfl

/-- Reading is unaffected by an entry that no part of it looks up. -/
theorem read_congr {db db' : DB} (hm : readMobility db' = readMobility db) (he : readEpsilon db' = readEpsilon db)
    (hn : db'.num = db.num) (h1 : interp1Text db' = interp1Text db) (hk : kindText db' = kindText db)
    (hf : db'.str "orient_grad_floor_type" = db.str "orient_grad_floor_type")
    (hq : db'.str "quat_grad_modulus_type" = db.str "quat_grad_modulus_type")
    (h2 : db'.str "orient_interp_func_type2" = db.str "orient_interp_func_type2") : readOrientation db' = readOrientation db := by
  simp only [readOrientation, hm, he, h1, hk, hf, hq, h2, newOrOld, hn]

theorem setStr_mobility (db : DB) (k v : String) : readMobility (db.setStr k v) = readMobility db := rfl
theorem setStr_epsilon (db : DB) (k v : String) : readEpsilon (db.setStr k v) = readEpsilon db := rfl

/-- Reading after a change of one text. -/
theorem read_some {db : DB} {m e : ℝ} (hm : readMobility db = some m) (he : readEpsilon db = some e)
    (h1 : first (interp1Text db) ∈ interp1Letters)
    (hk : first (kindText db) = 'p' ∨ first (kindText db) = 'i' ∨ first (kindText db) = 'e') :
    ∃ o, readOrientation db = some o := by
  have : ¬(first (kindText db) ≠ 'p' ∧ first (kindText db) ≠ 'i' ∧ first (kindText db) ≠ 'e') := by
    rintro ⟨a, b, c⟩
    rcases hk with h | h | h <;> contradiction
  simp only [readOrientation, hm, he, Option.bind_eq_bind, Option.bind_some, if_neg (not_not.2 h1), if_neg this]
  exact ⟨_, rfl⟩

/-- **C117** (violated): `tanh…` is accepted for the first orientation interpolation in every input that is otherwise accepted; the first
evaluation stops the program. -/
theorem c117_violation_tanh_interp (db : DB) (o : Orient) (h : readOrientation db = some o) (v : String) (hv : first v = 't') :
    ∃ o', readOrientation (db.setStr "diff_interp_func_type" v) = some o' ∧ Stops interpFunc (first o'.interp1) ∧
      Stops derivInterpFunc (first o'.interp1) := by
  obtain ⟨hm, he, -, hk, -⟩ := orient_parts h
  have e1 : interp1Text (db.setStr "diff_interp_func_type" v) = v := by simp [interp1Text, set_str]
  obtain ⟨o', h'⟩ := read_some (db := db.setStr "diff_interp_func_type" v) hm he (by rw [e1, hv]; decide)
    (by rw [show kindText (db.setStr "diff_interp_func_type" v) = kindText db by simp [kindText, set_str]]; exact hk)
  obtain ⟨-, -, -, -, -, -, -, -, e, -⟩ := orient_parts h'
  refine ⟨o', h', ?_⟩
  rw [e, e1, hv]
  exact (c117_interp_letters 't').2 (by decide)

/-- **C117** (violated): any text is accepted for the second interpolation and for the floor; a text beginning with another letter stops
the program at the first evaluation. -/
theorem c117_violation_unchecked (db : DB) (o : Orient) (h : readOrientation db = some o) (v : String) :
    (first v ∉ interpLetters → ∃ o', readOrientation (db.setStr "orient_interp_func_type2" v) = some o' ∧
      Stops interpFunc (first o'.interp2) ∧ Stops derivInterpFunc (first o'.interp2)) ∧
    (first v ∉ ['m', 't', 's'] → ∃ o', readOrientation (db.setStr "orient_grad_floor_type" v) = some o' ∧
      ∀ g f m, evalGradNormi (first o'.floorType) g f m = none) ∧
    (v ≠ "cells" → ∃ o', readOrientation (db.setStr "quat_grad_modulus_type" v) = some o' ∧ o'.modulusCells = false) := by
  obtain ⟨hm, he, h1, hk, -⟩ := orient_parts h
  refine ⟨fun hv => ?_, fun hv => ?_, fun hv => ?_⟩
  · obtain ⟨o', h'⟩ := read_some (db := db.setStr "orient_interp_func_type2" v) hm he
      (by simpa [interp1Text, set_str] using h1) (by simpa [kindText, set_str] using hk)
    obtain ⟨-, -, -, -, -, -, -, -, -, e, -⟩ := orient_parts h'
    refine ⟨o', h', ?_⟩
    rw [e]
    simp only [set_str, if_true, Option.getD_some]
    exact (c117_interp_letters _).2 hv
  · obtain ⟨o', h'⟩ := read_some (db := db.setStr "orient_grad_floor_type" v) hm he
      (by simpa [interp1Text, set_str] using h1) (by simpa [kindText, set_str] using hk)
    obtain ⟨-, -, -, -, -, -, e, -⟩ := orient_parts h'
    refine ⟨o', h', ?_⟩
    rw [e]
    simp only [set_str, if_true, Option.getD_some]
    exact (c117_floor_letters _).2 hv
  · obtain ⟨o', h'⟩ := read_some (db := db.setStr "quat_grad_modulus_type" v) hm he
      (by simpa [interp1Text, set_str] using h1) (by simpa [kindText, set_str] using hk)
    obtain ⟨-, -, -, -, -, -, -, e, -⟩ := orient_parts h'
    refine ⟨o', h', ?_⟩
    simp only [set_str, if_true, Option.getD_some] at e
    cases hc : o'.modulusCells with
    | false => rfl
    | true => exact absurd (e.1 hc) hv

/-- **C117** (violated): `h…` and `m…` are refused for the first orientation interpolation although function and derivative know them. -/
theorem c117_violation_refused (db : DB) (v : String) (hv : first v = 'h' ∨ first v = 'm') :
    readOrientation (db.setStr "diff_interp_func_type" v) = none ∧ Known interpFunc (first v) ∧ Known derivInterpFunc (first v) := by
  refine ⟨?_, (c117_interp_letters _).1 (by rcases hv with e | e <;> rw [e] <;> decide)⟩
  rcases hr : readOrientation (db.setStr "diff_interp_func_type" v) with _ | o
  · rfl
  · obtain ⟨-, -, h1, -⟩ := orient_parts hr
    have e1 : interp1Text (db.setStr "diff_interp_func_type" v) = v := by simp [interp1Text, set_str]
    rw [e1] at h1
    rcases hv with e | e <;> rw [e] at h1 <;> exact absurd h1 (by decide)

/-! ## Settings take effect -/

/-- **C117** (numbers): a number given under its present name is the one used, whatever else the input contains. -/
theorem c117_number_used (db : DB) (x : ℝ) (o : Orient) :
    (readOrientation (db.setNum "orient_mobility" x) = some o → o.mobility = x) ∧
    (readOrientation (db.setNum "min_orient_mobility" x) = some o → o.minMobility = x) ∧
    (readOrientation (db.setNum "epsilon_orient" x) = some o → o.epsQ = x) ∧
    (readOrientation (db.setNum "orient_grad_floor" x) = some o → o.floor = x) ∧
    (readOrientation (db.setNum "max_orient_mobility" x) = some o → first o.mobilityKind = 'i' → o.scaleFactor = some x) ∧
    (readOrientation (db.setNum "exp_scale_orient_mobility" x) = some o → first o.mobilityKind = 'e' → o.scaleFactor = some x) := by
  refine ⟨fun h => ?_, fun h => ?_, fun h => ?_, fun h => ?_, fun h hk => ?_, fun h hk => ?_⟩
  · obtain ⟨e, -⟩ := orient_parts h
    simp only [readMobility, DB.setNum, if_true, Option.some.injEq] at e
    exact e.symm
  · obtain ⟨-, -, -, -, e, -⟩ := orient_parts h
    simpa [newOrOld, DB.setNum] using e
  · obtain ⟨-, e, -⟩ := orient_parts h
    simp only [readEpsilon, DB.setNum, if_true, Option.some.injEq] at e
    exact e.symm
  · obtain ⟨-, -, -, -, -, e, -⟩ := orient_parts h
    simpa [newOrOld, DB.setNum] using e
  · obtain ⟨-, -, -, -, -, -, -, -, -, -, ek, em, -⟩ := orient_parts h
    rw [← ek, if_pos hk] at em
    simp [Orient.scaleFactor, hk, em, newOrOld, DB.setNum]
  · obtain ⟨-, -, -, -, -, -, -, -, -, -, ek, -, ee⟩ := orient_parts h
    rw [← ek, if_pos hk] at ee
    simp [Orient.scaleFactor, hk, ee, newOrOld, DB.setNum]

/-- **C117** (numbers): with an old name and without the newer ones, the number under the old name is used. -/
theorem c117_old_number_used (db : DB) (x : ℝ) (o : Orient) :
    (db.num "orient_mobility" = none → readOrientation (db.setNum "quat_mobility" x) = some o → o.mobility = x) ∧
    (db.num "orient_mobility" = none → db.num "quat_mobility" = none →
      readOrientation (db.setNum "tau_quat" x) = some o → o.mobility = 1 / x) ∧
    (db.num "epsilon_orient" = none → readOrientation (db.setNum "epsilon_q" x) = some o → o.epsQ = x) ∧
    (db.num "orient_grad_floor" = none → readOrientation (db.setNum "quat_grad_floor" x) = some o → o.floor = x) := by
  refine ⟨fun hn h => ?_, fun hn hn' h => ?_, fun hn h => ?_, fun hn h => ?_⟩
  · obtain ⟨e, -⟩ := orient_parts h
    simp [readMobility, DB.setNum, hn] at e
    exact e.symm
  · obtain ⟨e, -⟩ := orient_parts h
    simp [readMobility, DB.setNum, hn, hn'] at e
    rw [← e, one_div]
  · obtain ⟨-, e, -⟩ := orient_parts h
    simp [readEpsilon, DB.setNum, hn] at e
    exact e.symm
  · obtain ⟨-, -, -, -, -, e, -⟩ := orient_parts h
    simpa [newOrOld, DB.setNum, hn] using e

/-- **C117** (violated): the two old names of the floor type have no effect, although the program answers them with the advice to use the
new name. -/
theorem c117_violation_smooth_floor_ignored (db : DB) (v : String) :
    readOrientation (db.setStr "quat_smooth_floor" v) = readOrientation db ∧
    readOrientation (db.setStr "orient_smooth_floor" v) = readOrientation db := by
  constructor <;> refine read_congr rfl rfl rfl ?_ ?_ ?_ ?_ ?_ <;> simp [interp1Text, kindText, set_str]

/-- **C117** (violated): texts under their present name are ignored where an old name is present — the opposite of the rule for
numbers. -/
theorem c117_violation_old_text_wins (db : DB) (v : String) :
    (db.str "diff_interp_func_type" ≠ none ∨ db.str "orient_interp_func_type" ≠ none →
      readOrientation (db.setStr "orient_interp_func_type1" v) = readOrientation db) ∧
    (db.str "quat_mobility_func_type" ≠ none → readOrientation (db.setStr "orient_mobility_func_type" v) = readOrientation db) ∧
    (db.str "energy_interp_func_type" ≠ none → readEnergy (db.setStr "phi_interp_func_type" v) = readEnergy db) := by
  refine ⟨fun h => ?_, fun h => ?_, fun h => ?_⟩
  · refine read_congr rfl rfl rfl ?_ ?_ ?_ ?_ ?_
    · simp only [interp1Text, set_str]
      simp only [show ("diff_interp_func_type" = "orient_interp_func_type1") = False by simp,
        show ("orient_interp_func_type" = "orient_interp_func_type1") = False by simp, if_false, if_true]
      rcases h1 : db.str "diff_interp_func_type" with _ | a
      · rcases h2 : db.str "orient_interp_func_type" with _ | b
        · rcases h with h | h <;> contradiction
        · rfl
      · rfl
    all_goals simp [kindText, set_str]
  · obtain ⟨a, ha⟩ := Option.ne_none_iff_exists'.1 h
    refine read_congr rfl rfl rfl ?_ ?_ ?_ ?_ ?_ <;> simp [interp1Text, kindText, set_str, ha]
  · obtain ⟨a, ha⟩ := Option.ne_none_iff_exists'.1 h
    simp [readEnergy, energyText, set_str, ha]

/-! ## One meaning in one run -/

/-- **C117** (violated): the relaxation of the orientations regularises with `sqrt`, whatever was asked for: above the floor its inverse
norm is strictly below the one of the run (`max`, the default). -/
theorem c117_violation_quat_only (o : Orient) (avg : String) (ho : first o.floorType = 'm') (hf : 0 < o.floor) (g : ℝ)
    (hg : o.floor ^ 2 < g) :
    ∃ a b, evalGradNormi (first (quatOnlyIntegrator o avg).1) g (o.floor ^ 2) (1 / o.floor) = some a ∧
      evalGradNormi (first (mainIntegrator o avg).1) g (o.floor ^ 2) (1 / o.floor) = some b ∧ a < b := by
  have g0 : 0 < g := lt_trans (by positivity) hg
  refine ⟨1 / Real.sqrt (g + o.floor ^ 2), 1 / Real.sqrt g, ?_, ?_, ?_⟩
  · rw [show first (quatOnlyIntegrator o avg).1 = 's' by unfold quatOnlyIntegrator; decide]; simp [evalGradNormi]
  · rw [show first (mainIntegrator o avg).1 = first o.floorType from rfl, ho]; simp [evalGradNormi, hg]
  · exact one_div_lt_one_div_of_lt (Real.sqrt_pos.2 g0) (Real.sqrt_lt_sqrt g0.le (by have := pow_pos hf 2; linarith))

/-- **C117** (violated): the average of the reported orientation energy (`avg_func_type`) and the one of the flux
(`diffq_avg_func_type`) are accepted independently of each other; where they differ, the faces between different phase values differ. -/
theorem c117_violation_two_averages (db : DB) (x y : ℝ) (hx : 1 ≤ x) (hxy : x ≠ y) (hy : 1 ≤ y) :
    ∃ a d p q, readAvg (((db.setStr "avg_func_type" "harmonic").setStr "diffq_avg_func_type" "arithmetic")) = some a ∧
      readDiffqAvg ((db.setStr "avg_func_type" "harmonic").setStr "diffq_avg_func_type" "arithmetic") = some d ∧
      averageFunc (first a) x y = some p ∧ averageFunc (first d) x y = some q ∧ p < q := by
  have ha : readAvg ((db.setStr "avg_func_type" "harmonic").setStr "diffq_avg_func_type" "arithmetic") = some "harmonic" := by
    simp [readAvg, set_str]; decide
  refine ⟨"harmonic", "arithmetic", 2 / (1 / x + 1 / y), 0.5 * (x + y), ha, ?_, ?_, ?_, ?_⟩
  · simp only [readDiffqAvg, ha, Option.bind_eq_bind, Option.bind_some]
    simp [set_str]; decide
  · rw [show first "harmonic" = 'h' by decide]
    have t : threshold < 1 := by unfold threshold; norm_num
    simp [averageFunc, not_lt.2 (t.le.trans hx), not_lt.2 (t.le.trans hy)]
  · rw [show first "arithmetic" = 'a' by decide]; simp [averageFunc]
  · have x0 : 0 < x := by linarith
    have y0 : 0 < y := by linarith
    have e : 2 / (1 / x + 1 / y) = 2 * x * y / (x + y) := by field_simp; ring
    rw [e, div_lt_iff₀ (by positivity)]
    have : 0 < (x - y) ^ 2 := by have := sub_ne_zero.2 hxy; positivity
    norm_num
    nlinarith

/-- **C117** (well, the default): with a double well rate and energy use the same well. -/
theorem c117_double_well (w : String) (hw : first w = 'd') (ty : Char) (eps scale dx dy : ℝ) (f0 f1 fl fa u : Field2)
    (weight : ℤ × ℤ → ℝ) (lo0 hi0 lo1 hi1 i j : ℤ) :
    reportedEnergy w ty eps scale dx dy fl fa weight lo0 hi0 lo1 hi1 u = energy2 ty eps scale dx dy fl fa weight lo0 hi0 lo1 hi1 u ∧
    rate w ty scale dx dy f0 f1 fl fa u i j = PhaseRHS.phaseRate2 ty scale dx dy f0 f1 fl fa u i j := by
  unfold reportedEnergy energy2 rate PhaseRHS.phaseRate2 rateWell
  rw [hw]
  exact ⟨rfl, rfl⟩

/-- **C117** (violated): with `phi_well_func_type = single` the reported energy has a single well and the rate a double well: from every
uniform phase below one half the computed rate makes the reported energy grow. -/
theorem c117_violation_single_well (db : DB) (w : String) (_ : readWell db = some w) (hw : first w = 's') (ty : Char)
    (hty : Known derivInterpFunc ty) (hty' : Known interpFunc ty) (N M : ℕ) (hN : 0 < N) (hM : 0 < M) (lo0 lo1 : ℤ)
    (eps scale dx dy wt mob f x : ℝ) (hsc : 0 < scale) (hwt : 0 < wt) (hmob : 0 < mob) (hx : 0 < x) (hx' : x < 1 / 2) :
    ∃ r : ℝ, (∀ i j, rate w ty scale dx dy (gradFluxX eps dx (fun _ _ => x)) (gradFluxY eps dy (fun _ _ => x)) (fun _ _ => f)
        (fun _ _ => f) (fun _ _ => x) i j = some r) ∧
      ∃ E : ℝ → ℝ, (∀ s, reportedEnergy w ty eps scale dx dy (fun _ _ => f) (fun _ _ => f) (fun _ => wt) lo0 (lo0 + N - 1) lo1
          (lo1 + M - 1) (fun _ _ => x + mob * r * s) = some (E s)) ∧ StrictMonoOn E (Set.Ici 0) := by
  set r : ℝ := -(scale * (32 * x * (1 - x) * (1 - 2 * x))) with hr
  have hr0 : r < 0 := by
    have : 0 < scale * (32 * x * (1 - x) * (1 - 2 * x)) := by
      have : 0 < 1 - x := by linarith
      have : 0 < 1 - 2 * x := by linarith
      positivity
    linarith
  refine ⟨r, fun i j => ?_, fun s => (N : ℝ) * M * (wt * (scale * ((1 - (x + mob * r * s)) * (1 - (x + mob * r * s))) + f)),
    fun s => ?_, ?_⟩
  · obtain ⟨d, hd⟩ := Option.isSome_iff_exists.1 (hty x)
    simp only [rate, rateWell, pbgCell, fenergyCell, Option.bind_eq_bind, derivWellFunc, if_true, Option.bind_some, Bool.false_eq_true,
      if_false, div2, gradFluxX, gradFluxY, hd, Option.some.injEq, hr]
    ring
  · beta_reduce
    generalize x + mob * r * s = u
    obtain ⟨d, hd⟩ := Option.isSome_iff_exists.1 (hty' u)
    have h1 : ∀ c : ℤ × ℤ, wellCell (first w) scale ((fun _ _ => u : Field2) c.1 c.2) = some ((fun _ => scale * ((1 - u) * (1 - u))) c) := by
      intro c
      rw [hw]
      simp [wellCell, wellFunc]
    have h2 : ∀ c : ℤ × ℤ, bulkCell ty ((fun _ _ => f : Field2) c.1 c.2) ((fun _ _ => f : Field2) c.1 c.2) ((fun _ _ => u : Field2) c.1 c.2)
        = some ((fun _ => f) c) := by
      intro c
      simp only [bulkCell, hd, Option.bind_eq_bind, Option.bind_some, Option.some.injEq]
      ring
    have h0 : ∀ c : ℤ × ℤ, some (interfaceCell eps dx dy (fun _ _ => u) c.1 c.2) = some ((fun _ => (0 : ℝ)) c) := by
      intro c
      simp only [interfaceCell, Option.some.injEq]
      ring
    simp only [reportedEnergy]
    rw [accumulate_some _ _ _ h0, accumulate_some _ _ _ h1, accumulate_some _ _ _ h2]
    simp only [Option.bind_eq_bind, Option.bind_some, Option.some.injEq, loop2_sum, Finset.sum_const, Finset.card_range, nsmul_eq_mul]
    ring
  · intro a ha b _ hab
    have ha : 0 ≤ a := ha
    have hN' : (0 : ℝ) < N := by exact_mod_cast hN
    have hM' : (0 : ℝ) < M := by exact_mod_cast hM
    refine mul_lt_mul_of_pos_left (mul_lt_mul_of_pos_left ?_ hwt) (by positivity)
    have k : mob * r < 0 := mul_neg_of_pos_of_neg hmob hr0
    have l1 : mob * r * b < mob * r * a := mul_lt_mul_of_neg_left hab k
    have l2 : mob * r * a ≤ 0 := mul_nonpos_of_nonpos_of_nonneg k.le ha
    have : (1 - (x + mob * r * a)) * (1 - (x + mob * r * a)) < (1 - (x + mob * r * b)) * (1 - (x + mob * r * b)) := by
      nlinarith
    have := mul_lt_mul_of_pos_left this hsc
    linarith

/-! ## A default that no computer can evaluate -/

/-- **C117** (violated): with the exponential mobility and its default scale both parts of the quotient leave the range of `double`
(below `2 ^ 1024`), for every phase above one thousandth, so that the quotient is not a number; the orientation mobility is then not
one either. -/
theorem c117_violation_exp_default (db : DB) (o : Orient) (h : readOrientation db = some o) (hk : first o.mobilityKind = 'e')
    (h1 : db.num "exp_scale_orient_mobility" = none) (h2 : db.num "exp_scale_quat_mobility" = none) :
    ∃ c, o.scaleFactor = some c ∧ Real.exp c > 2 ^ 1024 + 1 ∧ ∀ phase, 0.001 ≤ phase → phase ≤ 1 → Real.exp (c * phase) > 2 ^ 1024 + 1 := by
  obtain ⟨-, -, -, -, -, -, -, -, -, -, ek, -, ee⟩ := orient_parts h
  rw [← ek, if_pos hk] at ee
  refine ⟨1e6, by simp [Orient.scaleFactor, hk, ee, newOrOld, h1, h2], ?_⟩
  have big : (2 : ℝ) ^ 1024 + 1 < Real.exp 1000 := by
    have e : Real.exp 1000 = Real.exp 1 ^ 1000 := by rw [← Real.exp_nat_mul]; norm_num
    have l : (2 : ℝ) ^ 1250 ≤ Real.exp 1 ^ 1000 := by
      rw [show 1250 = 5 * 250 by norm_num, show 1000 = 4 * 250 by norm_num, pow_mul, pow_mul]
      refine pow_le_pow_left₀ (by norm_num) ?_ _
      have : (2.5 : ℝ) ^ 4 ≤ Real.exp 1 ^ 4 := pow_le_pow_left₀ (by norm_num) (by linarith [Real.exp_one_gt_d9]) _
      norm_num at this ⊢
      linarith
    have m : (2 : ℝ) ^ 1025 < 2 ^ 1250 := pow_lt_pow_right₀ (by norm_num) (by norm_num)
    have k : (1 : ℝ) ≤ 2 ^ 1024 := one_le_pow₀ (by norm_num)
    have q : (2 : ℝ) ^ 1025 = 2 ^ 1024 * 2 := pow_succ _ _
    rw [e]
    generalize (2 : ℝ) ^ 1250 = A at l m
    generalize (2 : ℝ) ^ 1025 = B at m q
    generalize (2 : ℝ) ^ 1024 = C at k q ⊢
    linarith
  refine ⟨lt_of_lt_of_le big (Real.exp_le_exp.2 (by norm_num)), fun p hp _ => lt_of_lt_of_le big (Real.exp_le_exp.2 ?_)⟩
  have : (1e6 : ℝ) * 0.001 ≤ 1e6 * p := mul_le_mul_of_nonneg_left hp (by norm_num)
  norm_num at this ⊢
  linarith

/-! ## Accepted and never used -/

/-- **C117** (violated): the average given for the composition is checked and then not used; the fluxes keep the one of the model. -/
theorem c117_violation_conc_average (db cdb : DB) (a : String) (h : readAvg db = some a) (v : String) :
    soluteAvg db (cdb.setStr "avg_func_type" v) = if first v = 'a' ∨ first v = 'h' then some a else none := by
  simp only [soluteAvg, h, readConcAvg, DB.setStr, Option.bind_eq_bind, Option.bind_some, if_true, Option.getD_some]
  by_cases h1 : first v = 'a' <;> by_cases h2 : first v = 'h' <;> simp [h1, h2]

/-- **C117** (violated): the activation energy of the phase mobility is read and then not used; the mobility of a cell is the requested one
if and only if the energy is zero. -/
theorem c117_violation_activation (db : DB) (m : ℝ × ℝ) (h : readPhaseMobility db = some m) (hm : m.1 ≠ 0) (R temp : ℝ) (hR : 0 < R)
    (ht : 0 < temp) : (uniform m temp = activated R m temp ↔ m.2 = 0) ∧
      ∀ q, readPhaseMobility (db.setNum "q0_phi_mobility" q) = some (m.1, q) ∧ uniform (m.1, q) temp = uniform m temp := by
  refine ⟨?_, fun q => ⟨?_, rfl⟩⟩
  · unfold uniform activated
    have hRt : temp * R ≠ 0 := by positivity
    rw [eq_comm, mul_eq_left₀ hm, Real.exp_eq_one_iff, div_eq_zero_iff, or_iff_left hRt, neg_eq_zero]
  · simp only [readPhaseMobility, DB.setNum, String.reduceEq, if_false, if_true, Option.getD_some, Option.map_eq_some_iff] at h ⊢
    obtain ⟨x, hx, rfl⟩ := h
    exact ⟨x, hx, rfl⟩

example : ∃ m, readPhaseMobility ⟨fun _ => none, fun k => if k = "phi_mobility" then some 2 else none⟩ = some m ∧ m.1 ≠ 0 :=
  ⟨(2, 0), by simp [readPhaseMobility], by norm_num⟩

/-! ## The hypotheses are met -/

/-- An input with the required entries only. -/
noncomputable def small : DB := ⟨fun _ => none, fun k => if k = "orient_mobility" then some 1 else if k = "epsilon_orient" then some 2 else none⟩

example : ∃ o, readOrientation small = some o ∧ first o.interp1 ≠ 't' ∧ first o.interp2 ∈ interpLetters ∧
    first o.floorType ∈ ['m', 't', 's'] ∧ o.floor = 1e-2 := by
  obtain ⟨o, h⟩ := read_some (db := small) (m := 1) (e := 2) (by simp [readMobility, small]) (by simp [readEpsilon, small])
    (by simp [interp1Text, small]; decide) (by simp [kindText, small]; decide)
  obtain ⟨-, -, -, -, -, e3, e4, -, e1, e2, -⟩ := orient_parts h
  refine ⟨o, h, ?_, ?_, ?_, ?_⟩
  · rw [e1]; simp [interp1Text, small]; decide
  · rw [e2]; simp [small]; decide
  · rw [e4]; simp [small]; decide
  · rw [e3]; simp [newOrOld, small]

example : readWell (small.setStr "phi_well_func_type" "single") = some "single" ∧ first "single" = 's' := by
  constructor
  · simp [readWell, set_str]; decide
  · decide

example : ∃ o, readOrientation (small.setStr "quat_mobility_func_type" "exp") = some o ∧ first o.mobilityKind = 'e' := by
  obtain ⟨o, h⟩ := read_some (db := small.setStr "quat_mobility_func_type" "exp") (m := 1) (e := 2)
    (by simp [readMobility, small, DB.setStr]) (by simp [readEpsilon, small, DB.setStr])
    (by simp [interp1Text, small, DB.setStr]; decide) (by simp [kindText, small, DB.setStr]; decide)
  obtain ⟨-, -, -, -, -, -, -, -, -, -, e, -⟩ := orient_parts h
  refine ⟨o, h, ?_⟩
  rw [e]; simp [kindText, set_str]; decide

end AMPE.Options.Props
