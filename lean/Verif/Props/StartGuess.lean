import Verif.Model.StartGuess
import Mathlib.Tactic.Linarith
import Mathlib.Tactic.NormNum
import Mathlib.Tactic.FinCases
import Mathlib.Tactic.Ring
import Mathlib.Data.Fintype.Basic

/-!
# C111: starting guesses of the phase compositions

Required: within a step the phase compositions of a state do not depend on which states were evaluated before;
a step starts from the compositions of the end of the previous one, also across a restart and a change of the
mesh; the equilibrium computed before the run is where the first step starts.
-/

namespace AMPE.StartGuess.Props

open AMPE.StartGuess

variable {σ : Type} {nc : ℕ}

/-! ## Specification -/

/-- A step as it should be: every evaluation starts from the compositions `g` at the beginning of the step (those of
the phases in use); all of them must succeed; the last one is kept. -/
def specStep (three : Bool) (solve : Solver σ nc) (g : Trip nc) (es : List (σ × Trip nc)) : Option (Trip nc) :=
  if ∀ e ∈ es, (solve e.1 (store three g 0)).isSome then
    match es.getLast? with
    | none => some g
    | some e => (solve e.1 (store three g 0)).map fun x => store three x g
  else none

theorem store_store (b : Bool) (x y g : Trip nc) : store b x (store b y g) = store b x g := by
  funext p
  unfold store
  by_cases h : p = 2 ∧ b = false
  · rw [if_pos h, if_pos h, if_pos h]
  · rw [if_neg h, if_neg h]

theorem store_zero_congr (three withB : Bool) (h : three = true → withB = true) (x y : Trip nc) :
    store three (store withB x y) 0 = store three x 0 := by
  funext p
  unfold store
  by_cases h1 : p = 2 ∧ three = false
  · rw [if_pos h1, if_pos h1]
  · rw [if_neg h1, if_neg h1, if_neg]
    rintro ⟨h2, h3⟩
    rcases Bool.eq_false_or_eq_true three with h4 | h4
    · rw [h h4] at h3; exact absurd h3 (by decide)
    · exact h1 ⟨h2, h4⟩

/-- Evaluations with the references: each one starts from them, and only the last one is visible. -/
theorem evals_ref (cfg : Cfg) (hf : cfg.fam = .ref) (solve : Solver σ nc) (es : List (σ × Trip nc)) :
    ∀ c : Cell nc, (evals cfg solve c es).map Cell.cur =
      if ∀ e ∈ es, (solve e.1 (store cfg.three c.ref 0)).isSome then
        match es.getLast? with
        | none => some c.cur
        | some e => (solve e.1 (store cfg.three c.ref 0)).map fun x => store cfg.three x c.cur
      else none := by
  induction es with
  | nil => intro c; simp [evals]
  | cons e es ih =>
    intro c
    have hstep : evals cfg solve c (e :: es) = (eval cfg solve c e).bind fun c' => evals cfg solve c' es := by
      simp only [evals, List.foldlM_cons]; rfl
    rw [hstep]
    have hg : guess cfg c e.2 = store cfg.three c.ref 0 := by unfold guess; rw [hf]
    unfold eval
    rw [hg]
    cases hs : solve e.1 (store cfg.three c.ref 0) with
    | none =>
      rw [if_neg]
      · rfl
      · intro h
        have := h e (List.mem_cons_self ..)
        rw [hs] at this
        exact absurd this (by simp)
    | some x =>
      simp only [Option.map_some, Option.bind_some]
      rw [ih]
      simp only [List.mem_cons, forall_eq_or_imp, hs, Option.isSome_some, true_and]
      by_cases hall : ∀ e ∈ es, (solve e.1 (store cfg.three c.ref 0)).isSome = true
      · rw [if_pos hall, if_pos hall]
        cases es with
        | nil => simp [hs]
        | cons e' es' =>
          rw [List.getLast?_cons_cons]
          cases hl : (e' :: es').getLast? with
          | none => simp at hl
          | some y => simp only [store_store]
      · rw [if_neg hall, if_neg hall]

/-- **C111**: a step of a CALPHAD run with one order parameter or three phases is the specified one: no evaluation
influences another. -/
theorem c111_step (cfg : Cfg) (hf : cfg.fam = .ref) (hc : cfg.calphad = true) (hb : cfg.three = true → cfg.withB = true)
    (solve : Solver σ nc) (c : Cell nc) (es : List (σ × Trip nc)) :
    (advance cfg solve c es).map Cell.cur = specStep cfg.three solve c.cur es := by
  unfold advance
  rw [if_pos hc, evals_ref cfg hf]
  unfold specStep resetRef
  simp only [store_zero_congr cfg.three cfg.withB hb]

/-- **C111**: the compositions of a state evaluated in a step do not depend on the states evaluated before it in that
step (as the finite differences and the error control of the time integrator assume). -/
theorem c111_order_independent (cfg : Cfg) (hf : cfg.fam = .ref) (hc : cfg.calphad = true)
    (hb : cfg.three = true → cfg.withB = true) (solve : Solver σ nc) (c : Cell nc) (es es' : List (σ × Trip nc))
    (e : σ × Trip nc) (h : (advance cfg solve c es).isSome) (h' : (advance cfg solve c es').isSome) :
    (advance cfg solve c (es ++ [e])).map Cell.cur = (advance cfg solve c (es' ++ [e])).map Cell.cur := by
  have key : ∀ l : List (σ × Trip nc), (advance cfg solve c l).isSome →
      specStep cfg.three solve c.cur (l ++ [e]) =
        (solve e.1 (store cfg.three c.cur 0)).map fun x => store cfg.three x c.cur := by
    intro l hl
    have h1 := c111_step cfg hf hc hb solve c l
    have hall : ∀ e ∈ l, (solve e.1 (store cfg.three c.cur 0)).isSome = true := by
      by_contra hcon
      unfold specStep at h1
      rw [if_neg hcon] at h1
      rw [Option.map_eq_none_iff] at h1
      rw [h1] at hl
      exact absurd hl (by simp)
    unfold specStep
    simp only [List.mem_append, List.mem_singleton, List.getLast?_append, List.getLast?_singleton, Option.some_or]
    cases hs : solve e.1 (store cfg.three c.cur 0) with
    | none =>
      rw [if_neg]
      · rfl
      · intro h2
        have := h2 e (by simp)
        rw [hs] at this
        exact absurd this (by simp)
    | some x =>
      rw [if_pos]
      intro e' h2
      rcases List.mem_append.mp h2 with h2 | h2
      · exact hall e' h2
      · rw [List.mem_singleton.mp h2, hs]; rfl
  rw [c111_step cfg hf hc hb, c111_step cfg hf hc hb, key es h, key es' h']

/-- The steps depend on the references only through nothing at all: what counts is the phase compositions at the start
(any strategy that reads the references belongs to CALPHAD). -/
theorem steps_congr (cfg : Cfg) (hf : cfg.fam = .ref → cfg.calphad = true ∧ (cfg.three = true → cfg.withB = true))
    (solve : Solver σ nc) (L : List (List (σ × Trip nc))) :
    ∀ c c' : Cell nc, c.cur = c'.cur →
      (steps cfg solve c L).map Cell.cur = (steps cfg solve c' L).map Cell.cur := by
  have hadv : ∀ (es : List (σ × Trip nc)) (c c' : Cell nc), c.cur = c'.cur →
      (advance cfg solve c es).map Cell.cur = (advance cfg solve c' es).map Cell.cur := by
    intro es c c' h
    by_cases hr : cfg.fam = .ref
    · obtain ⟨h1, h2⟩ := hf hr
      rw [c111_step cfg hr h1 h2, c111_step cfg hr h1 h2, h]
    · have hev : ∀ (es : List (σ × Trip nc)) (c c' : Cell nc), c.cur = c'.cur →
          (evals cfg solve c es).map Cell.cur = (evals cfg solve c' es).map Cell.cur := by
        intro es
        induction es with
        | nil => intro c c' h; simp [evals, h]
        | cons e es ih =>
          intro c c' h
          have hstep : ∀ c : Cell nc, evals cfg solve c (e :: es) =
              (eval cfg solve c e).bind fun c' => evals cfg solve c' es := fun c => by
            simp only [evals, List.foldlM_cons]; rfl
          rw [hstep, hstep]
          have hg : guess cfg c e.2 = guess cfg c' e.2 := by
            unfold guess
            cases hfam : cfg.fam with
            | ref => exact absurd hfam hr
            | current => simp only [h]
            | unset => rfl
            | direct => rfl
          unfold eval
          rw [hg, h]
          cases solve e.1 (guess cfg c' e.2) with
          | none => rfl
          | some x => exact ih _ _ rfl
      unfold advance
      apply hev
      by_cases hcal : cfg.calphad = true
      · rw [if_pos hcal, if_pos hcal]; exact h
      · rw [if_neg hcal, if_neg hcal]; exact h
  induction L with
  | nil => intro c c' h; simp [steps, h]
  | cons es L ih =>
    intro c c' h
    have hstep : ∀ c : Cell nc, steps cfg solve c (es :: L) =
        (advance cfg solve c es).bind fun c' => steps cfg solve c' L := fun c => by
      simp only [steps, List.foldlM_cons]; rfl
    rw [hstep, hstep]
    have h1 := hadv es c c' h
    cases ha : advance cfg solve c es with
    | none =>
      rw [ha] at h1
      have h2 := (Option.map_eq_none_iff.mp h1.symm)
      rw [h2]
    | some d =>
      rw [ha, Option.map_some] at h1
      obtain ⟨d', hd, he⟩ := Option.map_eq_some_iff.mp h1.symm
      rw [hd]
      exact ih d d' he.symm

/-- **C111**: a whole run: the compositions after any number of steps are obtained by repeating the specified step
(only the last evaluation of each step is passed on). -/
theorem c111_run (cfg : Cfg) (hf : cfg.fam = .ref) (hc : cfg.calphad = true) (hb : cfg.three = true → cfg.withB = true)
    (solve : Solver σ nc) (L : List (List (σ × Trip nc))) : ∀ c : Cell nc,
    (steps cfg solve c L).map Cell.cur = L.foldlM (specStep cfg.three solve) c.cur := by
  induction L with
  | nil => intro c; simp [steps]
  | cons es L ih =>
    intro c
    have hstep : steps cfg solve c (es :: L) =
        (advance cfg solve c es).bind fun c' => steps cfg solve c' L := by
      simp only [steps, List.foldlM_cons]; rfl
    rw [hstep, List.foldlM_cons, ← c111_step cfg hf hc hb]
    cases advance cfg solve c es with
    | none => rfl
    | some d => exact ih d

/-- The strategies that read the references are created for CALPHAD only. -/
theorem c111_references_calphad (s : Setup) (h : select s = some .ref) :
    s.kks = true ∧ s.calphad = true ∧ (s.ncomp = 1 ∧ s.norderp ≤ 1 ∨ s.ncomp = 2) := by
  unfold select at h
  by_cases h1 : s.kks = true <;> by_cases h2 : s.calphad = true <;> by_cases h3 : s.ncomp = 1 <;>
    by_cases h4 : s.hasB = true <;> by_cases h5 : 1 < s.norderp <;> by_cases h6 : s.ncomp = 2 <;>
    by_cases h7 : s.dilute = true <;> by_cases h8 : s.quadratic = true <;>
    simp [h1, h2, h3, h4, h5, h6, h7, h8] at h ⊢ <;> omega

/-- **C111, exact set of settings for which the guess is fixed within a step or not needed.**  Otherwise evaluations
influence each other (`current`) or the solver starts from an array that was never set (`unset`). -/
theorem c111_settings (s : Setup) :
    (select s = some .current ↔ s.kks = true ∧ ((s.calphad = true ∧ s.ncomp = 1 ∧ s.hasB = true ∧ 1 < s.norderp) ∨
      (s.calphad = false ∧ s.dilute = true))) ∧
    (select s = some .unset ↔ s.kks = true ∧ ((s.calphad = true ∧ s.ncomp = 1 ∧ s.hasB = false ∧ 1 < s.norderp) ∨
      (s.calphad = false ∧ s.dilute = false ∧ s.quadratic = true))) ∧
    (select s = some .direct ↔ s.kks = false) := by
  unfold select
  by_cases h1 : s.kks = true <;> by_cases h2 : s.calphad = true <;> by_cases h3 : s.ncomp = 1 <;>
    by_cases h4 : s.hasB = true <;> by_cases h5 : 1 < s.norderp <;> by_cases h6 : s.ncomp = 2 <;>
    by_cases h7 : s.dilute = true <;> by_cases h8 : s.quadratic = true <;>
    simp [h1, h2, h3, h4, h5, h6, h7, h8]

/-! ## Violations within a step -/

theorem store_eq_iff (b : Bool) (x y g h : Trip nc) : store b x g = store b y g ↔ store b x h = store b y h := by
  have key : ∀ g h : Trip nc, store b x g = store b y g → store b x h = store b y h := by
    intro g h e
    funext p
    have ep := congrFun e p
    unfold store at ep ⊢
    by_cases hp : p = 2 ∧ b = false
    · rw [if_pos hp, if_pos hp]
    · rw [if_neg hp, if_neg hp] at ep ⊢
      exact ep
  exact ⟨key g h, key h g⟩

/-- **C111 violated** for dilute alloys and for CALPHAD with several grains of two solid phases: an evaluation starts
from the result of the one before it, so evaluating another state first changes nothing only if the solver does not
use its starting point (`store _ · 0`: the values of the phases in use). -/
theorem c111_violation_order (cfg : Cfg) (hf : cfg.fam = .current) (f : σ → Trip nc → Trip nc) :
    (∀ (c : Cell nc) (s s' : σ), (advance cfg (fun s g => some (f s g)) c [(s', 0), (s, 0)]).map Cell.cur =
      (advance cfg (fun s g => some (f s g)) c [(s, 0)]).map Cell.cur) ↔
    ∀ s s' g, store cfg.three (f s (store cfg.three (f s' (store cfg.three g 0)) 0)) 0 =
      store cfg.three (f s (store cfg.three g 0)) 0 := by
  have hcur : ∀ c : Cell nc, (if cfg.calphad then resetRef cfg.withB c else c).cur = c.cur := by
    intro c
    by_cases h : cfg.calphad = true
    · rw [if_pos h]; rfl
    · rw [if_neg h]
  have hz : ∀ x y : Trip nc, store cfg.three (store cfg.three x y) 0 = store cfg.three x 0 := fun x y =>
    store_zero_congr cfg.three cfg.three id x y
  have hval : ∀ (c : Cell nc) (s s' : σ),
      (advance cfg (fun s g => some (f s g)) c [(s', 0), (s, 0)]).map Cell.cur =
        some (store cfg.three (f s (store cfg.three (f s' (store cfg.three c.cur 0)) 0)) c.cur) ∧
      (advance cfg (fun s g => some (f s g)) c [(s, 0)]).map Cell.cur =
        some (store cfg.three (f s (store cfg.three c.cur 0)) c.cur) := by
    intro c s s'
    unfold advance
    generalize hd : (if cfg.calphad then resetRef cfg.withB c else c) = d
    have hdc : d.cur = c.cur := by rw [← hd]; exact hcur c
    constructor
    · simp [evals, eval, guess, hf, hdc, hz, store_store]
    · simp [evals, eval, guess, hf, hdc]
  constructor
  · intro h s s' g
    have := h ⟨g, g⟩ s s'
    rw [(hval _ s s').1, (hval _ s s').2] at this
    exact (store_eq_iff _ _ _ _ _).mp (Option.some.inj this)
  · intro h c s s'
    rw [(hval _ s s').1, (hval _ s s').2]
    exact congrArg some ((store_eq_iff _ _ _ _ _).mp (h s s' c.cur))

/-- **C111 violated** for several grains of one solid phase: the solver starts from an array that was not set;
what the cell held before plays no part. -/
theorem c111_violation_unset (cfg : Cfg) (hf : cfg.fam = .unset) (solve : Solver σ nc) (c : Cell nc)
    (es : List (σ × Trip nc)) (e : σ × Trip nc) (h : (advance cfg solve c es).isSome) (x : Trip nc)
    (hx : solve e.1 e.2 = some x) :
    ∃ d, advance cfg solve c (es ++ [e]) = some d ∧ ∀ p, p ≠ 2 → d.cur p = x p := by
  obtain ⟨d, hd⟩ := Option.isSome_iff_exists.mp h
  unfold advance evals at hd ⊢
  rw [List.foldlM_append, hd]
  refine ⟨{ d with cur := store cfg.three x d.cur }, ?_, ?_⟩
  · have : guess cfg d e.2 = e.2 := by unfold guess; rw [hf]
    simp [eval, this, hx]
  · intro p hp
    show store cfg.three x d.cur p = x p
    unfold store
    rw [if_neg]
    exact fun h => hp h.1

/-! ## Restart, change of mesh, start -/

/-- **C111 partial**: a run continued from a restart file makes the same steps as the uninterrupted one, if no
reference composition is set in the input and no diagnostics are printed at the restart.  Missing: the two cases
described by the next theorems. -/
theorem c111_restart_partial (cfg : Cfg)
    (hf : cfg.fam = .ref → cfg.calphad = true ∧ (cfg.three = true → cfg.withB = true)) (solve : Solver σ nc)
    (ghost : Bool) (cref : Fin 3 → ℝ) (hcref : ∀ p, cref p < 0) (eq : Option (Fin 4 → ℝ)) (c : Cell nc)
    (L : List (List (σ × Trip nc))) :
    ((preRun cfg solve true eq none (restart ghost cref c.cur)).bind fun d => steps cfg solve d L).map Cell.cur =
      (steps cfg solve c L).map Cell.cur := by
  have h1 : preRun cfg solve true eq none (restart ghost cref c.cur) = some (restart ghost cref c.cur) := by
    unfold preRun
    cases eq <;> rfl
  rw [h1, Option.bind_some]
  apply steps_congr cfg hf
  unfold restart setConfigured
  funext p i
  exact if_neg fun h => absurd h.1 (not_le.mpr (hcref p))

/-- **C111 violated at a restart with initial diagnostics**: the compositions read from the file are not used; the
solver starts from zero, whatever they are, and the first step starts from its result. -/
theorem c111_violation_restart_diagnostics (cfg : Cfg) (hf : cfg.fam = .ref) (solve : Solver σ nc) (ghost : Bool)
    (cref : Fin 3 → ℝ) (hcref : ∀ p, cref p < 0) (eq : Option (Fin 4 → ℝ)) (e : σ × Trip nc) (saved : Trip nc) :
    (preRun cfg solve true eq (some e) (restart ghost cref saved)).map Cell.cur =
      (solve e.1 0).map fun x => store cfg.three x saved := by
  have h0 : (match eq with
      | none => restart ghost cref saved
      | some ceq => if true then restart ghost cref saved else setEquilibrium cfg.withB ceq (restart ghost cref saved)) =
      restart ghost cref saved := by cases eq <;> rfl
  have hr : restart ghost cref saved = (⟨saved, 0⟩ : Cell nc) := by
    unfold restart setConfigured
    congr 1
    · funext p i; exact if_neg fun h => absurd h.1 (not_le.mpr (hcref p))
    · funext p i; exact if_neg (not_le.mpr (hcref p))
  have hs : store cfg.three (0 : Trip nc) 0 = 0 := by
    funext p; unfold store; by_cases h : p = 2 ∧ cfg.three = false
    · rw [if_pos h]
    · rw [if_neg h]
  have h1 : preRun cfg solve true eq (some e) (restart ghost cref saved) = eval cfg solve ⟨saved, 0⟩ e := by
    rw [← hr]
    cases eq <;> rfl
  rw [h1]
  unfold eval guess
  rw [hf]
  simp only [hs, Option.map_map]
  rfl

/-- **C111 violated at a restart with a reference composition in the input**: it replaces the composition read from the
file in every cell that is not a ghost cell. -/
theorem c111_violation_restart_reference (cref : Fin 3 → ℝ) (p : Fin 3) (h : 0 ≤ cref p) (saved : Trip nc) (i : Fin nc) :
    (restart false cref saved).cur p i = cref p ∧ (restart true cref saved).cur p i = saved p i := by
  constructor
  · exact if_pos ⟨h, rfl⟩
  · exact if_neg fun h => absurd h.2 (by decide)

/-- **C111 violated by a change of the mesh**: in every cell of a level that is built anew the solver starts from zero
in the next step, whatever was computed there before. -/
theorem c111_violation_regrid (cfg : Cfg) (hf : cfg.fam = .ref) (hc : cfg.calphad = true)
    (hb : cfg.three = true → cfg.withB = true) (solve : Solver σ nc) (e : σ × Trip nc) :
    (advance cfg solve (newCell nc) [e]).map Cell.cur = (solve e.1 0).map fun x => store cfg.three x 0 := by
  rw [c111_step cfg hf hc hb]
  have hs : store cfg.three (0 : Trip nc) 0 = 0 := by
    funext p; unfold store; by_cases h : p = 2 ∧ cfg.three = false
    · rw [if_pos h]
    · rw [if_neg h]
  unfold specStep newCell
  simp only [hs, List.mem_singleton, forall_eq, List.getLast?_singleton]
  cases solve e.1 0 <;> rfl

/-- **C111**: the first step of a new run (no initial diagnostics) starts from the reference composition of the input
(not in ghost cells), otherwise from `init_cl`, `init_ca`, `init_cb`, otherwise from zero. -/
theorem c111_first_guess (cfg : Cfg) (hf : cfg.fam = .ref) (hc : cfg.calphad = true)
    (hb : cfg.three = true → cfg.withB = true) (solve : Solver σ nc) (ghost : Bool) (init : Fin 3 → List ℝ)
    (cref : Fin 3 → ℝ) (eq : Option (Fin 4 → ℝ)) (e : σ × Trip nc) (g : Trip nc)
    (hg : ∀ p i, g p i = if p = 2 ∧ cfg.three = false then 0 else
      if 0 ≤ cref p ∧ ghost = false then cref p else (init p).getD i 0) :
    ((preRun cfg solve false eq none (fresh ghost init cref)).bind fun d => advance cfg solve d [e]).map Cell.cur =
      (solve e.1 g).map fun x => store cfg.three x (fresh ghost init cref : Cell nc).cur := by
  have hcur : ∃ d, preRun cfg solve false eq none (fresh ghost init cref) = some d ∧
      d.cur = (fresh ghost init cref : Cell nc).cur := by
    cases eq with
    | none => exact ⟨_, rfl, rfl⟩
    | some q => exact ⟨_, rfl, rfl⟩
  obtain ⟨d, hd, hdc⟩ := hcur
  rw [hd, Option.bind_some, c111_step cfg hf hc hb, hdc]
  have hgg : store cfg.three (fresh ghost init cref : Cell nc).cur 0 = g := by
    funext p i
    rw [hg]
    unfold store
    by_cases h : p = 2 ∧ cfg.three = false
    · rw [if_pos h, if_pos h]; rfl
    · rw [if_neg h, if_neg h]; rfl
  unfold specStep
  simp only [hgg, List.mem_singleton, forall_eq, List.getLast?_singleton]
  cases solve e.1 g <;> rfl

/-- **C111 violated**: the equilibrium compositions computed before a new run have no effect on any step unless the
initial diagnostics are printed: the first step overwrites them before they are read. -/
theorem c111_violation_equilibrium_unused (cfg : Cfg)
    (hf : cfg.fam = .ref → cfg.calphad = true ∧ (cfg.three = true → cfg.withB = true)) (solve : Solver σ nc)
    (fromRestart : Bool) (ceq : Fin 4 → ℝ) (c : Cell nc) (L : List (List (σ × Trip nc))) :
    ((preRun cfg solve fromRestart (some ceq) none c).bind fun d => steps cfg solve d L).map Cell.cur =
      (steps cfg solve c L).map Cell.cur := by
  cases fromRestart with
  | true => rfl
  | false => exact steps_congr cfg hf solve L _ _ rfl

/-- **C111**: with initial diagnostics the evaluation for them starts from the equilibrium; for one species that is the
equilibrium composition of each of the two phases. -/
theorem c111_equilibrium_used (cfg : Cfg) (hf : cfg.fam = .ref) (ht : cfg.three = false) (solve : Solver σ 1)
    (ceq : Fin 4 → ℝ) (e : σ × Trip 1) (c : Cell 1) :
    (preRun cfg solve false (some ceq) (some e) c).map Cell.cur =
      (solve e.1 ![fun _ => ceq 0, fun _ => ceq 1, fun _ => 0]).map fun x => store false x c.cur := by
  have h1 : preRun cfg solve false (some ceq) (some e) c = eval cfg solve (setEquilibrium cfg.withB ceq c) e := rfl
  rw [h1]
  unfold eval guess
  rw [hf, ht]
  have hg : store false (setEquilibrium cfg.withB ceq c).ref 0 = ![fun _ => ceq 0, fun _ => ceq 1, fun _ => 0] := by
    funext p i
    fin_cases p <;> simp [store, setEquilibrium]
  simp only [hg, Option.map_map]
  rfl

/-- **C111 violated for two species**: `ceq` lists the equilibrium as L1, L2, A1, A2; the references of the two phases
are right only if all four compositions coincide. -/
theorem c111_violation_species (withB : Bool) (ceq : Fin 4 → ℝ) (c : Cell 2) :
    ((setEquilibrium withB ceq c).ref 0 = ![ceq 0, ceq 1] ∧ (setEquilibrium withB ceq c).ref 1 = ![ceq 2, ceq 3]) ↔
      ceq 1 = ceq 0 ∧ ceq 2 = ceq 0 ∧ ceq 3 = ceq 0 := by
  constructor
  · rintro ⟨h1, h2⟩
    have a := congrFun h1 1
    have b := congrFun h2 0
    have d := congrFun h2 1
    simp [setEquilibrium] at a b d
    exact ⟨a.symm, b.symm.trans a.symm, d.symm.trans a.symm⟩
  · rintro ⟨h1, h2, h3⟩
    constructor
    · funext i; fin_cases i <;> simp [setEquilibrium, h1]
    · funext i; fin_cases i <;> simp [setEquilibrium, h1, h2, h3]

/-- **C111 violated for two species and three phases**: the array `x` has four entries; it is large enough exactly for
one species, or two species and two phases. -/
theorem c111_violation_array (nc : ℕ) (hnc : 0 < nc) (three : Bool) :
    highest nc three < 4 ↔ nc = 1 ∨ (nc = 2 ∧ three = false) := by
  unfold highest
  cases three <;> simp <;> omega

/-! ## The equilibrium itself -/

/-- **C111**: for compositions between 0 and 1 the two estimates are distinct fractions that enclose the data. -/
theorem c111_bracket (lo hi : ℝ) (h0 : 0 ≤ lo) (h1 : lo ≤ hi) (h2 : hi ≤ 1) :
    0 ≤ (bracket lo hi).1 ∧ (bracket lo hi).1 ≤ lo ∧ hi ≤ (bracket lo hi).2 ∧ (bracket lo hi).2 ≤ 1 ∧
      (bracket lo hi).1 < (bracket lo hi).2 := by
  unfold bracket
  simp only []
  have a1 : max (0.25 * lo) (lo - 0.2 * (hi - lo)) ≤ lo := max_le (by linarith) (by linarith)
  have a2 : 0 ≤ max (0.25 * lo) (lo - 0.2 * (hi - lo)) := le_max_of_le_left (by linarith)
  have a3 : hi ≤ min (1 - 0.25 * (1 - hi)) (hi + 0.2 * (hi - lo)) := le_min (by linarith) (by linarith)
  have a4 : min (1 - 0.25 * (1 - hi)) (hi + 0.2 * (hi - lo)) ≤ 1 := min_le_of_left_le (by linarith)
  generalize max (0.25 * lo) (lo - 0.2 * (hi - lo)) = m at *
  generalize min (1 - 0.25 * (1 - hi)) (hi + 0.2 * (hi - lo)) = M at *
  by_cases h : M - m ≤ 1e-8
  · rw [if_pos h]
    norm_num at h
    refine ⟨le_max_left _ _, max_le h0 (by linarith), le_min h2 (by linarith), min_le_left _ _, ?_⟩
    refine max_lt (lt_min one_pos (by linarith)) (lt_min (by linarith) (by linarith))
  · rw [if_neg h]
    rw [not_le] at h
    refine ⟨a2, a1, a3, a4, ?_⟩
    norm_num at h
    show m < M
    linarith

/-- **C111**: when the equilibrium is returned, the solver reported success and the first two values are fractions;
the solver was started from the first guess or from the exchanged estimates. -/
theorem c111_equilibrium_checked (solve : (Fin 4 → ℝ) → Bool × (Fin 4 → ℝ)) (lo hi : ℝ)
    (known : Option ((Fin nc → ℝ) × (Fin nc → ℝ))) (ceq : Fin 4 → ℝ) (h : computeCeq solve lo hi known = some ceq) :
    (∃ g, solve g = (true, ceq) ∧ (g = firstGuess lo hi known ∨ (g 0 = (bracket lo hi).2 ∧ g 1 = (bracket lo hi).1))) ∧
      0 ≤ ceq 0 ∧ ceq 0 ≤ 1 ∧ 0 ≤ ceq 1 ∧ ceq 1 ≤ 1 := by
  unfold computeCeq at h
  simp only [] at h
  by_cases h1 : accept (solve (firstGuess lo hi known))
  · rw [if_pos h1] at h
    obtain ⟨b1, b2, b3, b4, b5⟩ := h1
    have he := Option.some.inj h
    rw [he] at b2 b3 b4 b5
    exact ⟨⟨_, Prod.ext b1 he, Or.inl rfl⟩, b3, b2, b5, b4⟩
  · rw [if_neg h1] at h
    split_ifs at h with h2
    obtain ⟨b1, b2, b3, b4, b5⟩ := h2
    have he := Option.some.inj h
    rw [he] at b2 b3 b4 b5
    exact ⟨⟨_, Prod.ext b1 he, Or.inr ⟨rfl, rfl⟩⟩, b3, b2, b5, b4⟩

/-- **C111**: the abort happens exactly if both starting points fail. -/
theorem c111_equilibrium_abort (solve : (Fin 4 → ℝ) → Bool × (Fin 4 → ℝ)) (lo hi : ℝ)
    (known : Option ((Fin nc → ℝ) × (Fin nc → ℝ))) :
    computeCeq solve lo hi known = none ↔ ¬ accept (solve (firstGuess lo hi known)) ∧
      ¬ accept (solve ![(bracket lo hi).2, (bracket lo hi).1, (solve (firstGuess lo hi known)).2 2,
        (solve (firstGuess lo hi known)).2 3]) := by
  unfold computeCeq
  simp only []
  by_cases h1 : accept (solve (firstGuess lo hi known))
  · simp [h1]
  · rw [if_neg h1]
    split_ifs with h2
    · simp [h2]
    · simp [h1, h2]

/-- **C111**: the first guess of one species is the pair of estimates or the compositions given in the input. -/
theorem c111_first_ceq (lo hi l a : ℝ) :
    (firstGuess (nc := 1) lo hi none) 0 = (bracket lo hi).1 ∧ (firstGuess (nc := 1) lo hi none) 1 = (bracket lo hi).2 ∧
    (firstGuess (nc := 1) lo hi (some (fun _ => l, fun _ => a))) 0 = l ∧
    (firstGuess (nc := 1) lo hi (some (fun _ => l, fun _ => a))) 1 = a := by
  refine ⟨rfl, rfl, ?_, ?_⟩
  · simp [firstGuess]
  · simp [firstGuess]

/-- With two species the known compositions fill all four entries, liquid first. -/
theorem c111_first_ceq_two (lo hi : ℝ) (l a : Fin 2 → ℝ) :
    firstGuess lo hi (some (l, a)) = ![l 0, l 1, a 0, a 1] := by
  funext m
  fin_cases m <;> simp [firstGuess]

/-- **C111 violated for two species**: the composition of the solid (entries 2 and 3) is not checked: whatever the
solver leaves there is returned if the liquid is acceptable. -/
theorem c111_violation_solid_unchecked (solve : (Fin 4 → ℝ) → Bool × (Fin 4 → ℝ)) (lo hi : ℝ)
    (known : Option ((Fin 2 → ℝ) × (Fin 2 → ℝ))) (x : Fin 4 → ℝ) (y z : ℝ) (h0 : 0 ≤ x 0) (h0' : x 0 ≤ 1) (h1 : 0 ≤ x 1)
    (h1' : x 1 ≤ 1) (hs : solve (firstGuess lo hi known) = (true, ![x 0, x 1, y, z])) :
    computeCeq solve lo hi known = some ![x 0, x 1, y, z] := by
  unfold computeCeq
  simp only []
  rw [hs]
  exact if_pos ⟨rfl, h0', h0, h1', h1⟩

/-- **C111 violated for the third phase**: with one species the solver sets two entries only; the reference of phase B
is then an estimate of the first pair, not a result. -/
theorem c111_violation_third_phase (solve : (Fin 4 → ℝ) → Bool × (Fin 4 → ℝ)) (hs : ∀ g, (solve g).2 2 = g 2) (lo hi : ℝ)
    (known : Option ((Fin 1 → ℝ) × (Fin 1 → ℝ))) (ceq : Fin 4 → ℝ) (h : computeCeq solve lo hi known = some ceq)
    (c : Cell 1) (i : Fin 1) : (setEquilibrium true ceq c).ref 2 i = (bracket lo hi).1 := by
  have hg : firstGuess lo hi known 2 = (bracket lo hi).1 := by
    cases known with
    | none => rfl
    | some k => simp [firstGuess]
  have hc : ceq 2 = (bracket lo hi).1 := by
    unfold computeCeq at h
    simp only [] at h
    split_ifs at h with h1 h2
    · rw [← Option.some.inj h, hs, hg]
    · rw [← Option.some.inj h, hs]
      show (solve (firstGuess lo hi known)).2 2 = _
      rw [hs, hg]
  show ceq 2 = _
  exact hc

/-! ## Examples -/

/-- A solver that goes half way from its starting point to the state (hypotheses of `c111_step`,
`c111_order_independent`, `c111_violation_regrid` with a history that matters for `current`). -/
noncomputable def halfWay : Solver ℝ 1 := fun s g => some fun p i => (g p i + s) / 2

example : (advance ⟨.ref, true, false, false⟩ halfWay (newCell 1) [(1, 0), (3, 0)]).map (fun c => c.cur 0 0) =
    some (3 / 2) := by
  have h := c111_step ⟨.ref, true, false, false⟩ rfl rfl (by simp) halfWay (newCell 1) [(1, 0), (3, 0)]
  have h2 : (advance ⟨.ref, true, false, false⟩ halfWay (newCell 1) [(1, 0), (3, 0)]).map (fun c => c.cur 0 0) =
      ((advance ⟨.ref, true, false, false⟩ halfWay (newCell 1) [(1, 0), (3, 0)]).map Cell.cur).map fun g => g 0 0 := by
    rw [Option.map_map]; rfl
  rw [h2, h]
  simp [specStep, halfWay, store, newCell]

/-- The dilute strategy on the same evaluations: 7/4. -/
example : (advance ⟨.current, false, false, false⟩ halfWay (newCell 1) [(1, 0), (3, 0)]).map (fun c => c.cur 0 0) =
    some (7 / 4) := by
  simp [advance, evals, eval, guess, halfWay, store, newCell]
  norm_num

example : ¬ ∀ s s' (g : Trip 1), (fun p i => ((fun p i => (g p i + s') / 2 : Trip 1) p i + s) / 2 : Trip 1) =
    fun p i => (g p i + s) / 2 := by
  intro h
  have := congrFun (congrFun (h 0 1 0) 0) 0
  norm_num at this

example : bracket 0.3 0.3 = (max 0 (0.3 - 0.1), min 1 (0.3 + 0.1)) := by
  unfold bracket
  norm_num

/-- **C111** A uniform composition gives estimates a tenth to either side, within the range of compositions. -/
theorem c111_uniform (c : ℝ) (h0 : 0 ≤ c) (h1 : c ≤ 1) : bracket c c = (max 0 (c - 1 / 10), min 1 (c + 1 / 10)) := by
  have e1 : max (0.25 * c) (c - 0.2 * (c - c)) = c := by
    rw [sub_self, mul_zero, sub_zero]; exact max_eq_right (by linarith)
  have e2 : min (1 - 0.25 * (1 - c)) (c + 0.2 * (c - c)) = c := by
    rw [sub_self, mul_zero, add_zero]; exact min_eq_right (by linarith)
  unfold bracket
  dsimp only
  rw [e1, e2, if_pos (by rw [sub_self]; norm_num)]
  norm_num

/-- **C111** The settings `concL_ref`, `concA_ref`, `concB_ref` can be used exactly with CALPHAD, the last with a phase B only. -/
theorem c111_settings_usable (cfg : Cfg) (ghost : Bool) (cref : Fin 3 → ℝ) (c : Cell nc) :
    (configure cfg ghost cref c).isSome ↔ (∀ p, cref p < 0) ∨ cfg.calphad = true ∧ (cfg.withB = true ∨ cref 2 < 0) := by
  unfold configure
  have key : (∀ p, 0 ≤ cref p → refAllocated cfg p = true) ↔ (∀ p, cref p < 0) ∨ cfg.calphad = true ∧ (cfg.withB = true ∨ cref 2 < 0) := by
    unfold refAllocated
    constructor
    · intro h
      by_cases hc : cfg.calphad = true
      · refine Or.inr ⟨hc, ?_⟩
        by_cases h2 : cref 2 < 0
        · exact Or.inr h2
        · have := h 2 (not_lt.mp h2)
          simp [hc] at this
          exact Or.inl this
      · left
        intro p
        by_contra hp
        have := h p (not_lt.mp hp)
        simp [hc] at this
    · rintro (h | ⟨hc, hb⟩) p hp
      · exact absurd hp (not_le.mpr (h p))
      · rcases hb with hb | hb
        · simp [hc, hb]
        · have : p ≠ 2 := by
            rintro rfl
            exact absurd hp (not_le.mpr hb)
          simp [hc, this]
  rw [← key]
  split_ifs with h
  · exact ⟨fun _ => h, fun _ => rfl⟩
  · exact ⟨fun h' => by simp at h', fun h' => absurd h' h⟩

/-- **C111** (violation) With a dilute, quadratic or linear model any such setting writes into an array that is not there. -/
theorem c111_violation_settings (cfg : Cfg) (hc : cfg.calphad = false) (ghost : Bool) (cref : Fin 3 → ℝ) (p : Fin 3) (hp : 0 ≤ cref p) (c : Cell nc) :
    configure cfg ghost cref c = none := by
  rw [← Option.not_isSome_iff_eq_none, c111_settings_usable]
  rintro (h | ⟨h, -⟩)
  · exact absurd hp (not_le.mpr (h p))
  · rw [hc] at h; cases h

/-- **C111** Where they can be used, references and phase compositions (these inside the patch only) have the values of the settings. -/
theorem c111_settings_values (cfg : Cfg) (ghost : Bool) (cref : Fin 3 → ℝ) (c c' : Cell nc) (h : configure cfg ghost cref c = some c') (p : Fin 3)
    (hp : 0 ≤ cref p) (i : Fin nc) : c'.ref p i = cref p ∧ c'.cur p i = (if ghost then c.cur p i else cref p) := by
  unfold configure at h
  split_ifs at h with h0
  cases h
  cases ghost <;> simp [setConfigured, hp]

/-- A dilute alloy with `concL_ref = 0.04`. -/
example : configure ⟨.current, false, false, false⟩ false (fun p => if p = 0 then 0.04 else -1) (newCell 1) = none :=
  c111_violation_settings _ rfl _ _ 0 (by norm_num) _

end AMPE.StartGuess.Props
