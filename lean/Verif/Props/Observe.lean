import Verif.Model.Observe
import Verif.Props.RateCall
import Verif.Props.StartGuess

/-! # C137: observing a run does not change it

Printing diagnostics (`ScalarDiagnostics`) at any interval must not change the solution. -/

namespace AMPE.Observe.Props

open AMPE.RateCall AMPE.RateCall.Props AMPE.Observe

variable {V σ : Type}

/-- What the coefficients of a rate evaluation inherit from an observation: nothing. -/
theorem coef_observe (o : Ops V) (c : Cfg) (hk : c.conc = true → c.partition = true → c.phaseConc = true) (s t : ℝ) (x y : State V)
    (r : Bool) (m : Mem V) (hT : c.temp = .constant → o.fillTemp s m.curTemp = m.tempS) :
    setCoefficients o c t y r (setTemperature o c t (observe o c s x m)) =
      setCoefficients o c t y r (setTemperature o c t m) := by
  obtain ⟨quat, conc, phaseConc, partition, aziz, velocity, lag, antitrap, moving, rigid, noise, temp, uniformUntil⟩ := c
  by_cases hc : temp = .constant
  · subst hc
    have e := hT rfl
    obtain ⟨curTemp, curConc, frame, lastTime, phaseS, quatS, concS, tempS, rest⟩ := m
    simp only at e
    subst e
    cases conc <;> cases partition <;> cases phaseConc <;> cases quat <;> first | rfl | exact absurd (hk rfl rfl) Bool.false_ne_true
  · cases temp <;> first | exact absurd rfl hc | skip
    all_goals cases conc <;> cases partition <;> cases phaseConc <;> cases quat <;>
      first | rfl | exact absurd (hk rfl rfl) Bool.false_ne_true

/-- **C137**: a rate evaluation that follows an observation returns the same rate and leaves the same memory as without it: for
every configuration (noise, partition coefficients that depend on the velocity, lagged coefficients). `hk`: models with a
partition coefficient have phase compositions. `hT`: for a temperature that nothing sets, the ghost cells are filled as they were. -/
theorem c137_rate (o : Ops V) (c : Cfg) (hk : c.conc = true → c.partition = true → c.phaseConc = true) (n : ℕ) (s t : ℝ) (x y : State V)
    (fd : Bool) (m : Mem V) (hT : c.temp = .constant → o.fillTemp s m.curTemp = m.tempS) :
    evaluate o c n t y fd (observe o c s x m) = evaluate o c n t y fd m := by
  unfold evaluate
  simp only [coef_observe o c hk s t x y _ m hT]

theorem observes_keep (o : Ops V) (c : Cfg) (i : Integrator V σ) (s : σ) (j : ℕ) (m : Mem V) :
    (observes o c i s j m).curTemp = m.curTemp ∧
      (o.fillTemp (i.time s) m.curTemp = m.tempS → (observes o c i s j m).tempS = m.tempS) := by
  unfold observes
  induction j generalizing m with
  | zero => exact ⟨rfl, fun _ => rfl⟩
  | succ j ih =>
    rw [Function.iterate_succ_apply]
    obtain ⟨h1, h2⟩ := ih (observe o c (i.time s) (i.sol s) m)
    refine ⟨h1.trans rfl, fun h => (h2 rfl).trans h⟩

theorem rate_observes (o : Ops V) (c : Cfg) (hk : c.conc = true → c.partition = true → c.phaseConc = true) (n : ℕ)
    (i : Integrator V σ) (s : σ) (j : ℕ) (t : ℝ) (y : State V) (fd : Bool) (m : Mem V)
    (hT : c.temp = .constant → o.fillTemp (i.time s) m.curTemp = m.tempS) :
    evaluate o c n t y fd (observes o c i s j m) = evaluate o c n t y fd m := by
  induction j with
  | zero => rfl
  | succ j ih =>
    rw [← ih]
    have e : observes o c i s (j + 1) m = observe o c (i.time s) (i.sol s) (observes o c i s j m) := by
      unfold observes
      rw [Function.iterate_succ_apply']
    rw [e]
    refine c137_rate o c hk n _ t _ y fd _ fun hc => ?_
    obtain ⟨h1, h2⟩ := observes_keep o c i s j m
    rw [h1, h2 (hT hc)]
    exact hT hc

theorem step_observes (o : Ops V) (c : Cfg) (hk : c.conc = true → c.partition = true → c.phaseConc = true) (n : ℕ)
    (i : Integrator V σ) (s : σ) (j : ℕ) (m : Mem V) (hT : c.temp = .constant → o.fillTemp (i.time s) m.curTemp = m.tempS) :
    step o c n i (observes o c i s j m, s) = step o c n i (m, s) := by
  unfold step exec
  simp only [rate_observes o c hk n i s j _ _ _ m hT]

theorem exec_fixed (o : Ops V) (c : Cfg) (n : ℕ) (hc : c.temp = .constant) (p : Prog V σ) : ∀ (m : Mem V) (q : Mem V × σ),
    exec o c n p m = some q → q.1.tempS = m.tempS := by
  induction p with
  | done s => intro m q h; simp only [exec, Option.some.injEq] at h; rw [← h]
  | rate t y fd k ih =>
    intro m q h
    simp only [exec, Option.bind_eq_some_iff] at h
    obtain ⟨p, hp, h⟩ := h
    exact (ih p.2 p.1 q h).trans ((same_evaluate o c n t y fd m p hp).fixed hc).symm
  | setup t y k ih =>
    intro m q h
    simp only [exec] at h
    exact (ih _ _ q h).trans ((same_coef o c t y true m).fixed hc).symm

theorem step_fixed (o : Ops V) (c : Cfg) (n : ℕ) (i : Integrator V σ) (hc : c.temp = .constant) (p q : Mem V × σ)
    (h : step o c n i p = some q) : q.1.tempS = p.1.tempS ∧ q.1.curTemp = p.1.tempS := by
  unfold step at h
  rw [Option.map_eq_some_iff] at h
  obtain ⟨r, hr, rfl⟩ := h
  have := exec_fixed o c n hc _ _ _ hr
  exact ⟨this, this⟩

/-- **C137**: whatever the time integrator does with the rates and coefficients it is given, printing diagnostics any number of
times before the first step and after every step leaves the run as it is: same results of the integrator after every step,
same memory up to the arrays the last observations wrote. `hT`: for a temperature that nothing sets, filling its ghost cells
gives what they hold, at any time. -/
theorem c137_run_partial (o : Ops V) (c : Cfg) (hk : c.conc = true → c.partition = true → c.phaseConc = true) (n : ℕ) (i : Integrator V σ)
    (obs : ℕ → ℕ) (m : Mem V) (s : σ)
    (hT : c.temp = .constant → m.curTemp = m.tempS ∧ ∀ t, o.fillTemp t m.tempS = m.tempS) (k : ℕ) :
    run o c n i obs (m, s) k =
      (run o c n i (fun _ => 0) (m, s) k).map fun q => (observes o c i q.2 (obs k) q.1, q.2) := by
  have inv : ∀ k q, run o c n i (fun _ => 0) (m, s) k = some q → c.temp = .constant →
      q.1.tempS = m.tempS ∧ q.1.curTemp = m.tempS := by
    intro k
    induction k with
    | zero =>
      intro q h hc
      simp only [run, Option.some.injEq] at h
      rw [← h]
      exact ⟨rfl, (hT hc).1⟩
    | succ k ih =>
      intro q h hc
      simp only [run, Option.map_eq_some_iff, Option.bind_eq_some_iff] at h
      obtain ⟨r, ⟨q', hq', hr⟩, rfl⟩ := h
      obtain ⟨h1, -⟩ := ih q' hq' hc
      obtain ⟨h3, h4⟩ := step_fixed o c n i hc q' r hr
      exact ⟨h3.trans h1, h4.trans h1⟩
  induction k with
  | zero => rfl
  | succ k ih =>
    have e0 : run o c n i (fun _ => 0) (m, s) (k + 1) = (run o c n i (fun _ => 0) (m, s) k).bind (step o c n i) := by
      simp only [run]
      cases (run o c n i (fun _ => 0) (m, s) k).bind (step o c n i) <;> rfl
    rw [e0]
    have e1 : run o c n i obs (m, s) (k + 1) =
      ((run o c n i obs (m, s) k).bind (step o c n i)).map fun q => (observes o c i q.2 (obs (k + 1)) q.1, q.2) := rfl
    rw [e1, ih]
    congr 1
    cases hr : run o c n i (fun _ => 0) (m, s) k with
    | none => rfl
    | some q =>
      refine step_observes o c hk n i q.2 (obs k) q.1 fun hc => ?_
      obtain ⟨h1, h2⟩ := inv k q hr hc
      rw [h1, h2]
      exact (hT hc).2 _

/-- **C137**: the results of the time integrator are those of the run without diagnostics. -/
theorem c137_results_partial (o : Ops V) (c : Cfg) (hk : c.conc = true → c.partition = true → c.phaseConc = true) (n : ℕ) (i : Integrator V σ)
    (obs obs' : ℕ → ℕ) (m : Mem V) (s : σ)
    (hT : c.temp = .constant → m.curTemp = m.tempS ∧ ∀ t, o.fillTemp t m.tempS = m.tempS) (k : ℕ) :
    (run o c n i obs (m, s) k).map Prod.snd = (run o c n i obs' (m, s) k).map Prod.snd := by
  rw [c137_run_partial o c hk n i obs m s hT k, c137_run_partial o c hk n i obs' m s hT k, Option.map_map, Option.map_map]
  rfl

/-- A preconditioner set up before any rate of the step would see the observation: it would use the temperature of the solution
array instead of that of the last evaluation. -/
theorem c137_setup_first (o : Ops V) (c : Cfg) (hk : c.conc = true → c.partition = true → c.phaseConc = true) (s t : ℝ) (x y : State V)
    (r : Bool) (m : Mem V) :
    setCoefficients o c t y r (observe o c s x m) = setCoefficients o c t y r { m with tempS := o.fillTemp s m.curTemp } := by
  obtain ⟨quat, conc, phaseConc, partition, aziz, velocity, lag, antitrap, moving, rigid, noise, temp, uniformUntil⟩ := c
  cases temp <;> cases conc <;> cases partition <;> cases phaseConc <;> cases quat <;>
    first | rfl | exact absurd (hk rfl rfl) Bool.false_ne_true

/-- **C137 violated** for a temperature that nothing sets, when the ghost cells depend on the time (or were not filled before): the
rates after an observation are those for the temperature filled by it. -/
theorem c137_violation_constant (o : Ops V) (c : Cfg) (hk : c.conc = true → c.partition = true → c.phaseConc = true)
    (hc : c.temp = .constant) (n : ℕ) (s t : ℝ) (x y : State V) (fd : Bool) (m : Mem V) :
    evaluate o c n t y fd (observe o c s x m) = evaluate o c n t y fd { m with tempS := o.fillTemp s m.curTemp } := by
  unfold evaluate
  simp only [setTemperature, hc, c137_setup_first o c hk]

/-! ## The starting point of the solver for the phase compositions

`RateCall` takes the phase compositions as a function of the local state. They are computed by Newton's method; its starting point
(`StartGuess`) does see the observations. -/

section Guess

open AMPE.StartGuess AMPE.StartGuess.Props

variable {τ : Type} {nc : ℕ}

/-- **C137**: if the solver does not depend on its starting point, an evaluation gives the same phase compositions whatever was
evaluated before. -/
theorem c137_guess_exact (cfg : StartGuess.Cfg) (r : τ → Trip nc) (c c' : Cell nc) (e : τ × Trip nc) :
    (eval cfg (fun s _ => some (r s)) c e).map (fun d => store cfg.three d.cur 0) =
      (eval cfg (fun s _ => some (r s)) c' e).map (fun d => store cfg.three d.cur 0) := by
  unfold eval
  simp only [Option.map_some]
  rw [store_zero_congr cfg.three cfg.three id, store_zero_congr cfg.three cfg.three id]

/-- **C137 violated** (CALPHAD, one grain or three components): a step that evaluates `s`, with or without diagnostics for the
accepted state `d` after it, then an evaluation for `s'` in the next step. The diagnostics are harmless exactly if the solver
gives the same for `s'` starting from its own results for `d` and for `s`. -/
theorem c137_violation_guess (cfg : StartGuess.Cfg) (hf : cfg.fam = .ref) (hc : cfg.calphad = true)
    (hb : cfg.three = true → cfg.withB = true) (f : τ → Trip nc → Trip nc) (c : Cell nc) (s d s' : τ) :
    (steps cfg (fun s g => some (f s g)) c [[(s, 0), (d, 0)], [(s', 0)]]).map Cell.cur =
      (steps cfg (fun s g => some (f s g)) c [[(s, 0)], [(s', 0)]]).map Cell.cur ↔
    store cfg.three (f s' (store cfg.three (f d (store cfg.three c.cur 0)) 0)) 0 =
      store cfg.three (f s' (store cfg.three (f s (store cfg.three c.cur 0)) 0)) 0 := by
  rw [c111_run cfg hf hc hb, c111_run cfg hf hc hb]
  have hz : ∀ x y : Trip nc, store cfg.three (store cfg.three x y) 0 = store cfg.three x 0 := fun x y =>
    store_zero_congr cfg.three cfg.three id x y
  have h1 : [[(s, (0 : Trip nc)), (d, 0)], [(s', 0)]].foldlM (specStep cfg.three (fun s g => some (f s g))) c.cur =
      some (store cfg.three (f s' (store cfg.three (f d (store cfg.three c.cur 0)) 0)) c.cur) := by
    simp [specStep, hz, store_store]
  have h2 : [[(s, (0 : Trip nc))], [(s', 0)]].foldlM (specStep cfg.three (fun s g => some (f s g))) c.cur =
      some (store cfg.three (f s' (store cfg.three (f s (store cfg.three c.cur 0)) 0)) c.cur) := by
    simp [specStep, hz, store_store]
  rw [h1, h2, Option.some.injEq]
  exact store_eq_iff _ _ _ _ _

/-- **C137 violated** (dilute alloys; CALPHAD with several grains of two solid phases): the evaluation after the diagnostics starts
from their result. -/
theorem c137_violation_guess_current (cfg : StartGuess.Cfg) (hf : cfg.fam = .current) (f : τ → Trip nc → Trip nc) (c : Cell nc)
    (s d s' : τ) :
    (steps cfg (fun s g => some (f s g)) c [[(s, 0), (d, 0)], [(s', 0)]]).map Cell.cur =
      (steps cfg (fun s g => some (f s g)) c [[(s, 0)], [(s', 0)]]).map Cell.cur ↔
    store cfg.three (f s' (store cfg.three (f d (store cfg.three (f s (store cfg.three c.cur 0)) 0)) 0)) 0 =
      store cfg.three (f s' (store cfg.three (f s (store cfg.three c.cur 0)) 0)) 0 := by
  have hz : ∀ x y : Trip nc, store cfg.three (store cfg.three x y) 0 = store cfg.three x 0 := fun x y =>
    store_zero_congr cfg.three cfg.three id x y
  have h1 : (steps cfg (fun s g => some (f s g)) c [[(s, 0), (d, 0)], [(s', 0)]]).map Cell.cur =
      some (store cfg.three (f s' (store cfg.three (f d (store cfg.three (f s (store cfg.three c.cur 0)) 0)) 0)) c.cur) := by
    by_cases h : cfg.calphad = true <;> simp [steps, advance, evals, eval, guess, hf, h, resetRef, hz, store_store]
  have h2 : (steps cfg (fun s g => some (f s g)) c [[(s, 0)], [(s', 0)]]).map Cell.cur =
      some (store cfg.three (f s' (store cfg.three (f s (store cfg.three c.cur 0)) 0)) c.cur) := by
    by_cases h : cfg.calphad = true <;> simp [steps, advance, evals, eval, guess, hf, h, resetRef, hz, store_store]
  rw [h1, h2, Option.some.injEq]
  exact store_eq_iff _ _ _ _ _

/-- **C137 violated**: diagnostics printed for a state for which the solver fails end the run, although the integrator did not ask
for that state. -/
theorem c137_violation_stop (cfg : StartGuess.Cfg) (solve : Solver τ nc) (c : Cell nc) (es : List (τ × Trip nc)) (d : τ × Trip nc)
    (hd : ∀ g, solve d.1 g = none) : advance cfg solve c (es ++ [d]) = none := by
  unfold advance evals
  rw [List.foldlM_append]
  cases List.foldlM (eval cfg solve) (if cfg.calphad = true then resetRef cfg.withB c else c) es with
  | none => rfl
  | some c' => simp [eval, hd]

/-- **C137 violated**: naming a file for the free energy curves (which makes a new CALPHAD run compute the equilibrium
compositions `ceq`) changes the starting point of the initial diagnostics, and through them that of the first step. -/
theorem c137_violation_file (cfg : StartGuess.Cfg) (hf : cfg.fam = .ref) (hc : cfg.calphad = true)
    (hb : cfg.three = true → cfg.withB = true) (f : τ → Trip nc → Trip nc) (c : Cell nc) (ceq : Fin 4 → ℝ) (d s : τ) :
    ((preRun cfg (fun s g => some (f s g)) false (some ceq) (some (d, 0)) c).bind fun c' =>
        advance cfg (fun s g => some (f s g)) c' [(s, 0)]).map Cell.cur =
      ((preRun cfg (fun s g => some (f s g)) false none (some (d, 0)) c).bind fun c' =>
        advance cfg (fun s g => some (f s g)) c' [(s, 0)]).map Cell.cur ↔
    store cfg.three (f s (store cfg.three (f d (store cfg.three (setEquilibrium cfg.withB ceq c).ref 0)) 0)) 0 =
      store cfg.three (f s (store cfg.three (f d (store cfg.three c.ref 0)) 0)) 0 := by
  have hz : ∀ x y : Trip nc, store cfg.three (store cfg.three x y) 0 = store cfg.three x 0 := fun x y =>
    store_zero_congr cfg.three cfg.three id x y
  have key : ∀ c' : Cell nc, c'.cur = c.cur →
      ((eval cfg (fun s g => some (f s g)) c' (d, 0)).bind fun c' =>
        advance cfg (fun s g => some (f s g)) c' [(s, 0)]).map Cell.cur =
      some (store cfg.three (f s (store cfg.three (f d (store cfg.three c'.ref 0)) 0)) c.cur) := by
    intro c' h
    simp only [eval, guess, hf, Option.map_some, Option.bind_some]
    rw [c111_step cfg hf hc hb]
    simp [specStep, hz, store_store, h]
  have e1 : preRun cfg (fun s g => some (f s g)) false (some ceq) (some (d, 0)) c =
    eval cfg (fun s g => some (f s g)) (setEquilibrium cfg.withB ceq c) (d, 0) := rfl
  have e2 : preRun cfg (fun s g => some (f s g)) false none (some (d, 0)) c =
    eval cfg (fun s g => some (f s g)) c (d, 0) := rfl
  rw [e1, e2, key c rfl, key (setEquilibrium cfg.withB ceq c) rfl, Option.some.injEq]
  exact store_eq_iff _ _ _ _ _

end Guess

/-! ## Instances -/

/-- An integrator that takes Euler steps of length 1. -/
noncomputable def exInt : Integrator ℝ (ℝ × State ℝ) where
  first s := (s.1, s.2, false)
  next s r := .done (s.1 + 1, { s.2 with phase := s.2.phase + r.phase })
  time s := s.1
  sol s := s.2
  frame _ v := v

/-- Euler steps for an alloy with fixed temperature, diagnostics printed after every step. -/
example (k : ℕ) : (run exOps exCfg 1 exInt (fun _ => 1) (exMem 2, (0, ⟨1, 0, 0, 2⟩)) k).map Prod.snd =
    (run exOps exCfg 1 exInt (fun _ => 0) (exMem 2, (0, ⟨1, 0, 0, 2⟩)) k).map Prod.snd :=
  c137_results_partial exOps exCfg (by simp [exCfg]) 1 exInt _ _ _ _ (fun _ => ⟨rfl, fun _ => rfl⟩) k

/-- A solver that does not get all the way (half way from its starting point to the solution): the diagnostics show. -/
example : (AMPE.StartGuess.steps (nc := 1) ⟨.ref, true, false, false⟩ (fun (s : ℝ) g => some fun p i => (g p i + s) / 2) ⟨0, 0⟩
      [[(1, 0), (2, 0)], [(0, 0)]]).map AMPE.StartGuess.Cell.cur ≠
    (AMPE.StartGuess.steps (nc := 1) ⟨.ref, true, false, false⟩ (fun (s : ℝ) g => some fun p i => (g p i + s) / 2) ⟨0, 0⟩
      [[(1, 0)], [(0, 0)]]).map AMPE.StartGuess.Cell.cur := by
  rw [Ne, c137_violation_guess _ rfl rfl (by simp)]
  intro h
  have := congrFun (congrFun h 0) 0
  have h02 : (0 : Fin 3) ≠ 2 := by decide
  norm_num [AMPE.StartGuess.store, h02] at this

end AMPE.Observe.Props
