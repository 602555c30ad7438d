import Verif.Model.RateCall
import Mathlib.Tactic.Linarith
import Mathlib.Tactic.NormNum

/-! # C92: the rate handed to the time integrator is a function of time and state

CVODE assumes `y' = f(t, y)`. Whatever was evaluated before within the step (other states, other times, finite differences,
preconditioner setups), the same time and state must give the same rate; finite differences must be differences of the same function. -/

namespace AMPE.RateCall.Props

open AMPE.RateCall

variable {V : Type}

/-- Two memories within the same step: arrays of the last accepted step, frame velocity and time of the last accepted step agree;
so does the temperature if nothing sets it. -/
structure SameStep (c : Cfg) (m m' : Mem V) : Prop where
  temp : m.curTemp = m'.curTemp
  conc : m.curConc = m'.curConc
  frame : m.frame = m'.frame
  last : m.lastTime = m'.lastTime
  fixed : c.temp = .constant → m.tempS = m'.tempS

theorem SameStep.refl (c : Cfg) (m : Mem V) : SameStep c m m := ⟨rfl, rfl, rfl, rfl, fun _ => rfl⟩

theorem SameStep.trans {c : Cfg} {m m' m'' : Mem V} (h : SameStep c m m') (h' : SameStep c m' m'') : SameStep c m m'' :=
  ⟨h.temp.trans h'.temp, h.conc.trans h'.conc, h.frame.trans h'.frame, h.last.trans h'.last,
    fun hc => (h.fixed hc).trans (h'.fixed hc)⟩

/-! ## What a call leaves alone -/

theorem same_setTemperature (o : Ops V) (c : Cfg) (t : ℝ) (m : Mem V) : SameStep c m (setTemperature o c t m) := by
  unfold setTemperature
  split <;> rename_i h <;> exact ⟨rfl, rfl, rfl, rfl, fun hc => by simp_all⟩

theorem same_coef (o : Ops V) (c : Cfg) (t : ℝ) (y : State V) (r : Bool) (m : Mem V) : SameStep c m (setCoefficients o c t y r m) :=
  ⟨rfl, rfl, rfl, rfl, fun hc => by simp [setCoefficients, mobilities, phaseConcentrations, phaseGradients, quatGradients, fillScratch, hc]⟩

theorem same_pass (o : Ops V) (c : Cfg) (t : ℝ) (e : Bool) (m : Mem V) : SameStep c m (pass o c t e m).1 :=
  ⟨rfl, rfl, rfl, rfl, fun _ => rfl⟩

theorem same_loop (o : Ops V) (c : Cfg) (t : ℝ) (e : Bool) (n : ℕ) (m : Mem V) (p : Mem V × V) (h : loop o c t e n m = some p) :
    SameStep c m p.1 := by
  induction n generalizing m with
  | zero => simp [loop] at h
  | succ n ih =>
    simp only [loop] at h
    have hp := same_pass o c t e m
    split at h
    · exact hp.trans (ih _ h)
    · simp only [Option.some.injEq] at h
      rw [← h]; exact hp

theorem same_finish (o : Ops V) (c : Cfg) (r : Bool) (v : V) (m : Mem V) : SameStep c m (finish o c r v m).1 :=
  ⟨rfl, rfl, rfl, rfl, fun _ => rfl⟩

theorem same_evaluate (o : Ops V) (c : Cfg) (n : ℕ) (t : ℝ) (y : State V) (fd : Bool) (m : Mem V) (p : Mem V × Rate V)
    (h : evaluate o c n t y fd m = some p) : SameStep c m p.1 := by
  unfold evaluate at h
  dsimp only at h
  split at h
  · cases h
  simp only [Option.map_eq_some_iff] at h
  obtain ⟨q, hq, rfl⟩ := h
  exact (same_setTemperature o c t m).trans ((same_coef o c t y _ _).trans ((same_loop o c t _ n _ _ hq).trans (same_finish o c _ _ _)))

/-- No call of the integrator changes the arrays of the last accepted step. -/
theorem same_history (o : Ops V) (c : Cfg) (n : ℕ) (ks : List (Call V)) (m m' : Mem V) (h : history o c n m ks = some m') :
    SameStep c m m' := by
  induction ks generalizing m with
  | nil => simp only [history, Option.some.injEq] at h; rw [h]; exact SameStep.refl c _
  | cons k ks ih =>
    simp only [history, Option.bind_eq_some_iff] at h
    obtain ⟨m1, h1, h2⟩ := h
    refine SameStep.trans ?_ (ih m1 h2)
    cases k with
    | rate t y fd =>
      simp only [after, Option.map_eq_some_iff] at h1
      obtain ⟨p, hp, rfl⟩ := h1
      exact same_evaluate o c n t y fd m p hp
    | setup t y =>
      simp only [after, Option.some.injEq] at h1
      rw [← h1]; exact same_coef o c t y true m

/-! ## The rate as a function -/

/-- Temperature at time `t` in state `y`. -/
def tempOf (o : Ops V) (c : Cfg) (m : Mem V) (t : ℝ) (y : State V) : V :=
  match c.temp with
  | .prescribed => o.prescribed t m.frame
  | .steadyGauss => o.steadyGauss t (heat o c m)
  | .steadyComp => o.steadyComp m.curConc (heat o c m)
  | .constant => m.tempS
  | .unsteady => o.fillTemp t y.temp

/-- Phase compositions for a given partition coefficient. -/
def pcOf (o : Ops V) (c : Cfg) (m : Mem V) (t : ℝ) (y : State V) : V :=
  o.split (tempOf o c m t y) (o.fillPhase t y.phase) (o.fillConc t y.conc)
    (if c.partition then some (o.kOther (tempOf o c m t y) (o.fillPhase t y.phase)) else none)

/-- The rate of the phase without rigid motion and frame. -/
def bareOf (o : Ops V) (c : Cfg) (m : Mem V) (t : ℝ) (y : State V) (pc : V) : V :=
  o.phaseRate (o.fillPhase t y.phase) (if c.quat then some (o.fillQuat t y.quat) else none) (tempOf o c m t y)
    (if c.quat then some (o.gradMod (o.gradSide (o.diffQuat (o.fillQuat t y.quat)))) else none)
    (if c.conc then some (o.fillConc t y.conc) else none) (if c.conc && c.phaseConc then some pc else none)
    (o.mobPhase (o.fillPhase t y.phase) (tempOf o c m t y) (if c.conc && c.phaseConc then some pc else none))

/-- Diffusion coefficients in state `y`. -/
def diffOf (o : Ops V) (c : Cfg) (m : Mem V) (t : ℝ) (y : State V) : V :=
  o.diffusion (tempOf o c m t y) (o.fillPhase t y.phase) (if c.phaseConc then some (pcOf o c m t y) else none)

/-- Orientation gradients in state `y`. -/
def sideOf (o : Ops V) (t : ℝ) (y : State V) : V := o.gradSide (o.diffQuat (o.fillQuat t y.quat))

/-- The rates as a function of time, state, and of the arrays of the last accepted step; the orientation gradients in the
denominator and the diffusion coefficients are arguments. -/
noncomputable def rateGen (o : Ops V) (c : Cfg) (m : Mem V) (t : ℝ) (y : State V) (copy diff : V) : Rate V :=
  let ph := o.fillPhase t y.phase
  let T := tempOf o c m t y
  let pc := pcOf o c m t y
  let bare := bareOf o c m t y pc
  let f := o.rigidForce ph m.curConc
  let r1 := if c.rigid then o.addRigid bare f ph else bare
  let cr := o.concRate (o.fillConc t y.conc) ph T (if c.phaseConc then some pc else none) diff
    (if c.antitrap then some (o.dphidt t bare) else none)
  let cr1 := if c.rigid then o.addRigidConc cr f ph else cr
  let tr := o.tempRate T (heat o c m) (o.dphidt t bare)
  { phase := if c.moving then o.addFrame r1 m.frame ph else r1
    quat := if c.quat then
      some (o.quatRate ph T (sideOf o t y) (if t < c.uniformUntil then o.uniformSide else copy) (o.symmQuat (o.fillQuat t y.quat))
        (o.mobQuat ph) (o.fillQuat t y.quat)) else none
    conc := if c.conc then some (if c.moving then o.addFrame cr1 m.frame (o.fillConc t y.conc) else cr1) else none
    temp := if c.temp = .unsteady then some (if c.moving then o.addFrame tr m.frame T else tr) else none }

/-- The rate function: gradients and coefficients of the state itself. -/
noncomputable def rateOf (o : Ops V) (c : Cfg) (m : Mem V) (t : ℝ) (y : State V) : Rate V :=
  rateGen o c m t y (sideOf o t y) (diffOf o c m t y)

theorem rateOf_same (o : Ops V) (c : Cfg) (m m' : Mem V) (h : SameStep c m m') (t : ℝ) (y : State V) :
    rateOf o c m t y = rateOf o c m' t y := by
  have hT : tempOf o c m t y = tempOf o c m' t y := by
    unfold tempOf heat
    cases hc : c.temp <;> simp [h.temp, h.conc, h.frame]
    exact h.fixed hc
  have hh : heat o c m = heat o c m' := by unfold heat; rw [h.conc, h.temp]
  unfold rateOf rateGen diffOf pcOf bareOf
  rw [hT, hh, h.frame, h.conc]

/-! ## Registers after `setCoefficients` -/

section registers
variable (o : Ops V) (c : Cfg) (t : ℝ) (y : State V) (r : Bool) (m : Mem V)

theorem coef_phaseS : (setCoefficients o c t y r m).phaseS = o.fillPhase t y.phase := rfl

theorem coef_quatS (hq : c.quat = true) : (setCoefficients o c t y r m).quatS = o.fillQuat t y.quat := by
  simp [setCoefficients, mobilities, phaseConcentrations, phaseGradients, quatGradients, fillScratch, hq]

theorem coef_concS (hc : c.conc = true) : (setCoefficients o c t y r m).concS = o.fillConc t y.conc := by
  simp [setCoefficients, mobilities, phaseConcentrations, phaseGradients, quatGradients, fillScratch, hc]

theorem coef_side (hq : c.quat = true) :
    (setCoefficients o c t y r m).side = o.gradSide (o.diffQuat (o.fillQuat t y.quat)) ∧
    (setCoefficients o c t y r m).symm = o.symmQuat (o.fillQuat t y.quat) ∧
    (setCoefficients o c t y r m).gmod = o.gradMod (o.gradSide (o.diffQuat (o.fillQuat t y.quat))) ∧
    (setCoefficients o c t y r m).mobQ = o.mobQuat (o.fillPhase t y.phase) ∧
    (setCoefficients o c t y r m).sideCopy = if t < c.uniformUntil then o.uniformSide
      else if r then o.gradSide (o.diffQuat (o.fillQuat t y.quat)) else m.sideCopy := by
  simp [setCoefficients, mobilities, phaseConcentrations, phaseGradients, quatGradients, fillScratch, hq]

theorem coef_tempS : (setCoefficients o c t y r (setTemperature o c t m)).tempS = tempOf o c m t y := by
  have h1 : ∀ m : Mem V, (setCoefficients o c t y r m).tempS = if c.temp = .unsteady then o.fillTemp t y.temp else m.tempS :=
    fun m => rfl
  rw [h1]
  unfold setTemperature tempOf
  cases c.temp <;> simp

theorem temp_keep : (setTemperature o c t m).vel = m.vel ∧ (setTemperature o c t m).diff = m.diff ∧
    (setTemperature o c t m).noise = m.noise ∧ (setTemperature o c t m).noiseTime = m.noiseTime ∧
    (setTemperature o c t m).deltat = m.deltat ∧ (setTemperature o c t m).draws = m.draws ∧
    (setTemperature o c t m).sideCopy = m.sideCopy ∧ (setTemperature o c t m).diffTime = m.diffTime ∧
    (setTemperature o c t m).gradTime = m.gradTime ∧ (setTemperature o c t m).phaseDiff = m.phaseDiff ∧
    (setTemperature o c t m).phaseGrad = m.phaseGrad := by
  unfold setTemperature
  cases c.temp <;> exact ⟨rfl, rfl, rfl, rfl, rfl, rfl, rfl, rfl, rfl, rfl, rfl⟩

/-- Partition coefficient used when the phase compositions are computed with velocity `v`. -/
def kOf (T : V) (v : V) : Option V :=
  if c.partition then some (if c.aziz then o.kAziz v T else o.kOther T (o.fillPhase t y.phase)) else none

theorem coef_pc (h1 : c.conc = true) (h2 : c.phaseConc = true) :
    (setCoefficients o c t y r m).pc = o.split (setCoefficients o c t y r m).tempS (o.fillPhase t y.phase) (o.fillConc t y.conc)
      (kOf o c t y (setCoefficients o c t y r m).tempS m.vel) := by
  simp [setCoefficients, mobilities, phaseConcentrations, phaseGradients, quatGradients, fillScratch, kOf, h1, h2]

theorem coef_mobP : (setCoefficients o c t y r m).mobP = o.mobPhase (o.fillPhase t y.phase) (setCoefficients o c t y r m).tempS
    (if c.conc && c.phaseConc then some (setCoefficients o c t y r m).pc else none) := rfl

end registers

/-! ## Theorems -/

/-- What an evaluation returns, for the residual and for finite differences, without Aziz's partition coefficient and without noise. -/
theorem evaluate_eq (o : Ops V) (c : Cfg) (ha : (c.partition && c.aziz) = false) (hn : c.noise = false) (n : ℕ) (t : ℝ) (y : State V)
    (fd : Bool) (m : Mem V) : ∃ m', evaluate o c (n + 1) t y fd m =
      some (m', rateGen o c m t y (if fd && c.lag then m.sideCopy else sideOf o t y) (if fd && c.lag then m.diff else diffOf o c m t y)) ∧
      (c.conc = true → m'.diff = if fd && c.lag then m.diff else diffOf o c m t y) ∧
      (c.quat = true → m'.sideCopy = if t < c.uniformUntil then o.uniformSide
        else if fd && c.lag then m.sideCopy else sideOf o t y) := by
  have hr : (!fd || !c.lag) = !(fd && c.lag) := by cases fd <;> cases c.lag <;> rfl
  generalize hrr : (!(fd && c.lag)) = r at hr
  have hfl : (fd && c.lag) = !r := by rw [← hrr]; simp
  rw [hfl]
  have hT := coef_tempS o c t y r m
  have hs := (same_setTemperature o c t m).trans (same_coef o c t y r (setTemperature o c t m))
  have hp := coef_phaseS o c t y r (setTemperature o c t m)
  have hq := coef_quatS o c t y r (setTemperature o c t m)
  have hc := coef_concS o c t y r (setTemperature o c t m)
  have hsd := coef_side o c t y r (setTemperature o c t m)
  have hmp := coef_mobP o c t y r (setTemperature o c t m)
  have hdf : (setCoefficients o c t y r (setTemperature o c t m)).diff = m.diff := (temp_keep o c t m).2.1
  have hcp : (setTemperature o c t m).sideCopy = m.sideCopy := (temp_keep o c t m).2.2.2.2.2.2.1
  have hpc : c.conc = true → c.phaseConc = true → (setCoefficients o c t y r (setTemperature o c t m)).pc = pcOf o c m t y := by
    intro h1 h2
    rw [coef_pc o c t y r _ h1 h2, hT]
    unfold pcOf kOf
    by_cases hpt : c.partition = true
    · have : c.aziz = false := by simpa [hpt] using ha
      simp [hpt, this]
    · simp [hpt]
  rw [hcp] at hsd
  unfold evaluate
  simp only [hr, loop, pass, ha, Bool.false_and, Bool.false_eq_true, if_false, Option.map_some, Option.some.injEq]
  generalize setCoefficients o c t y r (setTemperature o c t m) = M at *
  rw [hT] at hmp
  have hpp : c.conc = true → (if c.phaseConc then some M.pc else none) = (if c.phaseConc then some (pcOf o c m t y) else none) := by
    intro h1
    split_ifs with h
    · rw [hpc h1 h]
    · rfl
  refine ⟨_, Prod.ext rfl ?_, ?_, ?_⟩
  rotate_left
  · intro h1
    simp only [phaseStep, finish, phaseConcentrations, diffOf, hp, hT, hdf, h1, hpp h1, Bool.true_and, Bool.false_and, Bool.false_eq_true, if_false]
    cases r <;> simp
  · intro h1
    have := (hsd h1).2.2.2.2
    simp only [phaseStep, finish, phaseConcentrations, sideOf]
    rw [this]
    cases r <;> simp
  have hpo : (if c.conc && c.phaseConc then some M.pc else none) = (if c.conc && c.phaseConc then some (pcOf o c m t y) else none) := by
    split_ifs with h
    · simp only [Bool.and_eq_true] at h
      rw [hpc h.1 h.2]
    · rfl
  have hqo : (if c.quat then some M.quatS else none) = (if c.quat then some (o.fillQuat t y.quat) else none) := by
    split_ifs with h
    · rw [hq h]
    · rfl
  have hgo : (if c.quat then some M.gmod else none) =
      (if c.quat then some (o.gradMod (o.gradSide (o.diffQuat (o.fillQuat t y.quat)))) else none) := by
    split_ifs with h
    · rw [(hsd h).2.2.1]
    · rfl
  have hco : (if c.conc then some M.concS else none) = (if c.conc then some (o.fillConc t y.conc) else none) := by
    split_ifs with h
    · rw [hc h]
    · rfl
  have hbare : o.phaseRate M.phaseS (if c.quat then some M.quatS else none) M.tempS (if c.quat then some M.gmod else none)
      (if c.conc then some M.concS else none) (if c.conc && c.phaseConc then some M.pc else none) M.mobP = bareOf o c m t y (pcOf o c m t y) := by
    rw [hmp, hpo, hqo, hgo, hco, hp, hT]; rfl
  have hfr : M.frame = m.frame := hs.frame.symm
  have hht : heat o c M = heat o c m := by unfold heat; rw [hs.conc, hs.temp]
  simp only [phaseStep, hbare, hn, Bool.false_and, Bool.false_eq_true, if_false, finish, phaseConcentrations, rateGen]
  simp only [hp, hT, hfr, ← hs.conc, Rate.mk.injEq]
  refine ⟨?_, ?_, ?_, ?_⟩
  · by_cases h1 : c.rigid = true <;> by_cases h2 : c.moving = true <;> simp [h1, h2]
  · by_cases h1 : c.quat = true
    · obtain ⟨a1, a2, -, a4, a5⟩ := hsd h1
      simp only [h1, if_true, a1, a2, a4, a5, hq h1, sideOf]
      cases r <;> simp
    · simp [h1]
  · by_cases h1 : c.conc = true
    · have hat : (if c.antitrap then some (if c.needDphiDt then o.dphidt t (bareOf o c m t y (pcOf o c m t y)) else M.dphidt) else none) =
          (if c.antitrap then some (o.dphidt t (bareOf o c m t y (pcOf o c m t y))) else none) := by
        split_ifs with h h'
        · rfl
        · exact absurd (by simp [Cfg.needDphiDt, h]) h'
        · rfl
      simp only [h1, if_true, hpp h1, hat, hc h1, hdf, diffOf, Bool.true_and]
      cases r <;> by_cases h2 : c.rigid = true <;> simp [h2]
    · simp [h1]
  · by_cases h1 : c.temp = .unsteady
    · have : c.needDphiDt = true := by simp [Cfg.needDphiDt, h1]
      unfold heat
      simp only [h1, if_true, this, ← hs.conc, ← hs.temp]
    · simp [h1]

/-- **C92** (partial: without Aziz's partition coefficient, without noise) Whatever the integrator has called before within the step,
the rate at time `t` and state `y` is the same function of `t`, `y` and the arrays of the last accepted step. -/
theorem c92_function_partial (o : Ops V) (c : Cfg) (ha : (c.partition && c.aziz) = false) (hn : c.noise = false) (n k : ℕ)
    (ks : List (Call V)) (m m' : Mem V) (h : history o c k m ks = some m') (t : ℝ) (y : State V) :
    (evaluate o c (n + 1) t y false m').map Prod.snd = some (rateOf o c m t y) := by
  obtain ⟨m'', h1, -⟩ := evaluate_eq o c ha hn n t y false m'
  rw [h1, rateOf_same o c m m' (same_history o c k ks m m' h)]
  simp [rateOf]

/-- **C92** (partial) With `lag_quat_sidegrad = FALSE` finite differences are differences of this function. -/
theorem c92_difference_partial (o : Ops V) (c : Cfg) (ha : (c.partition && c.aziz) = false) (hn : c.noise = false) (hl : c.lag = false)
    (n k : ℕ) (ks : List (Call V)) (m m' : Mem V) (h : history o c k m ks = some m') (t : ℝ) (y : State V) :
    (evaluate o c (n + 1) t y true m').map Prod.snd = some (rateOf o c m t y) := by
  obtain ⟨m'', h1, -⟩ := evaluate_eq o c ha hn n t y true m'
  rw [h1, rateOf_same o c m m' (same_history o c k ks m m' h)]
  simp [rateOf, hl]

/-- The calls of a Krylov solve: rates for finite differences. -/
def fdCalls (l : List (ℝ × State V)) : List (Call V) := l.map fun p => .rate p.1 p.2 true

/-- Finite differences leave the lagged arrays alone. -/
theorem fd_keep (o : Ops V) (c : Cfg) (ha : (c.partition && c.aziz) = false) (hn : c.noise = false) (hl : c.lag = true) (k : ℕ)
    (l : List (ℝ × State V)) (m m' : Mem V) (h : history o c (k + 1) m (fdCalls l) = some m') :
    (c.conc = true → m'.diff = m.diff) ∧ (c.quat = true → (∀ p ∈ l, c.uniformUntil ≤ p.1) → m'.sideCopy = m.sideCopy) := by
  induction l generalizing m with
  | nil =>
    simp only [fdCalls, List.map_nil, history, Option.some.injEq] at h
    rw [h]; exact ⟨fun _ => rfl, fun _ _ => rfl⟩
  | cons p l ih =>
    simp only [fdCalls, List.map_cons, history, after, Option.bind_eq_some_iff] at h
    obtain ⟨m1, h1, h2⟩ := h
    obtain ⟨m2, e1, e2, e3⟩ := evaluate_eq o c ha hn k p.1 p.2 true m
    rw [e1] at h1
    simp only [Option.map_some, Option.some.injEq] at h1
    subst h1
    obtain ⟨i1, i2⟩ := ih m2 h2
    refine ⟨fun hc => (i1 hc).trans (by simpa [hl] using e2 hc), fun hq hu => (i2 hq fun p hp => hu p (List.mem_cons_of_mem _ hp)).trans ?_⟩
    have := e3 hq
    rw [if_neg (not_lt.2 (hu p List.mem_cons_self))] at this
    simpa [hl] using this

/-- **C92** (violation) With `lag_quat_sidegrad` (the default), after a rate at `(t₀, y₀)` every finite difference uses the diffusion
coefficients of the composition and the orientation gradients in the denominator of `(t₀, y₀)`, whether or not orientations are
evolved. -/
theorem c92_violation_lag (o : Ops V) (c : Cfg) (ha : (c.partition && c.aziz) = false) (hn : c.noise = false) (hl : c.lag = true)
    (n k : ℕ) (t0 : ℝ) (y0 : State V) (l : List (ℝ × State V)) (m m' : Mem V) (hu : ∀ p ∈ l, c.uniformUntil ≤ p.1) (hu0 : c.uniformUntil ≤ t0)
    (h : history o c (k + 1) m (.rate t0 y0 false :: fdCalls l) = some m') (t : ℝ) (y : State V) :
    (evaluate o c (n + 1) t y true m').map Prod.snd = some (rateGen o c m t y (sideOf o t0 y0) (diffOf o c m t0 y0)) := by
  have hsame := same_history o c _ _ m m' h
  obtain ⟨m'', h1, -⟩ := evaluate_eq o c ha hn n t y true m'
  simp only [history, after, Option.bind_eq_some_iff] at h
  obtain ⟨m1, g1, g2⟩ := h
  obtain ⟨m2, e1, e2, e3⟩ := evaluate_eq o c ha hn k t0 y0 false m
  rw [e1] at g1
  simp only [Option.map_some, Option.some.injEq] at g1
  subst g1
  obtain ⟨i1, i2⟩ := fd_keep o c ha hn hl k l m2 m' g2
  have hT : tempOf o c m t y = tempOf o c m' t y := by
    unfold tempOf heat
    cases hc : c.temp <;> simp [hsame.temp, hsame.conc, hsame.frame]
    exact hsame.fixed hc
  have hh : heat o c m = heat o c m' := by unfold heat; rw [hsame.conc, hsame.temp]
  rw [h1]
  simp only [Option.map_some, Bool.true_and, hl, if_true, Option.some.injEq]
  unfold rateGen pcOf bareOf
  rw [hT, hh, hsame.frame, hsame.conc]
  simp only [Rate.mk.injEq, true_and, and_true]
  refine ⟨?_, ?_⟩
  · by_cases hq : c.quat = true
    · have := e3 hq
      rw [if_neg (not_lt.2 hu0)] at this
      rw [i2 hq hu, this]
      simp
    · simp [hq]
  · by_cases hc : c.conc = true
    · have := e2 hc
      rw [i1 hc, this]
      simp
    · simp [hc]

/-- Hence the finite difference is not a difference of the rate function wherever the composition rate depends on the diffusion
coefficients and these depend on the state. -/
theorem c92_violation_lag_differs (o : Ops V) (c : Cfg) (ha : (c.partition && c.aziz) = false) (hn : c.noise = false) (hl : c.lag = true)
    (hc : c.conc = true) (hri : c.rigid = false) (hmo : c.moving = false) (n k : ℕ) (t0 : ℝ) (y0 : State V) (m m' : Mem V)
    (hu0 : c.uniformUntil ≤ t0) (h : history o c (k + 1) m [.rate t0 y0 false] = some m') (t : ℝ) (y : State V)
    (hinj : ∀ u p T x a, Function.Injective fun d => o.concRate u p T x d a) (hd : diffOf o c m t0 y0 ≠ diffOf o c m t y) :
    (evaluate o c (n + 1) t y true m').map Prod.snd ≠ some (rateOf o c m t y) := by
  rw [c92_violation_lag o c ha hn hl n k t0 y0 [] m m' (by simp) hu0 h]
  intro he
  simp only [Option.some.injEq, rateOf, rateGen, Rate.mk.injEq, hc, hri, hmo, if_true, Bool.false_eq_true, if_false] at he
  exact hd (hinj _ _ _ _ _ he.2.2.1)

/-! ## Aziz's partition coefficient: the velocity -/

/-- Phase compositions for interface velocity `v`, from the arrays in memory. -/
def azSplit (o : Ops V) (m : Mem V) (v : V) : V := o.split m.tempS m.phaseS m.concS (some (o.kAziz v m.tempS))

/-- Rate of the phase for interface velocity `v`. -/
def azRate (o : Ops V) (c : Cfg) (m : Mem V) (v : V) : V :=
  let r0 := o.phaseRate m.phaseS (if c.quat then some m.quatS else none) m.tempS (if c.quat then some m.gmod else none)
    (some m.concS) (some (azSplit o m v)) m.mobP
  let r1 := if c.rigid then o.addRigid r0 (o.rigidForce m.phaseS m.curConc) m.phaseS else r0
  if c.moving then o.addFrame r1 m.frame m.phaseS else r1

/-- Velocity that results from assuming velocity `v`. -/
def azVel (o : Ops V) (c : Cfg) (m : Mem V) (v : V) : V := o.velocity m.phaseGrad (azRate o c m v)

/-- Settings of Aziz's model: partition coefficients need phase compositions. -/
structure AzizOn (c : Cfg) : Prop where
  conc : c.conc = true
  split : c.phaseConc = true
  part : c.partition = true
  az : c.aziz = true
  noise : c.noise = false
  vel : c.velocity = true

/-- Memory in which the loop starts. -/
noncomputable def start (o : Ops V) (c : Cfg) (t : ℝ) (y : State V) (fd : Bool) (m : Mem V) : Mem V :=
  setCoefficients o c t y (!fd || !c.lag) (setTemperature o c t m)

theorem start_pc (o : Ops V) (c : Cfg) (h : AzizOn c) (t : ℝ) (y : State V) (fd : Bool) (m : Mem V) :
    (start o c t y fd m).pc = azSplit o (start o c t y fd m) (start o c t y fd m).vel ∧ (start o c t y fd m).vel = m.vel := by
  have hv : (start o c t y fd m).vel = m.vel := (temp_keep o c t m).1
  refine ⟨?_, hv⟩
  unfold start at hv ⊢
  rw [coef_pc o c t y _ _ h.conc h.split, (temp_keep o c t m).1, hv]
  unfold azSplit kOf
  rw [coef_phaseS, coef_concS o c t y _ _ h.conc]
  simp [h.part, h.az]

/-- One evaluation: a single pass. -/
theorem evaluate_az (o : Ops V) (c : Cfg) (h : AzizOn c) (hcl : ∀ v, o.close v v = true) (n : ℕ) (t : ℝ) (y : State V) (fd : Bool) (m : Mem V) :
    ∃ m' r, evaluate o c (n + 1) t y fd m = some (m', r) ∧ r.phase = azRate o c (start o c t y fd m) m.vel ∧
      m'.vel = (if fd then m.vel else azVel o c (start o c t y fd m) m.vel) ∧ m'.pc = azSplit o (start o c t y fd m) m'.vel := by
  obtain ⟨hpc, hv⟩ := start_pc o c h t y fd m
  have hnv : c.needVelocity = true := by simp [Cfg.needVelocity, h.part, h.az]
  unfold evaluate
  dsimp only
  rw [if_neg (by simp [h.vel])]
  change ∃ m' r, (loop o c t (!fd) (n + 1) (start o c t y fd m)).map (fun p => finish o c (!fd || !c.lag) p.2 p.1) = some (m', r) ∧ _
  generalize start o c t y fd m = M at *
  have e : (phaseStep o c t (!fd) M).2 = azRate o c M m.vel := by
    rw [hv] at hpc
    simp only [phaseStep, azRate, h.noise, h.conc, h.split, hpc, Bool.false_and, Bool.false_eq_true, if_false, Bool.and_self, if_true]
    by_cases h1 : c.rigid = true <;> simp [h1]
  have hg : (pass o c t (!fd) M).2.2 = false := by
    simp only [pass, hcl, Bool.not_true, Bool.and_false, phaseStep]
  have hr : (pass o c t (!fd) M).2.1 = azRate o c M m.vel := e
  have hmv : (pass o c t (!fd) M).1.vel = if fd then m.vel else azVel o c M m.vel := by
    have : (pass o c t (!fd) M).1.vel = if c.needVelocity && !fd then o.velocity (phaseStep o c t (!fd) M).1.phaseGrad (phaseStep o c t (!fd) M).2
        else (phaseStep o c t (!fd) M).1.vel := rfl
    rw [this, e, hnv]
    cases fd
    · rfl
    · exact hv
  have hmp : (pass o c t (!fd) M).1.pc = azSplit o M (pass o c t (!fd) M).1.vel := by
    simp only [pass, phaseConcentrations, azSplit, h.part, h.az, Bool.and_self, if_true]
    rfl
  refine ⟨(finish o c (!fd || !c.lag) (pass o c t (!fd) M).2.1 (pass o c t (!fd) M).1).1,
    (finish o c (!fd || !c.lag) (pass o c t (!fd) M).2.1 (pass o c t (!fd) M).1).2, ?_, hr, hmv, hmp⟩
  simp only [loop, hg, Bool.false_eq_true, if_false, Option.map_some]

/-- **C92** With Aziz's partition coefficient every evaluation returns, after a single pass: the loop meant to make velocity and compositions
consistent compares an array with itself. -/
theorem c92_aziz_returns (o : Ops V) (c : Cfg) (h : AzizOn c) (hcl : ∀ v, o.close v v = true) (n : ℕ) (t : ℝ) (y : State V) (fd : Bool) (m : Mem V) :
    evaluate o c (n + 1) t y fd m ≠ none := by
  obtain ⟨m', r, e, -⟩ := evaluate_az o c h hcl n t y fd m
  rw [e]
  exact Option.some_ne_none _

/-- **C92** (violation) The phase rate is the one for the velocity that the evaluation before, of whatever state, left in memory; the velocity it results
in is used for the phase compositions handed to the composition equation. -/
theorem c92_violation_aziz (o : Ops V) (c : Cfg) (h : AzizOn c) (hcl : ∀ v, o.close v v = true) (n : ℕ) (t : ℝ) (y : State V) (m : Mem V) :
    ∃ m' r, evaluate o c (n + 1) t y false m = some (m', r) ∧ r.phase = azRate o c (start o c t y false m) m.vel ∧
      m'.vel = azVel o c (start o c t y false m) m.vel ∧ m'.pc = azSplit o (start o c t y false m) m'.vel := by
  obtain ⟨m', r, e, e1, e2, e3⟩ := evaluate_az o c h hcl n t y false m
  exact ⟨m', r, e, e1, by simpa using e2, e3⟩

/-- **C92** (partial) Rate, velocity and compositions fit together if the velocity in memory is already the one the state results in.
Missing: all other velocities, see above. -/
theorem c92_aziz_consistent_partial (o : Ops V) (c : Cfg) (h : AzizOn c) (hcl : ∀ v, o.close v v = true) (n : ℕ) (t : ℝ) (y : State V) (m m' : Mem V)
    (r : Rate V) (he : evaluate o c (n + 1) t y false m = some (m', r)) (hfix : azVel o c (start o c t y false m) m.vel = m.vel) :
    m'.vel = m.vel ∧ r.phase = azRate o c (start o c t y false m) m'.vel ∧ m'.vel = azVel o c (start o c t y false m) m'.vel ∧
      m'.pc = azSplit o (start o c t y false m) m'.vel := by
  obtain ⟨m1, r1, e, e1, e2, e3⟩ := c92_violation_aziz o c h hcl n t y m
  rw [he] at e
  obtain ⟨rfl, rfl⟩ : m' = m1 ∧ r = r1 := by simpa using e
  have hv : m'.vel = m.vel := e2.trans hfix
  exact ⟨hv, by rw [e1, hv], by rw [hv, hfix], e3⟩

/-- **C92** (violation) The phase rate belongs to the velocity left for the next evaluation exactly if one more pass would not change it. -/
theorem c92_violation_aziz_unfinished (o : Ops V) (c : Cfg) (h : AzizOn c) (hcl : ∀ v, o.close v v = true) (n : ℕ) (t : ℝ) (y : State V) (m m' : Mem V)
    (r : Rate V) (he : evaluate o c (n + 1) t y false m = some (m', r)) :
    r.phase = azRate o c (start o c t y false m) m'.vel ↔
      azRate o c (start o c t y false m) m.vel = azRate o c (start o c t y false m) (azVel o c (start o c t y false m) m.vel) := by
  obtain ⟨m1, r1, e, e1, e2, -⟩ := c92_violation_aziz o c h hcl n t y m
  rw [he] at e
  obtain ⟨rfl, rfl⟩ : m' = m1 ∧ r = r1 := by simpa using e
  rw [e1, e2]

/-- **C92** (violation) For a finite difference the velocity is not computed: phase rate and compositions are those for the velocity left in memory. -/
theorem c92_violation_aziz_difference (o : Ops V) (c : Cfg) (h : AzizOn c) (hcl : ∀ v, o.close v v = true) (n : ℕ) (t : ℝ) (y : State V)
    (m : Mem V) : ∃ m' r, evaluate o c (n + 1) t y true m = some (m', r) ∧ m'.vel = m.vel ∧
      r.phase = azRate o c (start o c t y true m) m.vel ∧ m'.pc = azSplit o (start o c t y true m) m.vel := by
  obtain ⟨m', r, e, e1, e2, e3⟩ := evaluate_az o c h hcl n t y true m
  have e2' : m'.vel = m.vel := by simpa using e2
  exact ⟨m', r, e, e2', e1, by rw [e3, e2']⟩

/-- **C92** (violation) Aziz's partition coefficient with `velocity_output = FALSE`: no evaluation returns. -/
theorem c92_violation_no_velocity (o : Ops V) (c : Cfg) (hp : c.partition = true) (ha : c.aziz = true) (hv : c.velocity = false) (n : ℕ) (t : ℝ)
    (y : State V) (fd : Bool) (m : Mem V) : evaluate o c n t y fd m = none := by
  unfold evaluate
  simp [hp, ha, hv]

/-! ## The gradient of the phase, kept by time -/

/-- **C92** (violation) The velocity uses the gradient of the phase of the first state evaluated at that time: evaluating `y₂` after `y₁`
at the same time combines the gradient of `y₁` with the rate of `y₂`. -/
theorem c92_violation_velocity_cache (o : Ops V) (c : Cfg) (ha : (c.partition && c.aziz) = false) (hv : c.velocity = true) (n k : ℕ) (t : ℝ)
    (y1 y2 : State V) (fd : Bool) (m m1 m2 : Mem V) (r : Rate V) (hd : m.diffTime ≠ some t) (hg : m.gradTime ≠ some t)
    (h1 : history o c (k + 1) m [.rate t y1 fd] = some m1) (h2 : evaluate o c (n + 1) t y2 false m1 = some (m2, r)) :
    m2.vel = o.velocity (o.gradPhase (o.diffPhase (o.fillPhase t y1.phase))) r.phase := by
  have hnv : c.needVelocity = true := by simp [Cfg.needVelocity, hv]
  have g1 : m1.gradTime = some t ∧ m1.phaseGrad = o.gradPhase (o.diffPhase (o.fillPhase t y1.phase)) := by
    simp only [history, after, evaluate, loop, pass, ha, Bool.false_and, Bool.false_eq_true, if_false, Option.map_some, Option.bind_some,
      Option.some.injEq] at h1
    rw [← h1]
    simp [finish, phaseStep, phaseConcentrations, setCoefficients, mobilities, phaseGradients, quatGradients, fillScratch, hnv,
      (temp_keep o c t m).2.2.2.2.2.2.2.1, (temp_keep o c t m).2.2.2.2.2.2.2.2.1, hd, hg]
  simp only [evaluate, loop, pass, ha, Bool.false_and, Bool.false_eq_true, if_false, Option.map_some, Option.some.injEq, Bool.not_false,
    Bool.true_or] at h2
  have e1 : m2 = _ := (congrArg Prod.fst h2).symm
  have e2 : r = _ := (congrArg Prod.snd h2).symm
  rw [e1, e2]
  simp only [finish, phaseConcentrations, hnv, Bool.and_self, if_true]
  have : (setCoefficients o c t y2 true (setTemperature o c t m1)).phaseGrad = m1.phaseGrad := by
    simp [setCoefficients, mobilities, phaseConcentrations, phaseGradients, quatGradients, fillScratch, hnv,
      (temp_keep o c t m1).2.2.2.2.2.2.2.2.1, (temp_keep o c t m1).2.2.2.2.2.2.2.2.2.2, g1.1]
  rw [← g1.2, ← this]
  rfl

/-- With different times the gradient is the one of the state itself. -/
theorem c92_velocity_partial (o : Ops V) (c : Cfg) (ha : (c.partition && c.aziz) = false) (hv : c.velocity = true) (n : ℕ) (t : ℝ)
    (y : State V) (m m' : Mem V) (r : Rate V) (hd : m.diffTime ≠ some t) (hg : m.gradTime ≠ some t)
    (h : evaluate o c (n + 1) t y false m = some (m', r)) :
    m'.vel = o.velocity (o.gradPhase (o.diffPhase (o.fillPhase t y.phase))) r.phase := by
  have hnv : c.needVelocity = true := by simp [Cfg.needVelocity, hv]
  simp only [evaluate, loop, pass, ha, Bool.false_and, Bool.false_eq_true, if_false, Option.map_some, Option.some.injEq, Bool.not_false,
    Bool.true_or] at h
  have e1 : m' = _ := (congrArg Prod.fst h).symm
  have e2 : r = _ := (congrArg Prod.snd h).symm
  rw [e1, e2]
  simp only [finish, phaseConcentrations, hnv, Bool.and_self, if_true]
  have : (setCoefficients o c t y true (setTemperature o c t m)).phaseGrad = o.gradPhase (o.diffPhase (o.fillPhase t y.phase)) := by
    simp [setCoefficients, mobilities, phaseConcentrations, phaseGradients, quatGradients, fillScratch, hnv,
      (temp_keep o c t m).2.2.2.2.2.2.2.1, (temp_keep o c t m).2.2.2.2.2.2.2.2.1, hd, hg]
  rw [← this]
  rfl

/-! ## Noise -/

/-- What an evaluation with noise does to the phase rate and to the registers of the noise. -/
theorem evaluate_noise (o : Ops V) (c : Cfg) (ha : (c.partition && c.aziz) = false) (hn : c.noise = true) (hri : c.rigid = false)
    (hmo : c.moving = false) (n : ℕ) (t : ℝ) (y : State V) (m : Mem V) (ht : m.lastTime < t) (hnew : m.noiseTime ≠ some t) :
    ∃ m' r, evaluate o c (n + 1) t y false m = some (m', r) ∧
      r.phase = o.addNoise (bareOf o c m t y (pcOf o c m t y)) (o.draw m.draws (o.fillPhase t y.phase)) (t - m.lastTime) ∧
      m'.noiseTime = some t ∧ m'.draws = m.draws + 1 := by
  have hT := coef_tempS o c t y true m
  have hp := coef_phaseS o c t y true (setTemperature o c t m)
  have hq := coef_quatS o c t y true (setTemperature o c t m)
  have hc := coef_concS o c t y true (setTemperature o c t m)
  have hsd := coef_side o c t y true (setTemperature o c t m)
  have hmp := coef_mobP o c t y true (setTemperature o c t m)
  have hk := temp_keep o c t m
  have hdr : (setCoefficients o c t y true (setTemperature o c t m)).draws = m.draws := hk.2.2.2.2.2.1
  have hnt : (setCoefficients o c t y true (setTemperature o c t m)).noiseTime = m.noiseTime := hk.2.2.2.1
  have hla : (setCoefficients o c t y true (setTemperature o c t m)).lastTime = m.lastTime :=
    ((same_setTemperature o c t m).trans (same_coef o c t y true (setTemperature o c t m))).last.symm
  have hpc : c.conc = true → c.phaseConc = true → (setCoefficients o c t y true (setTemperature o c t m)).pc = pcOf o c m t y := by
    intro h1 h2
    rw [coef_pc o c t y true _ h1 h2, hT]
    unfold pcOf kOf
    by_cases hpt : c.partition = true
    · have : c.aziz = false := by simpa [hpt] using ha
      simp [hpt, this]
    · simp [hpt]
  unfold evaluate
  simp only [Bool.not_false, Bool.true_or, loop, pass, ha, Bool.false_and, Bool.false_eq_true, if_false, Option.map_some, Option.some.injEq]
  generalize setCoefficients o c t y true (setTemperature o c t m) = M at *
  rw [hT] at hmp
  have hpo : (if c.conc && c.phaseConc then some M.pc else none) = (if c.conc && c.phaseConc then some (pcOf o c m t y) else none) := by
    split_ifs with h
    · simp only [Bool.and_eq_true] at h
      rw [hpc h.1 h.2]
    · rfl
  have hqo : (if c.quat then some M.quatS else none) = (if c.quat then some (o.fillQuat t y.quat) else none) := by
    split_ifs with h
    · rw [hq h]
    · rfl
  have hgo : (if c.quat then some M.gmod else none) =
      (if c.quat then some (o.gradMod (o.gradSide (o.diffQuat (o.fillQuat t y.quat)))) else none) := by
    split_ifs with h
    · rw [(hsd h).2.2.1]
    · rfl
  have hco : (if c.conc then some M.concS else none) = (if c.conc then some (o.fillConc t y.conc) else none) := by
    split_ifs with h
    · rw [hc h]
    · rfl
  have hbare : o.phaseRate M.phaseS (if c.quat then some M.quatS else none) M.tempS (if c.quat then some M.gmod else none)
      (if c.conc then some M.concS else none) (if c.conc && c.phaseConc then some M.pc else none) M.mobP = bareOf o c m t y (pcOf o c m t y) := by
    rw [hmp, hpo, hqo, hgo, hco, hp, hT]; rfl
  refine ⟨_, _, rfl, ?_, ?_, ?_⟩
  · simp only [finish, phaseStep, hbare]
    simp [hn, hri, hmo, hdr, hnt, hla, hnew, ht, hp]
  · rfl
  · simp [finish, phaseStep, phaseConcentrations, hn, hdr, hnt, hla, hnew, ht]

/-- **C92** (violation) Noise is drawn again whenever the time differs from the time of the previous evaluation: the same time and state, with
one evaluation at another time in between, get the draws number `d` and `d + 2`. -/
theorem c92_violation_noise (o : Ops V) (c : Cfg) (ha : (c.partition && c.aziz) = false) (hn : c.noise = true) (hri : c.rigid = false)
    (hmo : c.moving = false) (n : ℕ) (t t' : ℝ) (htt : t' ≠ t) (y y' : State V) (m : Mem V) (ht : m.lastTime < t) (ht' : m.lastTime < t')
    (hnew : m.noiseTime ≠ some t) :
    ∃ m1 m2 m3 r1 r2 r3, evaluate o c (n + 1) t y false m = some (m1, r1) ∧ evaluate o c (n + 1) t' y' false m1 = some (m2, r2) ∧
      evaluate o c (n + 1) t y false m2 = some (m3, r3) ∧
      r1.phase = o.addNoise (bareOf o c m t y (pcOf o c m t y)) (o.draw m.draws (o.fillPhase t y.phase)) (t - m.lastTime) ∧
      r3.phase = o.addNoise (bareOf o c m t y (pcOf o c m t y)) (o.draw (m.draws + 2) (o.fillPhase t y.phase)) (t - m.lastTime) := by
  obtain ⟨m1, r1, e1, p1, n1, d1⟩ := evaluate_noise o c ha hn hri hmo n t y m ht hnew
  have s1 : SameStep c m m1 := same_evaluate o c _ t y false m _ e1
  obtain ⟨m2, r2, e2, p2, n2, d2⟩ := evaluate_noise o c ha hn hri hmo n t' y' m1 (by rw [← s1.last]; exact ht')
    (by rw [n1]; simpa using fun h => htt h.symm)
  have s2 : SameStep c m m2 := s1.trans (same_evaluate o c _ t' y' false m1 _ e2)
  obtain ⟨m3, r3, e3, p3, n3, d3⟩ := evaluate_noise o c ha hn hri hmo n t y m2 (by rw [← s2.last]; exact ht)
    (by rw [n2]; simpa using htt)
  refine ⟨m1, m2, m3, r1, r2, r3, e1, e2, e3, p1, ?_⟩
  rw [p3, d2, d1, ← s2.last]
  have hT : tempOf o c m2 t y = tempOf o c m t y := by
    unfold tempOf heat
    cases hc : c.temp <;> simp [← s2.temp, ← s2.conc, ← s2.frame]
    exact (s2.fixed hc).symm
  unfold bareOf pcOf
  rw [hT]

/-! ## Arrays of the last accepted step -/

/-- **C92** (violation) The heat capacity is that of the composition and temperature of the last accepted step: the same time and state have
different temperature rates after steps that ended with different compositions. -/
theorem c92_violation_heat (o : Ops V) (c : Cfg) (ha : (c.partition && c.aziz) = false) (hn : c.noise = false) (hc : c.conc = true)
    (hT : c.temp = .unsteady) (hmo : c.moving = false) (n : ℕ) (t : ℝ) (y : State V) (m m' : Mem V)
    (hinj : ∀ a b, Function.Injective fun x => o.tempRate a x b)
    (hne : o.heatCapacity m.curConc m.curTemp ≠ o.heatCapacity m'.curConc m'.curTemp) :
    (evaluate o c (n + 1) t y false m).map (fun p => p.2.temp) ≠ (evaluate o c (n + 1) t y false m').map (fun p => p.2.temp) := by
  obtain ⟨m1, h1, -⟩ := evaluate_eq o c ha hn n t y false m
  obtain ⟨m2, h2, -⟩ := evaluate_eq o c ha hn n t y false m'
  rw [h1, h2]
  intro he
  have e1 : tempOf o c m t y = tempOf o c m' t y := by simp [tempOf, hT]
  have e2 : bareOf o c m t y (pcOf o c m t y) = bareOf o c m' t y (pcOf o c m' t y) := by unfold bareOf pcOf; rw [e1]
  simp only [Option.map_some, Option.some.injEq, rateGen, hT, if_true, hmo, Bool.false_eq_true, if_false, e1, e2] at he
  have := hinj _ _ he
  unfold heat at this
  simp only [hc, if_true] at this
  exact hne this

/-- **C92** (violation) The forces between grains (`rbThreshold > 0`) are those of the order parameters of the evaluation and of the composition of
the last accepted step: the same time and state have different rates after steps that ended with different compositions, although the
composition is one of the integrator's unknowns. -/
theorem c92_violation_rigid (o : Ops V) (c : Cfg) (ha : (c.partition && c.aziz) = false) (hn : c.noise = false) (hr : c.rigid = true)
    (hmo : c.moving = false) (n : ℕ) (t : ℝ) (y : State V) (m m' : Mem V)
    (hT : c.temp = .unsteady ∨ c.temp = .constant ∧ m.tempS = m'.tempS)
    (hinj : ∀ a b, Function.Injective fun f => o.addRigid a f b)
    (hne : o.rigidForce (o.fillPhase t y.phase) m.curConc ≠ o.rigidForce (o.fillPhase t y.phase) m'.curConc) :
    (evaluate o c (n + 1) t y false m).map (fun p => p.2.phase) ≠ (evaluate o c (n + 1) t y false m').map (fun p => p.2.phase) := by
  obtain ⟨m1, h1, -⟩ := evaluate_eq o c ha hn n t y false m
  obtain ⟨m2, h2, -⟩ := evaluate_eq o c ha hn n t y false m'
  rw [h1, h2]
  intro he
  have e1 : tempOf o c m t y = tempOf o c m' t y := by
    rcases hT with h | ⟨h, h'⟩
    · simp [tempOf, h]
    · simp [tempOf, h, h']
  have e2 : bareOf o c m t y (pcOf o c m t y) = bareOf o c m' t y (pcOf o c m' t y) := by unfold bareOf pcOf; rw [e1]
  simp only [Option.map_some, Option.some.injEq, rateGen, hr, if_true, hmo, Bool.false_eq_true, if_false, e2] at he
  exact hne (hinj _ _ he)

/-- **C92** (violation) With a steady temperature field driven by the composition, the temperature of an evaluation is that of the
composition of the last accepted step, whatever the composition in the state. -/
theorem c92_violation_steady (o : Ops V) (c : Cfg) (hT : c.temp = .steadyComp) (n : ℕ) (t : ℝ) (y : State V) (fd : Bool) (m m' : Mem V)
    (r : Rate V) (h : evaluate o c n t y fd m = some (m', r)) : m'.tempS = o.steadyComp m.curConc (heat o c m) := by
  have keep : ∀ e n M p, loop o c t e n M = some p → p.1.tempS = M.tempS := by
    intro e n
    induction n with
    | zero => intro M p h; simp [loop] at h
    | succ n ih =>
      intro M p h
      simp only [loop] at h
      split at h
      · exact ih (pass o c t e M).1 p h
      · simp only [Option.some.injEq] at h
        rw [← h]; rfl
  unfold evaluate at h
  dsimp only at h
  split at h
  · cases h
  simp only [Option.map_eq_some_iff] at h
  obtain ⟨p, hp, he⟩ := h
  have e1 : m' = (finish o c (!fd || !c.lag) p.2 p.1).1 := by rw [he]
  rw [e1]
  have := keep _ _ _ _ hp
  rw [coef_tempS] at this
  simpa [finish, tempOf, hT] using this

/-- **C92** The preconditioner's coefficients are computed from the diffusion coefficients of the evaluation before. -/
theorem c92_preconditioner_lags (o : Ops V) (c : Cfg) (ha : (c.partition && c.aziz) = false) (hn : c.noise = false) (hc : c.conc = true)
    (n : ℕ) (t0 t : ℝ) (y0 y : State V) (m m1 m2 : Mem V) (r : Rate V)
    (h1 : history o c (n + 1) m [.rate t0 y0 false] = some m1) (h2 : evaluate o c (n + 1) t y false m1 = some (m2, r)) :
    m2.precond = o.precond (diffOf o c m t0 y0) := by
  obtain ⟨m3, e1, e2, -⟩ := evaluate_eq o c ha hn n t0 y0 false m
  simp only [history, after, e1, Option.map_some, Option.bind_some, Option.some.injEq] at h1
  subst h1
  have hd := e2 hc
  simp only [Bool.false_and, Bool.false_eq_true, if_false] at hd
  rw [← hd]
  simp only [evaluate, loop, pass, ha, Bool.false_and, Bool.false_eq_true, if_false, Option.map_some, Option.some.injEq, Bool.not_false,
    Bool.true_or] at h2
  have e3 : m2 = _ := (congrArg Prod.fst h2).symm
  rw [e3]
  have : (setCoefficients o c t y true (setTemperature o c t m3)).diff = m3.diff := (temp_keep o c t m3).2.1
  simp only [finish, hc, Bool.and_self, if_true]
  rw [← this]
  rfl

/-! ## Instances -/

/-- Scalars: one cell. -/
noncomputable def exOps : Ops ℝ where
  fillPhase _ x := x
  fillQuat _ x := x
  fillConc _ x := x
  fillTemp _ x := x
  prescribed t f := 300 + t * f
  steadyGauss t c := t / c
  steadyComp x c := x / c
  heatCapacity x T := 1 + x * x + T * T
  heatConst := 1
  diffPhase x := 2 * x
  gradPhase x := x
  diffQuat x := 2 * x
  symmQuat x := x
  gradSide x := x
  gradMod x := |x|
  uniformSide := 1
  kAziz v _ := -v
  kOther T _ := T
  split _ p _ k := p + (k.getD 0)
  mobPhase _ _ _ := 1
  mobQuat p := p
  mobPT m c := m / c
  phaseRate _ _ _ _ _ pc _ := pc.getD 0
  draw n _ := n
  addNoise r z dt := r + z * dt
  dphidt _ r := r
  rigidForce p x := p * x
  addRigid r f _ := r + f
  addFrame r f p := r - f * p
  velocity _ r := r
  quatRate _ _ s d _ _ _ := s / d
  diffusion _ p _ := p
  precond d := d
  concRate _ _ _ _ d _ := d
  addRigidConc r f _ := r + f
  tempRate _ c _ := c
  close a b := decide (|a - b| < 1)

/-- Memory with one number everywhere. -/
def exMem (x : ℝ) : Mem ℝ :=
  { curTemp := x, curConc := x, frame := x, lastTime := 0, phaseS := x, quatS := x, concS := x, tempS := x, diffTime := none, gradTime := none,
    phaseDiff := x, phaseGrad := x, symm := x, side := x, sideCopy := x, gmod := x, k := x, pc := x, vel := x, own := x, mobP := x, mobQ := x,
    mobPT := x, noise := x, noiseTime := none, deltat := 0, draws := 0, dphidt := x, forces := x, diff := x, precond := x, cp := x }

/-- Alloy with phase compositions, default lag, nothing else. -/
def exCfg : Cfg :=
  { quat := false, conc := true, phaseConc := true, partition := false, aziz := false, velocity := false, lag := true, antitrap := false,
    moving := false, rigid := false, noise := false, temp := .constant, uniformUntil := 0 }

/-- A finite difference that is not a difference of the rate function: residual at phase 0, then finite difference at phase 1. -/
example (m' : Mem ℝ) (h : history exOps exCfg 1 (exMem 2) [.rate 1 ⟨0, 0, 0, 0⟩ false] = some m') :
    (evaluate exOps exCfg 1 1 ⟨1, 0, 0, 0⟩ true m').map Prod.snd ≠ some (rateOf exOps exCfg (exMem 2) 1 ⟨1, 0, 0, 0⟩) :=
  c92_violation_lag_differs exOps exCfg rfl rfl rfl rfl rfl rfl 0 0 1 ⟨0, 0, 0, 0⟩ (exMem 2) m' (by norm_num [exCfg]) h 1 ⟨1, 0, 0, 0⟩
    (fun _ _ _ _ _ a b hab => hab) (by simp [diffOf, exOps])

/-- Such a history exists. -/
example : ∃ m', history exOps exCfg 1 (exMem 2) [.rate 1 ⟨0, 0, 0, 0⟩ false] = some m' := by
  obtain ⟨m', h, -⟩ := evaluate_eq exOps exCfg rfl rfl 0 1 ⟨0, 0, 0, 0⟩ false (exMem 2)
  exact ⟨m', by simp [history, after, h]⟩

/-- Aziz's partition coefficient: the same state at the same time after different histories has different rates. -/
example : ∃ m1 r1 m2 r2, evaluate exOps { exCfg with partition := true, aziz := true, velocity := true } 1 1 ⟨0, 0, 0, 0⟩ false (exMem 2) = some (m1, r1) ∧
    evaluate exOps { exCfg with partition := true, aziz := true, velocity := true } 1 1 ⟨0, 0, 0, 0⟩ false m1 = some (m2, r2) ∧ r1.phase ≠ r2.phase := by
  have hcl : ∀ v, exOps.close v v = true := fun v => by simp [exOps]
  obtain ⟨m1, r1, e1, p1, v1, -⟩ := c92_violation_aziz exOps { exCfg with partition := true, aziz := true, velocity := true } ⟨rfl, rfl, rfl, rfl, rfl, rfl⟩
    hcl 0 1 ⟨0, 0, 0, 0⟩ (exMem 2)
  obtain ⟨m2, r2, e2, p2, -, -⟩ := c92_violation_aziz exOps { exCfg with partition := true, aziz := true, velocity := true } ⟨rfl, rfl, rfl, rfl, rfl, rfl⟩
    hcl 0 1 ⟨0, 0, 0, 0⟩ m1
  refine ⟨m1, r1, m2, r2, e1, e2, ?_⟩
  rw [p1, p2, v1]
  simp [azVel, azRate, azSplit, start, coef_phaseS, exOps, exCfg, exMem]
  norm_num

/-- Noise: the two draws are different numbers. -/
example : ∃ m1 m2 m3 r1 r2 r3, evaluate exOps { exCfg with noise := true } 1 1 ⟨0, 0, 0, 0⟩ false (exMem 2) = some (m1, r1) ∧
    evaluate exOps { exCfg with noise := true } 1 3 ⟨0, 0, 0, 0⟩ false m1 = some (m2, r2) ∧
    evaluate exOps { exCfg with noise := true } 1 1 ⟨0, 0, 0, 0⟩ false m2 = some (m3, r3) ∧ r1.phase ≠ r3.phase := by
  obtain ⟨m1, m2, m3, r1, r2, r3, e1, e2, e3, p1, p3⟩ := c92_violation_noise exOps { exCfg with noise := true } rfl rfl rfl rfl 0 1 3
    (by norm_num) ⟨0, 0, 0, 0⟩ ⟨0, 0, 0, 0⟩ (exMem 2) (by norm_num [exMem]) (by norm_num [exMem]) (by simp [exMem])
  refine ⟨m1, m2, m3, r1, r2, r3, e1, e2, e3, ?_⟩
  rw [p1, p3]
  simp [exOps, exMem]

/-- Two accepted steps with different compositions, one state. -/
example : (evaluate exOps { exCfg with temp := .unsteady } 1 1 ⟨0, 0, 0, 0⟩ false (exMem 2)).map (fun p => p.2.temp) ≠
    (evaluate exOps { exCfg with temp := .unsteady } 1 1 ⟨0, 0, 0, 0⟩ false (exMem 3)).map (fun p => p.2.temp) :=
  c92_violation_heat exOps _ rfl rfl rfl rfl rfl 0 1 _ _ _ (fun _ _ a b hab => hab) (by norm_num [exOps, exMem])

/-- Grains at fixed temperature after two steps that ended with different compositions. -/
example : (evaluate exOps { exCfg with rigid := true } 1 1 ⟨1, 0, 0, 0⟩ false (exMem 2)).map (fun p => p.2.phase) ≠
    (evaluate exOps { exCfg with rigid := true } 1 1 ⟨1, 0, 0, 0⟩ false { exMem 2 with curConc := 3 }).map (fun p => p.2.phase) :=
  c92_violation_rigid exOps _ rfl rfl rfl rfl 0 1 _ _ _ (.inr ⟨rfl, rfl⟩) (fun a _ x y h => by simpa [exOps] using h) (by norm_num [exOps, exMem])

end AMPE.RateCall.Props
