import Verif.Model.RateCall
import Verif.Model.StartGuess

/-! # Printing diagnostics between steps

`QuatModel::postAdvanceDiagnostics` (source/QuatModel.cc:2366-2375) and `preRunDiagnostics` (source/QuatModel.cc:2378-2440) call
`printScalarDiagnostics` (source/QuatModel.cc:2552-2677), which calls `evaluateEnergy`. Its printed numbers are left out;
modelled is what it leaves in the arrays that the rate evaluations use too (`RateCall.Mem`). Bulk energies `f_l`, `f_a`, `f_b`
are not part of `Mem`: each rate evaluation recomputes them before use (source/PhaseRHSStrategyWithQ.cc:155-185). -/

namespace AMPE.Observe

open AMPE.RateCall

variable {V σ : Type}

/-- `evaluateEnergy`, source/QuatModel.cc:4888-4974, at time `t`; `x` are the solution arrays (`d_phase_id`, `d_quat_id`, `d_conc_id`),
temperature `m.curTemp`. `copyCurrentToScratch` is source/QuatModel.cc:1000-1036, 1067-1092; gradients with `FORCE` 4908-4920;
partition coefficient and phase compositions 4923-4939. An orientation that is stored and not evolved is left out. -/
def observe (o : Ops V) (c : Cfg) (t : ℝ) (x : State V) (m : Mem V) : Mem V :=
  let phase := o.fillPhase t x.phase
  let quat := o.fillQuat t x.quat
  let conc := if c.conc then o.fillConc t x.conc else m.concS
  let temp := o.fillTemp t m.curTemp
  let k := if c.aziz then o.kAziz m.vel temp else o.kOther temp phase
  { m with
    phaseS := phase
    quatS := if c.quat then quat else m.quatS
    concS := conc
    tempS := temp
    symm := if c.quat then o.symmQuat quat else m.symm
    side := if c.quat then o.gradSide (o.diffQuat quat) else m.side
    k := if c.conc && c.partition then k else m.k
    pc := if c.conc && c.phaseConc then o.split temp phase conc (if c.partition then some k else none) else m.pc }

/-- What a time integrator does within a step: it asks for rates and preconditioner setups, and decides from what it got. A setup
shows it the arrays of coefficients (any part of the memory). -/
inductive Prog (V σ : Type)
  | done (s : σ)
  | rate (t : ℝ) (y : State V) (fd : Bool) (k : Rate V → Prog V σ)
  | setup (t : ℝ) (y : State V) (k : Mem V → Prog V σ)

/-- Execution; `none` if a call does not return within `n` passes. -/
noncomputable def exec (o : Ops V) (c : Cfg) (n : ℕ) : Prog V σ → Mem V → Option (Mem V × σ)
  | .done s, m => some (m, s)
  | .rate t y fd k, m => (evaluate o c n t y fd m).bind fun p => exec o c n (k p.2) p.1
  | .setup t y k, m => exec o c n (k (setCoefficients o c t y true m)) (setCoefficients o c t y true m)

/-- A time integrator with internal state `σ`: each step begins with a rate (`CVode` evaluates the rate at the start of a run and,
in each step, at the predicted state before it sets up the preconditioner). -/
structure Integrator (V σ : Type) where
  first : σ → ℝ × State V × Bool
  next : σ → Rate V → Prog V σ
  time : σ → ℝ
  sol : σ → State V
  frame : σ → V → V

/-- End of a step: solution arrays, time and frame velocity are updated, the temperature is copied from the array used by the last
evaluation, the heat capacity is set; `QuatIntegrator::Advance`, source/QuatIntegrator.cc:2066-2106, 2188-2210, and
source/QuatModel.cc:2355-2360 (`with_heat_equation`). -/
def accept (o : Ops V) (c : Cfg) (i : Integrator V σ) (s : σ) (m : Mem V) : Mem V :=
  let m1 := { m with curTemp := m.tempS, curConc := (i.sol s).conc, frame := i.frame s m.frame, lastTime := i.time s }
  { m1 with cp := if c.temp = .unsteady ∨ c.temp = .steadyGauss ∨ c.temp = .steadyComp then heat o c m1 else m1.cp }

/-- One step. -/
noncomputable def step (o : Ops V) (c : Cfg) (n : ℕ) (i : Integrator V σ) (p : Mem V × σ) : Option (Mem V × σ) :=
  (exec o c n (.rate (i.first p.2).1 (i.first p.2).2.1 (i.first p.2).2.2 (i.next p.2)) p.1).map fun q =>
    (accept o c i q.2 q.1, q.2)

/-- Diagnostics printed `j` times. -/
def observes (o : Ops V) (c : Cfg) (i : Integrator V σ) (s : σ) (j : ℕ) (m : Mem V) : Mem V :=
  (observe o c (i.time s) (i.sol s))^[j] m

/-- State after `k` steps with diagnostics printed `obs j` times after step `j` (0: before the first step). -/
noncomputable def run (o : Ops V) (c : Cfg) (n : ℕ) (i : Integrator V σ) (obs : ℕ → ℕ) (p : Mem V × σ) : ℕ → Option (Mem V × σ)
  | 0 => some (observes o c i p.2 (obs 0) p.1, p.2)
  | k + 1 => ((run o c n i obs p k).bind (step o c n i)).map fun q => (observes o c i q.2 (obs (k + 1)) q.1, q.2)

end AMPE.Observe
