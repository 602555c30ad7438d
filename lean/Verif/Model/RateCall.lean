import Mathlib.Algebra.Order.Archimedean.Real.Basic

/-! # One evaluation of the rates: what is computed from what, in which order

`QuatIntegrator::evaluateRHSFunction` and `CVSpgmrPrecondSet` as programs on a memory. An array (all cells, all levels, with
ghost cells) is a value of a type `V`; a computation step is a function of the arrays it reads. The functions (`Ops`) are
parameters: the theorems hold for all of them. The solver for the phase compositions is a function of temperature, phase,
composition and partition coefficient (its starting guess is left out). Runs without phase field, the second order parameter `eta`
(`d_with_third_phase` is always false, source/QuatIntegrator.cc:228) and plot-only arrays are left out; noise is that of
`PhaseRHSStrategyWithQ`. -/

namespace AMPE.RateCall

/-- How the temperature is obtained: source/TemperatureStrategyFactory.cc:73-150. -/
inductive TempKind
  | prescribed | constant | steadyGauss | steadyComp | unsteady
  deriving DecidableEq

/-- Settings that decide which steps are executed. `velocity` is `velocity_output`, by default true exactly with Aziz's partition coefficient
(source/QuatModelParameters.cc:327-330, 420-421). -/
structure Cfg where
  quat : Bool
  conc : Bool
  phaseConc : Bool
  partition : Bool
  aziz : Bool
  velocity : Bool
  lag : Bool
  antitrap : Bool
  moving : Bool
  rigid : Bool
  noise : Bool
  temp : TempKind
  uniformUntil : ℝ

/-- `d_compute_velocity`, source/QuatIntegrator.cc:238-241. -/
def Cfg.needVelocity (c : Cfg) : Bool := (c.partition && c.aziz) || c.velocity

/-- `needDphiDt` for a run with phase field, source/QuatIntegrator.h:274-279. -/
def Cfg.needDphiDt (c : Cfg) : Bool :=
  c.antitrap || c.moving || (c.temp = .unsteady || c.temp = .steadyGauss || c.temp = .steadyComp)

/-- The computations. `rigidForce` takes the order parameters of the evaluation and the composition of the last accepted step: with
`rbThreshold > 0` the forces are created with `d_phase_scratch_id` and `d_conc_id`, source/QuatModel.cc:713-724 (otherwise of the order
parameters alone). -/
structure Ops (V : Type) where
  fillPhase : ℝ → V → V
  fillQuat : ℝ → V → V
  fillConc : ℝ → V → V
  fillTemp : ℝ → V → V
  prescribed : ℝ → V → V
  steadyGauss : ℝ → V → V
  steadyComp : V → V → V
  heatCapacity : V → V → V
  heatConst : V
  diffPhase : V → V
  gradPhase : V → V
  diffQuat : V → V
  symmQuat : V → V
  gradSide : V → V
  gradMod : V → V
  uniformSide : V
  kAziz : V → V → V
  kOther : V → V → V
  split : V → V → V → Option V → V
  mobPhase : V → V → Option V → V
  mobQuat : V → V
  mobPT : V → V → V
  phaseRate : V → Option V → V → Option V → Option V → Option V → V → V
  draw : ℕ → V → V
  addNoise : V → V → ℝ → V
  dphidt : ℝ → V → V
  rigidForce : V → V → V
  addRigid : V → V → V → V
  addFrame : V → V → V → V
  velocity : V → V → V
  quatRate : V → V → V → V → V → V → V → V
  diffusion : V → V → Option V → V
  precond : V → V
  concRate : V → V → V → Option V → V → Option V → V
  addRigidConc : V → V → V → V
  tempRate : V → V → V → V
  close : V → V → Bool

/-- State vector of the integrator. -/
structure State (V : Type) where
  phase : V
  quat : V
  conc : V
  temp : V

/-- Everything that survives a call. `cur*` are the solution arrays of the last accepted step. `vel` is the velocity of the model
(source/QuatModel.cc:1495-1501), `own` the array of the integrator under the same member name (source/QuatIntegrator.cc:918-925), to which nothing is
ever written. -/
structure Mem (V : Type) where
  curTemp : V
  curConc : V
  frame : V
  lastTime : ℝ
  phaseS : V
  quatS : V
  concS : V
  tempS : V
  diffTime : Option ℝ
  gradTime : Option ℝ
  phaseDiff : V
  phaseGrad : V
  symm : V
  side : V
  sideCopy : V
  gmod : V
  k : V
  pc : V
  vel : V
  own : V
  mobP : V
  mobQ : V
  mobPT : V
  noise : V
  noiseTime : Option ℝ
  deltat : ℝ
  draws : ℕ
  dphidt : V
  forces : V
  diff : V
  precond : V
  cp : V

/-- Rates; a component that is not evolved is absent. -/
structure Rate (V : Type) where
  phase : V
  quat : Option V
  conc : Option V
  temp : Option V

variable {V : Type}

/-- `HeatCapacityStrategy::setCurrentValue` with the strategy of source/QuatModel.cc:206-220: arrays of the last accepted step. -/
def heat (o : Ops V) (c : Cfg) (m : Mem V) : V := if c.conc then o.heatCapacity m.curConc m.curTemp else o.heatConst

/-- `setTemperatureField`, source/QuatIntegrator.h:321-328, with source/ConstantTemperatureStrategy.h:62-68 (nothing),
source/SteadyStateTemperatureGaussianSource.cc:72-152, source/SteadyStateTemperatureCompositionSource.cc:43-90 (composition of
the last accepted step, source/QuatModel.cc:223-231). -/
def setTemperature (o : Ops V) (c : Cfg) (t : ℝ) (m : Mem V) : Mem V :=
  match c.temp with
  | .prescribed => { m with tempS := o.prescribed t m.frame }
  | .steadyGauss => { m with cp := heat o c m, tempS := o.steadyGauss t (heat o c m) }
  | .steadyComp => { m with cp := heat o c m, tempS := o.steadyComp m.curConc (heat o c m) }
  | .constant => m
  | .unsteady => m

/-- `fillScratch`, source/QuatIntegrator.cc:2872-2956. -/
def fillScratch (o : Ops V) (c : Cfg) (t : ℝ) (y : State V) (m : Mem V) : Mem V :=
  { m with
    phaseS := o.fillPhase t y.phase
    quatS := if c.quat then o.fillQuat t y.quat else m.quatS
    concS := if c.conc then o.fillConc t y.conc else m.concS
    tempS := if c.temp = .unsteady then o.fillTemp t y.temp else m.tempS }

/-- `computeQuatGradients`, source/QuatIntegrator.cc:2777-2826 (cell gradients left out: the modulus is a function of
the side gradients); the copy is kept unless `recompute`. Below a threshold time the copy
is a constant, source/QuatIntegrator.cc:3061-3064, 2440-2478. -/
noncomputable def quatGradients (o : Ops V) (c : Cfg) (t : ℝ) (recompute : Bool) (m : Mem V) : Mem V :=
  let s := o.gradSide (o.diffQuat m.quatS)
  { m with
    symm := if c.quat then o.symmQuat m.quatS else m.symm
    side := if c.quat then s else m.side
    gmod := if c.quat then o.gradMod s else m.gmod
    sideCopy := if c.quat then (if t < c.uniformUntil then o.uniformSide else if recompute then s else m.sideCopy) else m.sideCopy }

/-- `computePhaseDiffs` and `computePhaseGradCell` with the default `CACHE`: not recomputed at the time of the previous call;
source/QuatIntegrator.cc:3048-3056, source/QuatModel.cc:3630-3645, 3813-3827, source/QuatModel.h:113-129. -/
noncomputable def phaseGradients (o : Ops V) (c : Cfg) (t : ℝ) (m : Mem V) : Mem V :=
  let d := if m.diffTime = some t then m.phaseDiff else o.diffPhase m.phaseS
  { m with
    diffTime := if c.needVelocity then some t else m.diffTime
    phaseDiff := if c.needVelocity then d else m.phaseDiff
    gradTime := if c.needVelocity then some t else m.gradTime
    phaseGrad := if c.needVelocity then (if m.gradTime = some t then m.phaseGrad else o.gradPhase d) else m.phaseGrad }

/-- `computePhaseConcentrations`, source/QuatIntegrator.cc:3092-3127; `on`: whether it is called. -/
def phaseConcentrations (o : Ops V) (c : Cfg) (on : Bool) (m : Mem V) : Mem V :=
  let k := if c.aziz then o.kAziz m.vel m.tempS else o.kOther m.tempS m.phaseS
  { m with
    k := if on && c.partition then k else m.k
    pc := if on then o.split m.tempS m.phaseS m.concS (if c.partition then some k else none) else m.pc }

/-- `computeMobilities`, source/QuatIntegrator.cc:2962-2994. -/
def mobilities (o : Ops V) (c : Cfg) (m : Mem V) : Mem V :=
  let mp := o.mobPhase m.phaseS m.tempS (if c.conc && c.phaseConc then some m.pc else none)
  { m with
    mobP := mp
    mobQ := if c.quat then o.mobQuat m.phaseS else m.mobQ
    mobPT := o.mobPT mp m.cp }

/-- `setCoefficients`, source/QuatIntegrator.cc:3000-3090. -/
noncomputable def setCoefficients (o : Ops V) (c : Cfg) (t : ℝ) (y : State V) (recompute : Bool) (m : Mem V) : Mem V :=
  mobilities o c (phaseConcentrations o c (c.conc && c.phaseConc)
    (phaseGradients o c t (quatGradients o c t recompute (fillScratch o c t y m))))

/-- `PhaseRHSStrategyWithQ::evaluateRHS`, source/PhaseRHSStrategyWithQ.cc:91-312, and `evaluatePhaseRHS`,
source/QuatIntegrator.cc:2482-2546: rate and memory. `eval` is `fd_flag == 0`. -/
noncomputable def phaseStep (o : Ops V) (c : Cfg) (t : ℝ) (eval : Bool) (m : Mem V) : Mem V × V :=
  let r0 := o.phaseRate m.phaseS (if c.quat then some m.quatS else none) m.tempS (if c.quat then some m.gmod else none)
    (if c.conc then some m.concS else none) (if c.conc && c.phaseConc then some m.pc else none) m.mobP
  let new : Bool := decide (m.noiseTime ≠ some t) && eval
  let dt := if new then t - m.lastTime else m.deltat
  let noisy : Bool := c.noise && decide (0 < dt)
  let nz := if noisy && new then o.draw m.draws m.phaseS else m.noise
  let r1 := if noisy then o.addNoise r0 nz dt else r0
  let m := { m with
    noiseTime := some t
    deltat := dt
    draws := if noisy && new then m.draws + 1 else m.draws
    noise := nz
    dphidt := if c.needDphiDt then o.dphidt t r1 else m.dphidt
    forces := if c.rigid then o.rigidForce m.phaseS m.curConc else m.forces }
  let r2 := if c.rigid then o.addRigid r1 m.forces m.phaseS else r1
  let r3 := if c.moving then o.addFrame r2 m.frame m.phaseS else r2
  (m, r3)

/-- Body of the fixed-point loop, source/QuatIntegrator.cc:3203-3250: rate of the phase, whether to go on. `computeVelocity`, source/QuatModel.cc:5301-5361,
writes the velocity of the model; the difference formed before and after it is that of the integrator's own array. -/
noncomputable def pass (o : Ops V) (c : Cfg) (t : ℝ) (eval : Bool) (m : Mem V) : Mem V × V × Bool :=
  let s := phaseStep o c t eval m
  let m1 := { s.1 with vel := if c.needVelocity && eval then o.velocity s.1.phaseGrad s.2 else s.1.vel }
  let a := c.partition && c.aziz
  (phaseConcentrations o c a m1, s.2, a && !o.close m.own m1.own)

/-- `do { } while (need_iterate)`; `none` if it has not ended after `n` passes. -/
noncomputable def loop (o : Ops V) (c : Cfg) (t : ℝ) (eval : Bool) : ℕ → Mem V → Option (Mem V × V)
  | 0, _ => none
  | n + 1, m =>
    let (m, r, again) := pass o c t eval m
    if again then loop o c t eval n m else some (m, r)

/-- Orientation, composition, temperature: source/QuatIntegrator.cc:3258-3300; `evaluateQuatRHS` 2678-2775 , `setDiffusionCoeffForConcentration`
2378-2426 (coefficients for the preconditioner before the new diffusion coefficients), `evaluateConcentrationRHS` 2578-2676,
`evaluateTemperatureRHS` 2548-2576. -/
noncomputable def finish (o : Ops V) (c : Cfg) (recompute : Bool) (r : V) (m : Mem V) : Mem V × Rate V :=
  let pc := if c.phaseConc then some m.pc else none
  let on := c.conc && recompute
  let d := if on then o.diffusion m.tempS m.phaseS pc else m.diff
  let q := o.quatRate m.phaseS m.tempS m.side m.sideCopy m.symm m.mobQ m.quatS
  let cr0 := o.concRate m.concS m.phaseS m.tempS pc d (if c.antitrap then some m.dphidt else none)
  let cr1 := if c.rigid then o.addRigidConc cr0 m.forces m.phaseS else cr0
  let cr := if c.moving then o.addFrame cr1 m.frame m.concS else cr1
  let cp := if c.temp = .unsteady then heat o c m else m.cp
  let tr0 := o.tempRate m.tempS cp m.dphidt
  let tr := if c.moving then o.addFrame tr0 m.frame m.tempS else tr0
  ({ m with precond := if on then o.precond m.diff else m.precond, diff := d, cp := cp },
    ⟨r, if c.quat then some q else none, if c.conc then some cr else none, if c.temp = .unsteady then some tr else none⟩)

/-- `evaluateRHSFunction`, source/QuatIntegrator.cc:3134-3302; `fd` is `fd_flag != 0`. With Aziz's partition coefficient and no velocity array of
the model, source/PartitionCoefficientStrategy.cc:34-53 passes a null pointer to the evaluation: `none`. -/
noncomputable def evaluate (o : Ops V) (c : Cfg) (n : ℕ) (t : ℝ) (y : State V) (fd : Bool) (m : Mem V) : Option (Mem V × Rate V) :=
  let recompute := !fd || !c.lag
  let m := setCoefficients o c t y recompute (setTemperature o c t m)
  if c.partition && c.aziz && !c.velocity then none
  else (loop o c t (!fd) n m).map fun p => finish o c recompute p.2 p.1

/-- What the time integrator may call within a step: rates (for the residual or for a finite difference), setup of the preconditioner
(`CVSpgmrPrecondSet`, source/QuatIntegrator.cc:3307-3373: only `setCoefficients` matters here). -/
inductive Call (V : Type)
  | rate (t : ℝ) (y : State V) (fd : Bool)
  | setup (t : ℝ) (y : State V)

/-- Memory after a call, `none` if it does not return within `n` passes. -/
noncomputable def after (o : Ops V) (c : Cfg) (n : ℕ) (m : Mem V) : Call V → Option (Mem V)
  | .rate t y fd => (evaluate o c n t y fd m).map Prod.fst
  | .setup t y => some (setCoefficients o c t y true m)

/-- Memory after a list of calls. -/
noncomputable def history (o : Ops V) (c : Cfg) (n : ℕ) (m : Mem V) : List (Call V) → Option (Mem V)
  | [] => some m
  | k :: ks => (after o c n m k).bind fun m' => history o c n m' ks

end AMPE.RateCall
