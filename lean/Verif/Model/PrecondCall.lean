import Mathlib.Algebra.Order.Archimedean.Real.Basic
import Mathlib.Algebra.Module.Pi

/-! # Configuration and application of the preconditioner of the time integrator

What the block solvers do with one right-hand side is the subject of C56, C80 and C100; here they are parameters.  The model is
about which blocks exist (`setupPreconditioners`) and about what one application (`CVSpgmrPrecondSolve`) reads and writes.

A field is an element of a real vector space (`P` one order parameter, `E`, `Q`, `T`, `C` the other components, each with all
its depths).  Ghost values are not represented: the copies of a correction into an array with ghost cells
(source/QuatIntegrator.cc:3795-3815, 3852-3870) are identities. -/

namespace AMPE.PrecondCall

/-- The equations of the model, constructor arguments and members of `QuatIntegrator`, source/QuatIntegrator.cc:76-130. -/
structure Eqs where
  phase : Bool
  third : Bool
  quat : Bool
  conc : Bool
  steadyT : Bool
  unsteadyT : Bool
  /-- `concRHSstrategyIsKKS()` -/
  kks : Bool
  norderp : ℕ

/-- Entries of the input block `Preconditioner`; `none` = key absent. -/
structure Block where
  enabled : Option Bool := none
  maxSteps : Option ℤ := none
  phase : Option Bool := none
  quat : Option Bool := none
  eta : Option Bool := none
  conc : Option Bool := none
  temp : Option Bool := none
  dquatdphi : Option Bool := none
  dTdphi : Option Bool := none
  dPhidT : Option Bool := none

/-- Members set by `setupPreconditioners` that the other functions read; `phaseS` … say that the solver object exists. -/
structure Setup where
  use : Bool
  maxSteps : ℤ
  phaseS : Bool
  etaS : Bool
  concS : Bool
  tempS : Bool
  /-- `d_precondition_quat` -/
  quatS : Bool
  dquatdphi : Bool
  dTdphi : Bool
  dPhidT : Bool

/-- `QuatIntegrator::setupPreconditioners`, source/QuatIntegrator.cc:428-551, run once on a new object
(constructor values of the flags, source/QuatIntegrator.cc:114-116; `d_max_precond_steps` = 1, :205). -/
def setup (e : Eqs) (b : Option Block) : Setup :=
  let pT := if e.steadyT then false else true
  match b with
  | none =>
    { use := true, maxSteps := 1, phaseS := e.phase, etaS := e.third, concS := e.conc, tempS := e.unsteadyT && pT,
      quatS := true, dquatdphi := e.phase, dTdphi := false, dPhidT := false }
  | some b =>
    if b.enabled.getD true then
      { use := true, maxSteps := b.maxSteps.getD 1, phaseS := e.phase && b.phase.getD true,
        etaS := e.third && b.eta.getD true, concS := e.conc && b.conc.getD true,
        tempS := e.unsteadyT && b.temp.getD pT, quatS := b.quat.getD true,
        dquatdphi := e.phase && b.dquatdphi.getD e.kks, dTdphi := b.dTdphi.getD false, dPhidT := b.dPhidT.getD false }
    else
      { use := false, maxSteps := 1, phaseS := false, etaS := false, concS := false, tempS := false, quatS := false,
        dquatdphi := e.phase, dTdphi := false, dPhidT := false }

/-- A vector of the time integrator (`createSolutionvector`, source/QuatIntegrator.cc:1623-1670): the components of equations
that are absent are not part of it and are never touched. -/
structure Vec (P E Q T C : Type) where
  phase : ℕ → P
  eta : E
  quat : Q
  temp : T
  conc : C

/-- The two work arrays that survive from one application to the next and are read: `d_phase_sol_id`, `d_temperature_sol_id`.
The others (`d_*_rhs_id`, `d_eta_sol_id`, …) are overwritten before they are read. -/
structure Work (P T : Type) where
  phaseSol : P
  tempSol : T

/-- The block solvers and off-diagonal blocks.  `solve tol guess rhs` = what `solveSystem` leaves in the solution array and
whether it reports convergence; coefficients are those of the last `CVSpgmrPrecondSet`. -/
structure Ops (P E Q T C : Type) where
  phase : ℝ → P → P → P × Bool
  eta : ℝ → E → E → E × Bool
  quat : ℝ → Q → Q → Q × Bool
  temp : ℝ → T → T → T × Bool
  conc : ℝ → C → C → C × Bool
  /-- `multiplyDQuatDPhiBlock` -/
  dQuatdPhi : P → Q
  /-- `multiplyDTDPhiBlock` -/
  dTdPhi : P → T
  /-- `applydPhidTBlock`, source/DeltaTemperatureFreeEnergyStrategy.cc:143-182: the temperature array is looked up but not passed
  to the loop, which reads the phase argument only. -/
  dPhidT : P → P

variable {P E Q T C : Type} [AddCommGroup P] [Module ℝ P] [AddCommGroup E] [Module ℝ E] [AddCommGroup Q] [Module ℝ Q]
  [AddCommGroup T] [Module ℝ T] [AddCommGroup C] [Module ℝ C]

/-- Everything one application changes: output vector, work arrays, return code. -/
structure St (P E Q T C : Type) where
  z : Vec P E Q T C
  w : Work P T
  ret : ℤ

/-- `retcode = (converged == 0 && retcode == 0) ? 0 : 1`, source/QuatIntegrator.cc:3698 and after each block. -/
def join (converged ret : ℤ) : ℤ := if converged = 0 ∧ ret = 0 then 0 else 1

/-- One pass of the loop over depths in `PhasePrecondSolve`, source/QuatIntegrator.cc:3428-3443; the pair carries
`nconverged`. -/
def phaseDepth (o : Ops P E Q T C) (delta : ℝ) (rhs : ℕ → P) (depth : ℕ) (s : St P E Q T C × ℕ) : St P E Q T C × ℕ :=
  let x := o.phase delta 0 (rhs depth)
  ({ z := { s.1.z with phase := Function.update s.1.z.phase depth x.1 }, w := { s.1.w with phaseSol := x.1 }, ret := s.1.ret },
    if x.2 then s.2 + 1 else s.2)

/-- The loop over depths `0 … n-1`. -/
def phaseLoop (o : Ops P E Q T C) (delta : ℝ) (rhs : ℕ → P) : ℕ → St P E Q T C × ℕ → St P E Q T C × ℕ
  | 0, s => s
  | n + 1, s => phaseDepth o delta rhs n (phaseLoop o delta rhs n s)

/-- Right-hand side of the phase block, source/QuatIntegrator.cc:3408-3431: with `precond_has_dPhidT` it is computed once, before
the loop, from the content `z_phase_id` has at that moment. -/
def phaseRhs (o : Ops P E Q T C) (f : Setup) (gamma : ℝ) (r z : Vec P E Q T C) (depth : ℕ) : P :=
  if f.dPhidT then (-1 * gamma) • o.dPhidT (z.phase 0) + r.phase 0 else r.phase depth

/-- `QuatIntegrator::applyPhasePreconditioner`, source/QuatIntegrator.cc:3770-3825, with `PhasePrecondSolve`, :3391-3448.
`none` = the assertions on `norderp` and on the free energy strategy (`delta` argument of the model: `isDelta`), or work array
of the temperature that is not registered. -/
def applyPhase (e : Eqs) (isDelta : Bool) (o : Ops P E Q T C) (f : Setup) (gamma delta : ℝ) (r : Vec P E Q T C)
    (s : St P E Q T C) : Option (St P E Q T C) :=
  if f.phaseS then
    if f.dPhidT ∧ ¬(e.norderp = 1 ∧ isDelta ∧ e.unsteadyT) then none
    else
      let q := phaseLoop o delta (phaseRhs o f gamma r s.z) e.norderp (s, 0)
      some { q.1 with ret := join (join (if q.2 = e.norderp then 0 else 1) 0) s.ret }
  else
    some { z := { s.z with phase := r.phase },
           w := if f.dquatdphi ∨ f.dTdphi then { s.w with phaseSol := r.phase 0 } else s.w,
           ret := join 0 s.ret }

/-- `QuatIntegrator::applyTemperaturePreconditioner`, source/QuatIntegrator.cc:3827-3880, with `TemperaturePrecondSolve`,
:3484-3545. -/
def applyTemp (e : Eqs) (o : Ops P E Q T C) (f : Setup) (gamma delta : ℝ) (r : Vec P E Q T C) (s : St P E Q T C) :
    Option (St P E Q T C) :=
  if f.tempS then
    if f.dTdphi ∧ ¬e.phase then none
    else
      let x := o.temp delta 0 (if f.dTdphi then gamma • o.dTdPhi s.w.phaseSol + r.temp else r.temp)
      some { z := { s.z with temp := x.1 }, w := { s.w with tempSol := x.1 },
             ret := join (join (if x.2 then 0 else 1) 0) s.ret }
  else
    some { z := { s.z with temp := r.temp }, w := if f.dPhidT then { s.w with tempSol := r.temp } else s.w,
           ret := join 0 s.ret }

/-- The block of the third phase, source/QuatIntegrator.cc:3708-3726, `EtaPrecondSolve`, :3452-3480. -/
def applyEta (o : Ops P E Q T C) (f : Setup) (delta : ℝ) (r : Vec P E Q T C) (s : St P E Q T C) : St P E Q T C :=
  if f.etaS then
    let x := o.eta delta 0 r.eta
    { s with z := { s.z with eta := x.1 }, ret := join (if x.2 then 0 else 1) s.ret }
  else { s with z := { s.z with eta := r.eta } }

/-- The quaternion block, source/QuatIntegrator.cc:3729-3746, `QuatPrecondSolve`, :3594-3645; `none` = the assertion on
`d_use_gradq_for_flux` (`gradq`). -/
def applyQuat (gradq : Bool) (o : Ops P E Q T C) (f : Setup) (gamma delta : ℝ) (r : Vec P E Q T C) (s : St P E Q T C) :
    Option (St P E Q T C) :=
  if f.quatS then
    if f.dquatdphi ∧ gradq then none
    else
      let x := o.quat delta 0 (if f.dquatdphi then gamma • o.dQuatdPhi s.w.phaseSol + r.quat else r.quat)
      some { s with z := { s.z with quat := x.1 }, ret := join (if x.2 then 0 else 1) s.ret }
  else some { s with z := { s.z with quat := r.quat } }

/-- `QuatIntegrator::applyConcentrationPreconditioner`, source/QuatIntegrator.cc:3882-3908, `ConcentrationPrecondSolve`,
:3547-3590. -/
def applyConc (o : Ops P E Q T C) (f : Setup) (delta : ℝ) (r : Vec P E Q T C) (s : St P E Q T C) : St P E Q T C :=
  if f.concS then
    let x := o.conc delta 0 r.conc
    { s with z := { s.z with conc := x.1 }, ret := join (if x.2 then 0 else 1) s.ret }
  else { s with z := { s.z with conc := r.conc }, ret := join 0 s.ret }

/-- `z_samvect->copyVector(r_samvect)`: the components the vectors have. -/
def copyVec (e : Eqs) (r z : Vec P E Q T C) : Vec P E Q T C :=
  { phase := if e.phase then r.phase else z.phase, eta := if e.third then r.eta else z.eta,
    quat := if e.quat then r.quat else z.quat, temp := if e.unsteadyT then r.temp else z.temp,
    conc := if e.conc then r.conc else z.conc }

/-- `QuatIntegrator::CVSpgmrPrecondSolve`, source/QuatIntegrator.cc:3666-3765.  `z` = what the output vector holds at entry. -/
def precondSolve (e : Eqs) (isDelta gradq : Bool) (o : Ops P E Q T C) (f : Setup) (gamma delta : ℝ) (lr : ℤ)
    (r z : Vec P E Q T C) (w : Work P T) : Option (St P E Q T C) :=
  if f.use = false then none
  else if lr = 1 ∨ lr = 2 then
    (((if e.unsteadyT ∧ f.dPhidT then applyTemp e o f gamma delta r ⟨z, w, 0⟩ else some ⟨z, w, 0⟩).bind
      fun s => if e.phase then applyPhase e isDelta o f gamma delta r s else some s).bind
      fun s => if e.quat then applyQuat gradq o f gamma delta r (if e.third then applyEta o f delta r s else s)
        else some (if e.third then applyEta o f delta r s else s)).bind
      fun s => ((if e.unsteadyT ∧ ¬f.dPhidT then applyTemp e o f gamma delta r s else some s).map
        fun s => if e.conc then applyConc o f delta r s else s)
  else some ⟨copyVec e r z, w, 0⟩

end AMPE.PrecondCall
