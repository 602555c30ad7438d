import Verif.Model.Frame
import Verif.Props.RateCall
import Mathlib.Analysis.Calculus.Deriv.Add
import Mathlib.Analysis.Calculus.Deriv.Mul
import Mathlib.Analysis.Calculus.Deriv.Prod
import Mathlib.Analysis.Calculus.Deriv.Comp
import Mathlib.Analysis.Calculus.Deriv.Shift
import Mathlib.Tactic.Linarith
import Mathlib.Tactic.Ring
import Mathlib.Tactic.FieldSimp
import Mathlib.Tactic.Positivity

/-! # C93: a moving frame is a change of coordinates

A run in a frame moving with velocity `v` must show the laboratory fields at `x + v t`. -/

namespace AMPE.Frame.Props

open AMPE.RateCall AMPE.RateCall.Props AMPE.Frame

/-- Field seen from a frame displaced by `a`. -/
def sh (a : ℝ) (f : Prof) : Prof := fun x => f (x + a)

def shS (a : ℝ) (y : State Prof) : State Prof := ⟨sh a y.phase, sh a y.quat, sh a y.conc, sh a y.temp⟩

/-- The medium has no boundaries and the kernels do not depend on the position. -/
structure Homogeneous (o : Ops Prof) : Prop where
  fillPhase : ∀ t x, o.fillPhase t x = x
  fillQuat : ∀ t x, o.fillQuat t x = x
  fillConc : ∀ t x, o.fillConc t x = x
  fillTemp : ∀ t x, o.fillTemp t x = x
  diffQuat : ∀ a q, o.diffQuat (sh a q) = sh a (o.diffQuat q)
  symmQuat : ∀ a q, o.symmQuat (sh a q) = sh a (o.symmQuat q)
  gradSide : ∀ a q, o.gradSide (sh a q) = sh a (o.gradSide q)
  gradMod : ∀ a q, o.gradMod (sh a q) = sh a (o.gradMod q)
  uniformSide : ∀ a, sh a o.uniformSide = o.uniformSide
  kOther : ∀ a T p, o.kOther (sh a T) (sh a p) = sh a (o.kOther T p)
  split : ∀ a T p x k, o.split (sh a T) (sh a p) (sh a x) (k.map (sh a)) = sh a (o.split T p x k)
  mobPhase : ∀ a p T pc, o.mobPhase (sh a p) (sh a T) (pc.map (sh a)) = sh a (o.mobPhase p T pc)
  mobQuat : ∀ a p, o.mobQuat (sh a p) = sh a (o.mobQuat p)
  phaseRate : ∀ a p q T g x pc m, o.phaseRate (sh a p) (q.map (sh a)) (sh a T) (g.map (sh a)) (x.map (sh a)) (pc.map (sh a)) (sh a m) =
    sh a (o.phaseRate p q T g x pc m)
  dphidt : ∀ a t r, o.dphidt t (sh a r) = sh a (o.dphidt t r)
  addRigid : ∀ a r f p, o.addRigid (sh a r) (sh a f) (sh a p) = sh a (o.addRigid r f p)
  quatRate : ∀ a p T s d y m q, o.quatRate (sh a p) (sh a T) (sh a s) (sh a d) (sh a y) (sh a m) (sh a q) =
    sh a (o.quatRate p T s d y m q)
  diffusion : ∀ a T p pc, o.diffusion (sh a T) (sh a p) (pc.map (sh a)) = sh a (o.diffusion T p pc)
  concRate : ∀ a x p T pc d r, o.concRate (sh a x) (sh a p) (sh a T) (pc.map (sh a)) (sh a d) (r.map (sh a)) =
    sh a (o.concRate x p T pc d r)
  addRigidConc : ∀ a r f p, o.addRigidConc (sh a r) (sh a f) (sh a p) = sh a (o.addRigidConc r f p)
  tempRate : ∀ a T c r, o.tempRate (sh a T) (sh a c) (sh a r) = sh a (o.tempRate T c r)
  addFrame : o.addFrame = addVdphidx

/-- Laboratory and moving-frame settings. -/
abbrev lab (c : Cfg) : Cfg := { c with moving := false }
abbrev mov (c : Cfg) : Cfg := { c with moving := true }

theorem opt_sh (a : ℝ) (b : Bool) (p : Prof) : (if b then some (sh a p) else none) = (if b then some p else none).map (sh a) := by
  cases b <;> rfl

/-- The rate in the frame is the laboratory rate plus `v d/dx`, for phase, composition and temperature; not for the orientation. -/
theorem rate_shift (o : Ops Prof) (ho : Homogeneous o) (c : Cfg) (m m' : Mem Prof) (v a t : ℝ) (y : State Prof)
    (hf : m'.frame = fun _ => v) (hT : tempOf o (mov c) m' t (shS a y) = sh a (tempOf o (lab c) m t y))
    (hh : heat o (mov c) m' = sh a (heat o (lab c) m))
    (hr : c.rigid = true → ∀ p, o.rigidForce (sh a p) m'.curConc = sh a (o.rigidForce p m.curConc)) :
    let R := rateOf o (lab c) m t y
    rateOf o (mov c) m' t (shS a y) =
      { phase := addVdphidx (sh a R.phase) (fun _ => v) (sh a y.phase)
        quat := R.quat.map (sh a)
        conc := R.conc.map fun r => addVdphidx (sh a r) (fun _ => v) (sh a y.conc)
        temp := R.temp.map fun r => addVdphidx (sh a r) (fun _ => v) (sh a (tempOf o (lab c) m t y)) } := by
  intro R
  have hpc : pcOf o (mov c) m' t (shS a y) = sh a (pcOf o (lab c) m t y) := by
    unfold pcOf
    rw [hT]
    generalize tempOf o (lab c) m t y = T
    simp only [ho.fillPhase, ho.fillConc, shS, ho.kOther, opt_sh, ho.split]
  have hb : bareOf o (mov c) m' t (shS a y) (pcOf o (mov c) m' t (shS a y)) = sh a (bareOf o (lab c) m t y (pcOf o (lab c) m t y)) := by
    rw [hpc]
    unfold bareOf
    rw [hT]
    generalize tempOf o (lab c) m t y = T
    generalize pcOf o (lab c) m t y = pc
    simp only [ho.fillPhase, ho.fillConc, ho.fillQuat, shS, opt_sh, ho.mobPhase, ho.diffQuat, ho.gradSide, ho.gradMod, ho.phaseRate]
  have hd : diffOf o (mov c) m' t (shS a y) = sh a (diffOf o (lab c) m t y) := by
    unfold diffOf
    rw [hT, hpc]
    generalize tempOf o (lab c) m t y = T
    generalize pcOf o (lab c) m t y = pc
    simp only [ho.fillPhase, shS, opt_sh, ho.diffusion]
  have hs : sideOf o t (shS a y) = sh a (sideOf o t y) := by
    unfold sideOf
    simp only [ho.fillQuat, shS, ho.diffQuat, ho.gradSide]
  simp only [R]
  unfold rateOf rateGen
  simp only [hT, hb, hd, hs, hf, hh, ho.addFrame]
  rw [hpc]
  generalize bareOf o (lab c) m t y (pcOf o (lab c) m t y) = b
  generalize diffOf o (lab c) m t y = d
  generalize tempOf o (lab c) m t y = T
  generalize pcOf o (lab c) m t y = pc
  generalize heat o (lab c) m = h
  generalize sideOf o t y = s
  simp only [ho.fillPhase, ho.fillConc, ho.fillQuat, shS, opt_sh, ho.dphidt, ho.concRate,
    ho.tempRate, ho.mobQuat, ho.symmQuat, if_true, Bool.false_eq_true, if_false, Rate.mk.injEq]
  refine ⟨?_, ?_, ?_, ?_⟩
  · by_cases h : c.rigid = true
    · simp [h, hr h, ho.addRigid]
    · simp [h]
  · have hu : (if t < c.uniformUntil then o.uniformSide else sh a s) =
        sh a (if t < c.uniformUntil then o.uniformSide else s) := by
      split_ifs
      · exact (ho.uniformSide a).symm
      · rfl
    rw [hu, ho.quatRate]
    by_cases h : c.quat = true <;> simp [h]
  · by_cases h : c.conc = true <;> by_cases h' : c.rigid = true
    · simp [h, h', hr h', ho.addRigidConc]
    all_goals simp [h, h']
  · by_cases h : c.temp = .unsteady <;> simp [h]

/-! ## Chain rule -/

/-- A field seen from the frame changes by the laboratory rate plus `v` times the slope. -/
theorem shifted (u : ℝ → Prof) (v t x : ℝ) (hu : DifferentiableAt ℝ (fun p : ℝ × ℝ => u p.1 p.2) (t, x + v * t)) (r : ℝ) :
    HasDerivAt (fun τ => u τ (x + v * t)) r t ↔
      HasDerivAt (fun τ => sh (v * τ) (u τ) x) (r + v * deriv (sh (v * t) (u t)) x) t := by
  obtain ⟨L, hL⟩ := hu
  have c1 : HasDerivAt (fun τ : ℝ => ((τ, x + v * t) : ℝ × ℝ)) (1, 0) t := (hasDerivAt_id t).prodMk (hasDerivAt_const t _)
  have c2 : HasDerivAt (fun z : ℝ => ((t, z) : ℝ × ℝ)) (0, 1) (x + v * t) := (hasDerivAt_const _ _).prodMk (hasDerivAt_id _)
  have c3 : HasDerivAt (fun τ : ℝ => ((τ, x + v * τ) : ℝ × ℝ)) (1, v) t := by
    refine (hasDerivAt_id t).prodMk ?_
    simpa using ((hasDerivAt_id t).const_mul v).const_add x
  have d1 : HasDerivAt (fun τ => u τ (x + v * t)) (L (1, 0)) t := HasFDerivAt.comp_hasDerivAt (l := fun p : ℝ × ℝ => u p.1 p.2) t hL c1
  have d2 : HasDerivAt (u t) (L (0, 1)) (x + v * t) := HasFDerivAt.comp_hasDerivAt (l := fun p : ℝ × ℝ => u p.1 p.2) (x + v * t) hL c2
  have d3 : HasDerivAt (fun τ => sh (v * τ) (u τ) x) (L (1, v)) t := HasFDerivAt.comp_hasDerivAt (l := fun p : ℝ × ℝ => u p.1 p.2) t hL c3
  have e : L (1, v) = L (1, 0) + v * L (0, 1) := by
    have : ((1, v) : ℝ × ℝ) = (1, 0) + v • (0, 1) := by ext <;> simp
    rw [this, map_add, map_smul, smul_eq_mul]
  have e2 : deriv (sh (v * t) (u t)) x = L (0, 1) := by
    have : deriv (sh (v * t) (u t)) x = deriv (u t) (x + v * t) := deriv_comp_add_const (u t) (v * t) x
    rw [this, d2.deriv]
  rw [e2]
  constructor
  · intro h
    rw [h.unique d1, ← e]
    exact d3
  · intro h
    have := h.unique d3
    rw [e] at this
    have hr : r = L (1, 0) := by linarith
    rw [hr]; exact d1

/-- Fields that satisfy the evolution equations as evaluated by the program; `M t` is the memory in which the rate at time `t` is asked for. -/
def Solves (o : Ops Prof) (c : Cfg) (M : ℝ → Mem Prof) (U : ℝ → State Prof) : Prop :=
  ∀ t, ∃ R, (evaluate o c 1 t (U t) false (M t)).map Prod.snd = some R ∧ ∀ x,
    HasDerivAt (fun τ => (U τ).phase x) (R.phase x) t ∧
    (∀ r, R.quat = some r → HasDerivAt (fun τ => (U τ).quat x) (r x) t) ∧
    (∀ r, R.conc = some r → HasDerivAt (fun τ => (U τ).conc x) (r x) t) ∧
    (∀ r, R.temp = some r → HasDerivAt (fun τ => (U τ).temp x) (r x) t)

/-- Fields smooth in time and position together. -/
def Smooth (u : ℝ → Prof) : Prop := Differentiable ℝ fun p : ℝ × ℝ => u p.1 p.2

theorem solves_iff (o : Ops Prof) (c : Cfg) (ha : (c.partition && c.aziz) = false) (hn : c.noise = false) (M : ℝ → Mem Prof)
    (U : ℝ → State Prof) : Solves o c M U ↔ ∀ t x,
      HasDerivAt (fun τ => (U τ).phase x) ((rateOf o c (M t) t (U t)).phase x) t ∧
      (∀ r, (rateOf o c (M t) t (U t)).quat = some r → HasDerivAt (fun τ => (U τ).quat x) (r x) t) ∧
      (∀ r, (rateOf o c (M t) t (U t)).conc = some r → HasDerivAt (fun τ => (U τ).conc x) (r x) t) ∧
      (∀ r, (rateOf o c (M t) t (U t)).temp = some r → HasDerivAt (fun τ => (U τ).temp x) (r x) t) := by
  have key := fun t => c92_function_partial o c ha hn 0 1 [] (M t) (M t) rfl t (U t)
  constructor
  · intro h t x
    obtain ⟨R, h1, h2⟩ := h t
    rw [key t] at h1
    obtain rfl := Option.some.inj h1
    exact h2 x
  · intro h t
    exact ⟨_, key t, fun x => h t x⟩

theorem rate_temp_none (o : Ops Prof) (c : Cfg) (m : Mem Prof) (t : ℝ) (y : State Prof) (h : c.temp ≠ .unsteady) :
    (rateOf o c m t y).temp = none := by simp [rateOf, rateGen, h]

/-- Conditions on temperature, heat capacity and forces between grains under which both runs see the same medium: see `c93_unsteady`, and C70 for the frozen gradient. -/
structure SameMedium (o : Ops Prof) (c : Cfg) (v : ℝ) (M M' : ℝ → Mem Prof) (U : ℝ → State Prof) : Prop where
  frame : ∀ t, (M' t).frame = fun _ => v
  temp : ∀ t, tempOf o (mov c) (M' t) t (shS (v * t) (U t)) = sh (v * t) (tempOf o (lab c) (M t) t (U t))
  heat : ∀ t, heat o (mov c) (M' t) = sh (v * t) (heat o (lab c) (M t))
  force : c.rigid = true → ∀ t p, o.rigidForce (sh (v * t) p) (M' t).curConc = sh (v * t) (o.rigidForce p (M t).curConc)

/-- **C93** (partial: without orientations, Aziz's partition coefficient and noise) Fields solve the laboratory equations exactly if, seen from the
frame, they solve the moving-frame equations; with rigid motion, anti-trapping, latent heat. -/
theorem c93_equivalent_partial (o : Ops Prof) (ho : Homogeneous o) (c : Cfg) (hq : c.quat = false) (ha : (c.partition && c.aziz) = false)
    (hn : c.noise = false) (v : ℝ) (M M' : ℝ → Mem Prof) (U : ℝ → State Prof) (hm : SameMedium o c v M M' U)
    (s1 : Smooth fun t => (U t).phase) (s2 : Smooth fun t => (U t).conc) (s3 : Smooth fun t => (U t).temp) :
    Solves o (lab c) M U ↔ Solves o (mov c) M' fun t => shS (v * t) (U t) := by
  rw [solves_iff o (lab c) ha hn, solves_iff o (mov c) ha hn]
  have hR := fun t => rate_shift o ho c (M t) (M' t) v (v * t) t (U t) (hm.frame t) (hm.temp t) (hm.heat t)
    fun h => hm.force h t
  have hqn : ∀ t, (rateOf o (lab c) (M t) t (U t)).quat = none := fun t => by simp [rateOf, rateGen, lab, hq]
  have hTu : c.temp = .unsteady → ∀ t, tempOf o (lab c) (M t) t (U t) = (U t).temp := by
    intro h t
    simp [tempOf, lab, h, ho.fillTemp]
  -- both sides at matching points
  have hpt : ∀ t x,
      ((HasDerivAt (fun τ => (U τ).phase (x + v * t)) ((rateOf o (lab c) (M t) t (U t)).phase (x + v * t)) t ∧
      (∀ r, (rateOf o (lab c) (M t) t (U t)).quat = some r → HasDerivAt (fun τ => (U τ).quat (x + v * t)) (r (x + v * t)) t) ∧
      (∀ r, (rateOf o (lab c) (M t) t (U t)).conc = some r → HasDerivAt (fun τ => (U τ).conc (x + v * t)) (r (x + v * t)) t) ∧
      (∀ r, (rateOf o (lab c) (M t) t (U t)).temp = some r → HasDerivAt (fun τ => (U τ).temp (x + v * t)) (r (x + v * t)) t)) ↔
      (HasDerivAt (fun τ => (shS (v * τ) (U τ)).phase x) ((rateOf o (mov c) (M' t) t (shS (v * t) (U t))).phase x) t ∧
      (∀ r, (rateOf o (mov c) (M' t) t (shS (v * t) (U t))).quat = some r → HasDerivAt (fun τ => (shS (v * τ) (U τ)).quat x) (r x) t) ∧
      (∀ r, (rateOf o (mov c) (M' t) t (shS (v * t) (U t))).conc = some r → HasDerivAt (fun τ => (shS (v * τ) (U τ)).conc x) (r x) t) ∧
      (∀ r, (rateOf o (mov c) (M' t) t (shS (v * t) (U t))).temp = some r → HasDerivAt (fun τ => (shS (v * τ) (U τ)).temp x) (r x) t))) := by
    intro t x
    have e := hR t
    simp only at e
    rw [e]
    refine and_congr (shifted _ v t x (s1 _) _) (and_congr ?_ (and_congr ?_ ?_))
    · rw [hqn t]; simp
    · cases h : (rateOf o (lab c) (M t) t (U t)).conc with
      | none => simp
      | some r =>
        simp only [Option.some.injEq, forall_eq', Option.map_some]
        exact shifted _ v t x (s2 _) _
    · by_cases hu : c.temp = .unsteady
      · rw [hTu hu t]
        cases h : (rateOf o (lab c) (M t) t (U t)).temp with
        | none => simp
        | some r =>
          simp only [Option.some.injEq, forall_eq', Option.map_some]
          exact shifted _ v t x (s3 _) _
      · rw [rate_temp_none o (lab c) (M t) t (U t) hu]
        simp
  constructor
  · intro h t x
    exact (hpt t x).1 (h t (x + v * t))
  · intro h t x
    have := (hpt t (x - v * t)).2 (h t (x - v * t))
    rw [sub_add_cancel] at this
    exact this

/-- **C93** (violation) The orientation gets no frame term: laboratory orientations, seen from the frame, solve the program's equations exactly if
they do not vary along the direction of motion (or the frame rests). -/
theorem c93_violation_orientation (o : Ops Prof) (ho : Homogeneous o) (c : Cfg) (hq : c.quat = true) (ha : (c.partition && c.aziz) = false)
    (hn : c.noise = false) (v : ℝ) (M M' : ℝ → Mem Prof) (U : ℝ → State Prof) (hm : SameMedium o c v M M' U)
    (s1 : Smooth fun t => (U t).quat) (hl : Solves o (lab c) M U) (hf : Solves o (mov c) M' fun t => shS (v * t) (U t)) (t x : ℝ) :
    v * deriv (U t).quat x = 0 := by
  rw [solves_iff o (lab c) ha hn] at hl
  rw [solves_iff o (mov c) ha hn] at hf
  have e := rate_shift o ho c (M t) (M' t) v (v * t) t (U t) (hm.frame t) (hm.temp t) (hm.heat t)
    fun h => hm.force h t
  simp only at e
  have hs : ∃ r, (rateOf o (lab c) (M t) t (U t)).quat = some r := by
    simp [rateOf, rateGen, lab, hq]
  obtain ⟨r, hr⟩ := hs
  have h1 := (hl t x).2.1 r hr
  have h2 := (hf t (x - v * t)).2.1 (sh (v * t) r) (by rw [e]; simp [hr])
  have hx : x - v * t + v * t = x := by ring
  have h3 := (shifted (fun t => (U t).quat) v t (x - v * t) (s1 _) (r x)).1 (by rw [hx]; exact h1)
  have h4 := h2.unique h3
  have e2 : deriv (sh (v * t) (U t).quat) (x - v * t) = deriv (U t).quat x := by
    have : deriv (sh (v * t) (U t).quat) (x - v * t) = deriv (U t).quat (x - v * t + v * t) := deriv_comp_add_const _ _ _
    rw [this, hx]
  have e3 : sh (v * t) r (x - v * t) = r x := by simp only [sh]; rw [hx]
  rw [e2, e3] at h4
  linarith

/-- **C93** An evolving temperature, a uniform heat capacity and forces that depend on the order parameters only are the same medium in both frames. -/
theorem c93_unsteady (o : Ops Prof) (ho : Homogeneous o) (c : Cfg) (hc : c.conc = false) (hT : c.temp = .unsteady)
    (hu : ∀ a, sh a o.heatConst = o.heatConst)
    (hr : c.rigid = true → ∀ a p x x', o.rigidForce (sh a p) x' = sh a (o.rigidForce p x)) (v : ℝ) (M M' : ℝ → Mem Prof) (U : ℝ → State Prof) (hf : ∀ t, (M' t).frame = fun _ => v) :
    SameMedium o c v M M' U :=
  ⟨hf, fun t => by simp [tempOf, mov, lab, hT, ho.fillTemp, shS], fun t => by simp [heat, mov, lab, hc, hu], fun h t p => hr h _ p _ _⟩

/-! ## Interface velocity in the frame -/

/-- **C93** (violation) Aziz's partition coefficient gets the velocity relative to the frame: for the same assumed velocity `w` the program's
result differs from the laboratory one by `v φ' / sqrt (φ'² + threshold²)`. -/
theorem c93_violation_aziz (o : Ops Prof) (ho : Homogeneous o) (dx : ℝ) (hv : o.velocity = velocityKernel dx) (c : Cfg) (m : Mem Prof) (v : ℝ)
    (hf : m.frame = fun _ => v) (hg : m.phaseGrad = deriv m.phaseS) (w : Prof) (x : ℝ) :
    azVel o (mov c) m w x = azVel o (lab c) m w x + v * velocity dx (deriv m.phaseS x) 0 (deriv m.phaseS x) := by
  unfold azVel azRate
  simp only [hv, ho.addFrame, mov, lab, if_true, Bool.false_eq_true, if_false, velocityKernel, velocity, hf, hg, addVdphidx]
  rw [add_div, mul_div_assoc]

/-- For a steady front, which in the laboratory moves at the velocity of the frame, the program finds velocity zero whatever the front velocity. -/
theorem c93_violation_aziz_steady (o : Ops Prof) (ho : Homogeneous o) (dx : ℝ) (hv : o.velocity = velocityKernel dx) (c : Cfg) (m : Mem Prof) (v : ℝ)
    (hf : m.frame = fun _ => v) (hg : m.phaseGrad = deriv m.phaseS) (w : Prof)
    (hst : azRate o (lab c) m w = fun x => -(v * deriv m.phaseS x)) : azVel o (mov c) m w = fun _ => 0 := by
  funext x
  rw [c93_violation_aziz o ho dx hv c m v hf hg w x]
  unfold azVel
  rw [hst]
  simp only [hv, velocityKernel, velocity, hg]
  ring

/-- **C93** (violation) A frame that starts at rest and is to be adapted: the first step dereferences a null pointer. -/
theorem c93_violation_rest (v : ℝ) (adapt : Bool) : firstStep v adapt = none ↔ adapt = true ∧ |v| ≤ 1 / 10 ^ 16 := by
  unfold firstStep inMovingFrame
  by_cases h1 : adapt = true <;> by_cases h2 : (1 : ℝ) / 10 ^ 16 < |v| <;> simp_all

/-! ## Instances -/

/-- Kernels: the order parameter is carried along by its own slope, everything else pointwise. -/
noncomputable def exO : Ops Prof where
  fillPhase _ x := x
  fillQuat _ x := x
  fillConc _ x := x
  fillTemp _ x := x
  prescribed _ _ := fun _ => 1
  steadyGauss _ x := x
  steadyComp x _ := x
  heatCapacity x _ := x
  heatConst := fun _ => 1
  diffPhase x := x
  gradPhase x := deriv x
  diffQuat x := deriv x
  symmQuat x := x
  gradSide x := x
  gradMod x := fun z => |x z|
  uniformSide := fun _ => 1
  kAziz v _ := v
  kOther T _ := T
  split _ _ x k := match k with | some k => (fun z => x z * k z) | none => x
  mobPhase _ _ _ := fun _ => 1
  mobQuat p := p
  mobPT m _ := m
  phaseRate p _ _ _ _ _ m := fun z => m z * deriv p z
  draw _ x := x
  addNoise r _ _ := r
  dphidt _ r := r
  rigidForce p _ := p
  addRigid r _ _ := r
  addFrame := addVdphidx
  velocity := velocityKernel 1
  quatRate _ _ _ _ _ _ _ := fun _ => 0
  diffusion _ p _ := p
  precond d := d
  concRate x _ _ _ d _ := fun z => x z * d z
  addRigidConc r _ _ := r
  tempRate _ _ r := r
  close a b := false

theorem deriv_sh (a : ℝ) (p : Prof) : deriv (sh a p) = sh a (deriv p) := funext fun x => deriv_comp_add_const p a x

/-- The hypotheses on the kernels can be met by differential operators. -/
theorem exO_homogeneous : Homogeneous exO where
  fillPhase _ _ := rfl
  fillQuat _ _ := rfl
  fillConc _ _ := rfl
  fillTemp _ _ := rfl
  diffQuat a q := deriv_sh a q
  symmQuat _ _ := rfl
  gradSide _ _ := rfl
  gradMod _ _ := rfl
  uniformSide _ := rfl
  kOther _ _ _ := rfl
  split a T p x k := by cases k <;> rfl
  mobPhase _ _ _ _ := rfl
  mobQuat _ _ := rfl
  phaseRate a p q T g x pc m := by
    show (fun z => sh a m z * deriv (sh a p) z) = _
    rw [deriv_sh]; rfl
  dphidt _ _ _ := rfl
  addRigid _ _ _ _ := rfl
  quatRate _ _ _ _ _ _ _ _ := rfl
  diffusion _ _ _ _ := rfl
  concRate _ _ _ _ _ _ _ := rfl
  addRigidConc _ _ _ _ := rfl
  tempRate _ _ _ _ := rfl
  addFrame := rfl

/-- Pure orientation run with uniform temperature. -/
def exC : Cfg :=
  { quat := true, conc := false, phaseConc := false, partition := false, aziz := false, velocity := false, lag := true, antitrap := false,
    moving := false, rigid := false, noise := false, temp := .constant, uniformUntil := 0 }

def exM (v : ℝ) : Mem Prof :=
  let x : Prof := fun _ => v
  { curTemp := x, curConc := x, frame := x, lastTime := 0, phaseS := x, quatS := x, concS := x, tempS := x, diffTime := none, gradTime := none,
    phaseDiff := x, phaseGrad := x, symm := x, side := x, sideCopy := x, gmod := x, k := x, pc := x, vel := x, own := x, mobP := x, mobQ := x,
    mobPT := x, noise := x, noiseTime := none, deltat := 0, draws := 0, dphidt := x, forces := x, diff := x, precond := x, cp := x }

/-- A travelling order parameter and orientations that vary along x. -/
def exU (t : ℝ) : State Prof := ⟨fun x => x + t, fun x => x, fun _ => 0, fun _ => 0⟩

theorem exU_lab (v : ℝ) : Solves exO (lab exC) (fun _ => exM v) exU := by
  rw [solves_iff exO (lab exC) rfl rfl]
  intro t x
  refine ⟨?_, ?_, ?_, ?_⟩
  · have e : (rateOf exO (lab exC) (exM v) t (exU t)).phase x = 1 := by
      have : deriv (fun x : ℝ => x + t) x = 1 := ((hasDerivAt_id x).add_const t).deriv
      simp [rateOf, rateGen, exC, bareOf, exO, exU, this]
    rw [e]
    exact (hasDerivAt_id t).const_add x
  · intro r hr
    have : r = fun _ => 0 := by simpa [rateOf, rateGen, exC, exO] using hr.symm
    rw [this]
    exact hasDerivAt_const t x
  · intro r hr; simp [rateOf, rateGen, exC] at hr
  · intro r hr; simp [rateOf, rateGen, exC] at hr

theorem exU_medium (v : ℝ) : SameMedium exO exC v (fun _ => exM v) (fun _ => exM v) exU :=
  ⟨fun _ => rfl, fun _ => rfl, fun _ => rfl, fun _ _ _ => rfl⟩

/-- In the frame these fields do not solve the program's equations: the orientations stand still in the frame. -/
example : ¬ Solves exO (mov exC) (fun _ => exM 2) fun t => shS (2 * t) (exU t) := by
  intro h
  have := c93_violation_orientation exO exO_homogeneous exC rfl rfl rfl 2 _ _ exU (exU_medium 2) (by unfold Smooth exU; fun_prop) (exU_lab 2) h 0 0
  simp [exU] at this

/-- Without orientations they do. -/
example : Solves exO (mov { exC with quat := false }) (fun _ => exM 2) fun t => shS (2 * t) (exU t) := by
  refine (c93_equivalent_partial exO exO_homogeneous { exC with quat := false } rfl rfl rfl 2 (fun _ => exM 2) (fun _ => exM 2) exU ⟨fun _ => rfl, fun _ => rfl, fun _ => rfl, fun _ _ _ => rfl⟩
    (by unfold Smooth exU; fun_prop) (by unfold Smooth exU; fun_prop) (by unfold Smooth exU; fun_prop)).1 ?_
  rw [solves_iff exO (lab { exC with quat := false }) rfl rfl]
  intro t x
  have h := (solves_iff exO (lab exC) rfl rfl (fun _ => exM 2) exU).1 (exU_lab 2) t x
  refine ⟨?_, ?_, ?_, ?_⟩
  · exact h.1
  · intro r hr; simp [rateOf, rateGen] at hr
  · intro r hr; simp [rateOf, rateGen, exC] at hr
  · intro r hr; simp [rateOf, rateGen, exC] at hr

end AMPE.Frame.Props
