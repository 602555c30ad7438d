import Verif.Model.PrecondCall
import Mathlib.Algebra.Module.LinearMap.Basic
import Mathlib.Tactic.NormNum
import Mathlib.Tactic.Linarith
import Mathlib.Tactic.Ring

/-! # C109: applying the preconditioner

GMRES assumes that the preconditioner is one fixed linear map while it builds its basis: `z` must be a function of `r` alone, and
a linear one.  The comment of `CVSpgmrPrecondSolve` adds that `M z = r` is solved with `M` approximating `I - gamma J` and that 0
is returned if all block solves converged. -/

namespace AMPE.PrecondCall.Props

open AMPE.PrecondCall

variable {P E Q T C : Type} [AddCommGroup P] [Module ℝ P] [AddCommGroup E] [Module ℝ E] [AddCommGroup Q] [Module ℝ Q]
  [AddCommGroup T] [Module ℝ T] [AddCommGroup C] [Module ℝ C]

/-! ## Helpers -/

theorem join_eq (a b : ℤ) : join a b = 0 ↔ a = 0 ∧ b = 0 := by
  unfold join
  by_cases h : a = 0 ∧ b = 0 <;> simp [h]

theorem flag_eq (b : Bool) : (if b = true then (0 : ℤ) else 1) = 0 ↔ b = true := by
  cases b <;> simp

/-- What the loop over depths leaves. -/
theorem phaseLoop_spec (o : Ops P E Q T C) (delta : ℝ) (rhs : ℕ → P) (s : St P E Q T C) (n : ℕ) :
    let q := phaseLoop o delta rhs n (s, 0)
    (∀ d, q.1.z.phase d = if d < n then (o.phase delta 0 (rhs d)).1 else s.z.phase d) ∧ q.1.z.eta = s.z.eta ∧
    q.1.z.quat = s.z.quat ∧ q.1.z.temp = s.z.temp ∧ q.1.z.conc = s.z.conc ∧ q.1.w.tempSol = s.w.tempSol ∧
    (q.1.w.phaseSol = if n = 0 then s.w.phaseSol else (o.phase delta 0 (rhs (n - 1))).1) ∧ q.1.ret = s.ret ∧
    q.2 ≤ n ∧ (q.2 = n ↔ ∀ d < n, (o.phase delta 0 (rhs d)).2 = true) := by
  induction n with
  | zero => simp [phaseLoop]
  | succ n ih =>
    intro q
    obtain ⟨h1, h2, h3, h4, h5, h6, h7, h8, h9, h10⟩ := ih
    have hq : q = phaseDepth o delta rhs n (phaseLoop o delta rhs n (s, 0)) := rfl
    rw [hq]
    refine ⟨fun d => ?_, h2, h3, h4, h5, h6, ?_, h8, ?_, ?_⟩
    · by_cases hd : d = n
      · subst hd
        rw [if_pos (Nat.lt_succ_self d)]
        exact Function.update_self (β := fun _ : ℕ => P) _ _ _
      · have e1 : (phaseDepth o delta rhs n (phaseLoop o delta rhs n (s, 0))).1.z.phase d =
            (phaseLoop o delta rhs n (s, 0)).1.z.phase d := Function.update_of_ne (β := fun _ : ℕ => P) hd _ _
        rw [e1, h1 d]
        by_cases hlt : d < n
        · rw [if_pos hlt, if_pos (by omega)]
        · rw [if_neg hlt, if_neg (by omega)]
    · rw [if_neg (Nat.succ_ne_zero n)]; rfl
    · show (if (o.phase delta 0 (rhs n)).2 = true then _ else _) ≤ n + 1
      by_cases hc : (o.phase delta 0 (rhs n)).2 = true
      · rw [if_pos hc]; omega
      · rw [if_neg hc]; omega
    · show (if (o.phase delta 0 (rhs n)).2 = true then _ else _) = n + 1 ↔ _
      by_cases hc : (o.phase delta 0 (rhs n)).2 = true
      · rw [if_pos hc]
        constructor
        · intro h d hd
          rcases Nat.lt_succ_iff_lt_or_eq.1 hd with hd | hd
          · exact h10.1 (by omega) d hd
          · rw [hd]; exact hc
        · intro h
          have := h10.2 fun d hd => h d (by omega)
          omega
      · rw [if_neg hc]
        constructor
        · intro h; omega
        · intro h; exact absurd (h n (Nat.lt_succ_self n)) hc

/-! ## Specification -/

/-- The phase correction the off-diagonal blocks see, in terms of the output: that of the last order parameter (the only one when
`norderp = 1`). -/
def seen (e : Eqs) (f : Setup) (z : Vec P E Q T C) : P := if f.phaseS then z.phase (e.norderp - 1) else z.phase 0

/-- Right-hand side of the quaternion block in terms of residual and output. -/
noncomputable def quatRhs (e : Eqs) (o : Ops P E Q T C) (f : Setup) (gamma : ℝ) (r z : Vec P E Q T C) : Q :=
  if f.dquatdphi then gamma • o.dQuatdPhi (seen e f z) + r.quat else r.quat

/-- Right-hand side of the temperature block in terms of residual and output. -/
noncomputable def tempRhs (e : Eqs) (o : Ops P E Q T C) (f : Setup) (gamma : ℝ) (r z : Vec P E Q T C) : T :=
  if f.dTdphi then gamma • o.dTdPhi (seen e f z) + r.temp else r.temp

/-- Every component the vector has is a block solve of its right-hand side (or the residual itself where there is no solver), the
other components are untouched, and 0 is returned exactly when all the block solves performed converged. -/
structure Applied (e : Eqs) (o : Ops P E Q T C) (f : Setup) (gamma delta : ℝ) (r z0 : Vec P E Q T C) (s : St P E Q T C) :
    Prop where
  phase : e.phase → ∀ d < e.norderp, s.z.phase d = if f.phaseS then (o.phase delta 0 (r.phase d)).1 else r.phase d
  eta : e.third → s.z.eta = if f.etaS then (o.eta delta 0 r.eta).1 else r.eta
  quat : e.quat → s.z.quat = if f.quatS then (o.quat delta 0 (quatRhs e o f gamma r s.z)).1 else r.quat
  temp : e.unsteadyT → s.z.temp = if f.tempS then (o.temp delta 0 (tempRhs e o f gamma r s.z)).1 else r.temp
  conc : e.conc → s.z.conc = if f.concS then (o.conc delta 0 r.conc).1 else r.conc
  nophase : ¬e.phase → s.z.phase = z0.phase
  noeta : ¬e.third → s.z.eta = z0.eta
  noquat : ¬e.quat → s.z.quat = z0.quat
  notemp : ¬e.unsteadyT → s.z.temp = z0.temp
  noconc : ¬e.conc → s.z.conc = z0.conc
  ret : s.ret = 0 ↔ (e.phase → f.phaseS → ∀ d < e.norderp, (o.phase delta 0 (r.phase d)).2 = true) ∧
    (e.third → f.etaS → (o.eta delta 0 r.eta).2 = true) ∧
    (e.quat → f.quatS → (o.quat delta 0 (quatRhs e o f gamma r s.z)).2 = true) ∧
    (e.unsteadyT → f.tempS → (o.temp delta 0 (tempRhs e o f gamma r s.z)).2 = true) ∧
    (e.conc → f.concS → (o.conc delta 0 r.conc).2 = true)

/-- Nothing in the configuration trips an assertion: no coupling of a quaternion or temperature block to a phase that is absent, no
`precond_has_dquatdphi` with fluxes from cell gradients, `precond_has_dPhidT` off (its default). -/
structure Sound (e : Eqs) (gradq : Bool) (f : Setup) : Prop where
  use : f.use = true
  order : 1 ≤ e.norderp
  noPT : f.dPhidT = false
  grad : e.quat → f.quatS → f.dquatdphi → gradq = false
  qphase : f.dquatdphi → e.phase = true
  tphase : f.tempS → f.dTdphi → e.phase = true

theorem join01 (a b : ℤ) : join a b = 0 ∨ join a b = 1 := by
  unfold join
  by_cases h : a = 0 ∧ b = 0 <;> simp [h]

/-- The state after the phase stage. -/
theorem phase_stage (e : Eqs) (isDelta : Bool) (o : Ops P E Q T C) (f : Setup) (gamma delta : ℝ) (r : Vec P E Q T C)
    (s : St P E Q T C) (hPT : f.dPhidT = false) (hn : 1 ≤ e.norderp) (hr : s.ret = 0) :
    ∃ s', (if e.phase then applyPhase e isDelta o f gamma delta r s else some s) = some s' ∧
      (e.phase → ∀ d < e.norderp, s'.z.phase d = if f.phaseS then (o.phase delta 0 (r.phase d)).1 else r.phase d) ∧
      (¬e.phase → s'.z.phase = s.z.phase) ∧ s'.z.eta = s.z.eta ∧ s'.z.quat = s.z.quat ∧ s'.z.temp = s.z.temp ∧
      s'.z.conc = s.z.conc ∧
      (e.phase → f.dquatdphi = true ∨ f.dTdphi = true → s'.w.phaseSol = seen e f s'.z) ∧
      (s'.ret = 0 ↔ (e.phase → f.phaseS → ∀ d < e.norderp, (o.phase delta 0 (r.phase d)).2 = true)) := by
  by_cases hp : e.phase
  · rw [if_pos hp]
    unfold applyPhase
    by_cases hs : f.phaseS
    · rw [if_pos hs, if_neg (by simp [hPT])]
      obtain ⟨h1, h2, h3, h4, h5, h6, h7, h8, h9, h10⟩ :=
        phaseLoop_spec o delta (phaseRhs o f gamma r s.z) s e.norderp
      have hrhs : ∀ d, phaseRhs o f gamma r s.z d = r.phase d := fun d => by
        unfold phaseRhs; rw [if_neg (by simp [hPT])]
      refine ⟨_, rfl, fun _ d hd => ?_, fun h => absurd hp h, h2, h3, h4, h5, fun _ _ => ?_, ?_⟩
      · rw [if_pos hs]
        exact (h1 d).trans (by rw [if_pos hd, hrhs])
      · refine h7.trans ?_
        rw [if_neg (by omega)]
        show _ = if f.phaseS = true then _ else _
        rw [if_pos hs]
        exact ((h1 _).trans (if_pos (by omega))).symm
      · show join (join _ 0) s.ret = 0 ↔ _
        rw [join_eq, join_eq]
        simp only [hrhs] at h10 ⊢
        have : ((if (phaseLoop o delta (phaseRhs o f gamma r s.z) e.norderp (s, 0)).2 = e.norderp then (0 : ℤ) else 1) = 0) ↔
            (phaseLoop o delta (phaseRhs o f gamma r s.z) e.norderp (s, 0)).2 = e.norderp := by
          by_cases h : (phaseLoop o delta (phaseRhs o f gamma r s.z) e.norderp (s, 0)).2 = e.norderp <;> simp [h]
        rw [this, h10]
        exact ⟨fun h _ _ => h.1.1, fun h => ⟨⟨h hp hs, trivial⟩, hr⟩⟩
    · rw [if_neg hs]
      refine ⟨_, rfl, fun _ d _ => by rw [if_neg hs], fun h => absurd hp h, rfl, rfl, rfl, rfl, fun _ hc => ?_, ?_⟩
      · show (if f.dquatdphi = true ∨ f.dTdphi = true then ({ s.w with phaseSol := r.phase 0 } : Work P T) else s.w).phaseSol =
          if f.phaseS = true then _ else _
        rw [if_pos hc, if_neg hs]
      · show join 0 s.ret = 0 ↔ _
        rw [join_eq]
        exact ⟨fun _ _ h => absurd h hs, fun _ => ⟨rfl, hr⟩⟩
  · rw [if_neg hp]
    exact ⟨s, rfl, fun h => absurd h hp, fun _ => rfl, rfl, rfl, rfl, rfl, fun h => absurd h hp,
      fun _ h => absurd h hp, fun _ => hr⟩

theorem eta_stage (e : Eqs) (o : Ops P E Q T C) (f : Setup) (delta : ℝ) (r : Vec P E Q T C) (s : St P E Q T C) :
    ∃ s', (if e.third then applyEta o f delta r s else s) = s' ∧
      s'.z.phase = s.z.phase ∧ s'.z.quat = s.z.quat ∧ s'.z.temp = s.z.temp ∧ s'.z.conc = s.z.conc ∧ s'.w = s.w ∧
      (e.third → s'.z.eta = if f.etaS then (o.eta delta 0 r.eta).1 else r.eta) ∧ (¬e.third → s'.z.eta = s.z.eta) ∧
      (s'.ret = 0 ↔ s.ret = 0 ∧ (e.third → f.etaS → (o.eta delta 0 r.eta).2 = true)) := by
  refine ⟨_, rfl, ?_⟩
  by_cases ht : e.third
  · rw [if_pos ht]
    unfold applyEta
    by_cases hs : f.etaS
    · rw [if_pos hs]
      refine ⟨rfl, rfl, rfl, rfl, rfl, fun _ => by rw [if_pos hs], fun h => absurd ht h, ?_⟩
      show join _ s.ret = 0 ↔ _
      rw [join_eq, flag_eq]
      exact ⟨fun h => ⟨h.2, fun _ _ => h.1⟩, fun h => ⟨h.2 ht hs, h.1⟩⟩
    · rw [if_neg hs]
      exact ⟨rfl, rfl, rfl, rfl, rfl, fun _ => by rw [if_neg hs], fun h => absurd ht h,
        fun h => ⟨h, fun _ h' => absurd h' hs⟩, fun h => h.1⟩
  · rw [if_neg ht]
    exact ⟨rfl, rfl, rfl, rfl, rfl, fun h => absurd h ht, fun _ => rfl, fun h => ⟨h, fun h' => absurd h' ht⟩, fun h => h.1⟩

theorem quat_stage (e : Eqs) (gradq : Bool) (o : Ops P E Q T C) (f : Setup) (gamma delta : ℝ) (r : Vec P E Q T C)
    (s : St P E Q T C) (hg : e.quat → f.quatS → f.dquatdphi → gradq = false) :
    ∃ s', (if e.quat then applyQuat gradq o f gamma delta r s else some s) = some s' ∧
      s'.z.phase = s.z.phase ∧ s'.z.eta = s.z.eta ∧ s'.z.temp = s.z.temp ∧ s'.z.conc = s.z.conc ∧ s'.w = s.w ∧
      (e.quat → s'.z.quat = if f.quatS then
        (o.quat delta 0 (if f.dquatdphi then gamma • o.dQuatdPhi s.w.phaseSol + r.quat else r.quat)).1 else r.quat) ∧
      (¬e.quat → s'.z.quat = s.z.quat) ∧
      (s'.ret = 0 ↔ s.ret = 0 ∧ (e.quat → f.quatS →
        (o.quat delta 0 (if f.dquatdphi then gamma • o.dQuatdPhi s.w.phaseSol + r.quat else r.quat)).2 = true)) := by
  by_cases hq : e.quat
  · rw [if_pos hq]
    unfold applyQuat
    by_cases hs : f.quatS
    · rw [if_pos hs, if_neg (fun h => by rw [hg hq hs h.1] at h; exact absurd h.2 (by decide))]
      refine ⟨_, rfl, rfl, rfl, rfl, rfl, rfl, fun _ => by rw [if_pos hs], fun h => absurd hq h, ?_⟩
      show join _ s.ret = 0 ↔ _
      rw [join_eq, flag_eq]
      exact ⟨fun h => ⟨h.2, fun _ _ => h.1⟩, fun h => ⟨h.2 hq hs, h.1⟩⟩
    · rw [if_neg hs]
      exact ⟨_, rfl, rfl, rfl, rfl, rfl, rfl, fun _ => by rw [if_neg hs], fun h => absurd hq h,
        fun h => ⟨h, fun _ h' => absurd h' hs⟩, fun h => h.1⟩
  · rw [if_neg hq]
    exact ⟨s, rfl, rfl, rfl, rfl, rfl, rfl, fun h => absurd h hq, fun _ => rfl, fun h => ⟨h, fun h' => absurd h' hq⟩,
      fun h => h.1⟩

theorem temp_stage (e : Eqs) (o : Ops P E Q T C) (f : Setup) (gamma delta : ℝ) (r : Vec P E Q T C)
    (s : St P E Q T C) (hg : f.tempS → f.dTdphi → e.phase = true) :
    ∃ s', applyTemp e o f gamma delta r s = some s' ∧
      s'.z.phase = s.z.phase ∧ s'.z.eta = s.z.eta ∧ s'.z.quat = s.z.quat ∧ s'.z.conc = s.z.conc ∧
      s'.w.phaseSol = s.w.phaseSol ∧
      (s'.z.temp = if f.tempS then
        (o.temp delta 0 (if f.dTdphi then gamma • o.dTdPhi s.w.phaseSol + r.temp else r.temp)).1 else r.temp) ∧
      (s'.ret = 0 ↔ s.ret = 0 ∧ (f.tempS →
        (o.temp delta 0 (if f.dTdphi then gamma • o.dTdPhi s.w.phaseSol + r.temp else r.temp)).2 = true)) := by
  unfold applyTemp
  by_cases hs : f.tempS
  · rw [if_pos hs, if_neg (fun h => h.2 (hg hs h.1))]
    refine ⟨_, rfl, rfl, rfl, rfl, rfl, rfl, by rw [if_pos hs], ?_⟩
    show join (join _ 0) s.ret = 0 ↔ _
    rw [join_eq, join_eq, flag_eq]
    exact ⟨fun h => ⟨h.2, fun _ => h.1.1⟩, fun h => ⟨⟨h.2 hs, rfl⟩, h.1⟩⟩
  · rw [if_neg hs]
    refine ⟨_, rfl, rfl, rfl, rfl, rfl, ?_, by rw [if_neg hs], ?_⟩
    · show (if f.dPhidT = true then ({ s.w with tempSol := r.temp } : Work P T) else s.w).phaseSol = _
      by_cases h : f.dPhidT = true
      · rw [if_pos h]
      · rw [if_neg h]
    · show join 0 s.ret = 0 ↔ _
      rw [join_eq]
      exact ⟨fun h => ⟨h.2, fun h' => absurd h' hs⟩, fun h => ⟨rfl, h.1⟩⟩

theorem conc_stage (e : Eqs) (o : Ops P E Q T C) (f : Setup) (delta : ℝ) (r : Vec P E Q T C) (s : St P E Q T C) :
    ∃ s', (if e.conc then applyConc o f delta r s else s) = s' ∧
      s'.z.phase = s.z.phase ∧ s'.z.eta = s.z.eta ∧ s'.z.quat = s.z.quat ∧ s'.z.temp = s.z.temp ∧ s'.w = s.w ∧
      (e.conc → s'.z.conc = if f.concS then (o.conc delta 0 r.conc).1 else r.conc) ∧ (¬e.conc → s'.z.conc = s.z.conc) ∧
      (s'.ret = 0 ↔ s.ret = 0 ∧ (e.conc → f.concS → (o.conc delta 0 r.conc).2 = true)) := by
  refine ⟨_, rfl, ?_⟩
  by_cases ht : e.conc
  · rw [if_pos ht]
    unfold applyConc
    by_cases hs : f.concS
    · rw [if_pos hs]
      refine ⟨rfl, rfl, rfl, rfl, rfl, fun _ => by rw [if_pos hs], fun h => absurd ht h, ?_⟩
      show join _ s.ret = 0 ↔ _
      rw [join_eq, flag_eq]
      exact ⟨fun h => ⟨h.2, fun _ _ => h.1⟩, fun h => ⟨h.2 ht hs, h.1⟩⟩
    · rw [if_neg hs]
      refine ⟨rfl, rfl, rfl, rfl, rfl, fun _ => by rw [if_neg hs], fun h => absurd ht h, ?_⟩
      show join 0 s.ret = 0 ↔ _
      rw [join_eq]
      exact ⟨fun h => ⟨h.2, fun _ h' => absurd h' hs⟩, fun h => ⟨rfl, h.1⟩⟩
  · rw [if_neg ht]
    exact ⟨rfl, rfl, rfl, rfl, rfl, fun h => absurd h ht, fun _ => rfl, fun h => ⟨h, fun h' => absurd h' ht⟩, fun h => h.1⟩

/-! ## The application -/

/-- **C109.**  In every sound configuration one application writes each component of `z` the vector has, from `r` alone: neither the
previous content of `z` nor the work arrays of the previous application enter.  The quaternion and temperature blocks see the phase
correction of this application.  0 is returned exactly when all block solves converged. -/
theorem c109_applied (e : Eqs) (isDelta gradq : Bool) (o : Ops P E Q T C) (f : Setup) (gamma delta : ℝ) (lr : ℤ)
    (r z : Vec P E Q T C) (w : Work P T) (hf : Sound e gradq f) (hlr : lr = 1 ∨ lr = 2) :
    ∃ s, precondSolve e isDelta gradq o f gamma delta lr r z w = some s ∧ Applied e o f gamma delta r z s := by
  unfold precondSolve
  rw [if_neg (by simp [hf.use]), if_pos hlr, if_neg (by simp [hf.noPT]), Option.bind_some]
  obtain ⟨s1, k1, a1, a2, a3, a4, a5, a6, a7, a8⟩ :=
    phase_stage e isDelta o f gamma delta r ⟨z, w, 0⟩ hf.noPT hf.order rfl
  rw [k1, Option.bind_some]
  obtain ⟨s2, k2, b1, b2, b3, b4, b5, b6, b7, b8⟩ := eta_stage e o f delta r s1
  rw [k2]
  obtain ⟨s3, k3, c1, c2, c3, c4, c5, c6, c7, c8⟩ := quat_stage e gradq o f gamma delta r s2 hf.grad
  have k3' : (if e.quat = true then applyQuat gradq o f gamma delta r s2 else some s2) = some s3 := k3
  rw [k3', Option.bind_some]
  have hsol : s3.w.phaseSol = s1.w.phaseSol := by rw [c5, b5]
  -- the temperature stage
  have ht : ∃ s4, (if e.unsteadyT = true ∧ ¬f.dPhidT = true then applyTemp e o f gamma delta r s3 else some s3) = some s4 ∧
      s4.z.phase = s3.z.phase ∧ s4.z.eta = s3.z.eta ∧ s4.z.quat = s3.z.quat ∧ s4.z.conc = s3.z.conc ∧
      (e.unsteadyT → s4.z.temp = if f.tempS then
        (o.temp delta 0 (if f.dTdphi then gamma • o.dTdPhi s3.w.phaseSol + r.temp else r.temp)).1 else r.temp) ∧
      (¬e.unsteadyT → s4.z.temp = s3.z.temp) ∧
      (s4.ret = 0 ↔ s3.ret = 0 ∧ (e.unsteadyT → f.tempS →
        (o.temp delta 0 (if f.dTdphi then gamma • o.dTdPhi s3.w.phaseSol + r.temp else r.temp)).2 = true)) := by
    by_cases hu : e.unsteadyT
    · rw [if_pos ⟨hu, by simp [hf.noPT]⟩]
      obtain ⟨s4, k4, d1, d2, d3, d4, d5, d6, d7⟩ := temp_stage e o f gamma delta r s3 hf.tphase
      exact ⟨s4, k4, d1, d2, d3, d4, fun _ => d6, fun h => absurd hu h,
        d7.trans ⟨fun h => ⟨h.1, fun _ => h.2⟩, fun h => ⟨h.1, h.2 hu⟩⟩⟩
    · rw [if_neg (fun h => hu h.1)]
      exact ⟨s3, rfl, rfl, rfl, rfl, rfl, fun h => absurd h hu, fun _ => rfl, fun h => ⟨h, fun h' => absurd h' hu⟩,
        fun h => h.1⟩
  obtain ⟨s4, k4, d1, d2, d3, d4, d5, d6, d7⟩ := ht
  rw [k4, Option.map_some]
  obtain ⟨s5, k5, g1, g2, g3, g4, g5, g6, g7, g8⟩ := conc_stage e o f delta r s4
  have k5' : (if e.conc = true then applyConc o f delta r s4 else s4) = s5 := k5
  rw [k5']
  have hph : s5.z.phase = s1.z.phase := by rw [g1, d1, c1, b1]
  have hseen : seen e f s5.z = seen e f s1.z := by unfold seen; rw [hph]
  have hq : quatRhs e o f gamma r s5.z =
      if f.dquatdphi then gamma • o.dQuatdPhi s2.w.phaseSol + r.quat else r.quat := by
    unfold quatRhs
    by_cases h : f.dquatdphi = true
    · rw [if_pos h, if_pos h, hseen, ← a7 (hf.qphase h) (Or.inl h), b5]
    · rw [if_neg h, if_neg h]
  have htr : f.tempS = true → tempRhs e o f gamma r s5.z =
      if f.dTdphi then gamma • o.dTdPhi s3.w.phaseSol + r.temp else r.temp := fun hs => by
    unfold tempRhs
    by_cases h : f.dTdphi = true
    · rw [if_pos h, if_pos h, hseen, ← a7 (hf.tphase hs h) (Or.inr h), hsol]
    · rw [if_neg h, if_neg h]
  refine ⟨s5, rfl, ?_, ?_, ?_, ?_, g6, ?_, ?_, ?_, ?_, ?_, ?_⟩
  · intro hp d hd; rw [hph]; exact a1 hp d hd
  · intro h; rw [g2, d2, c2]; exact b6 h
  · intro h; rw [g3, d3, hq]; exact c6 h
  · intro h
    rw [g4, d5 h]
    by_cases hs : f.tempS = true
    · rw [if_pos hs, if_pos hs, htr hs]
    · rw [if_neg hs, if_neg hs]
  · intro h; rw [hph]; exact a2 h
  · intro h; rw [g2, d2, c2, b7 h]; exact a3
  · intro h; rw [g3, d3, c7 h, b2]; exact a4
  · intro h; rw [g4, d6 h, c3, b3]; exact a5
  · intro h; rw [g7 h, d4, c4, b4]; exact a6
  · rw [g8, d7, c8, b8, a8, hq]
    constructor
    · rintro ⟨⟨⟨⟨h1, h2⟩, h3⟩, h4⟩, h5⟩
      exact ⟨h1, h2, h3, fun hu hs => by rw [htr hs]; exact h4 hu hs, h5⟩
    · rintro ⟨h1, h2, h3, h4, h5⟩
      exact ⟨⟨⟨⟨h1, h2⟩, h3⟩, fun hu hs => by rw [← htr hs]; exact h4 hu hs⟩, h5⟩

/-! ## Consequences -/

/-- Equality on the components the vectors have. -/
structure Same (e : Eqs) (x y : Vec P E Q T C) : Prop where
  phase : e.phase → ∀ d < e.norderp, x.phase d = y.phase d
  eta : e.third → x.eta = y.eta
  quat : e.quat → x.quat = y.quat
  temp : e.unsteadyT → x.temp = y.temp
  conc : e.conc → x.conc = y.conc

theorem seen_lt (e : Eqs) (f : Setup) (z : Vec P E Q T C) (hn : 1 ≤ e.norderp) :
    ∃ d < e.norderp, ∀ x : Vec P E Q T C, seen e f x = x.phase d := by
  by_cases h : f.phaseS = true
  · exact ⟨e.norderp - 1, by omega, fun x => by unfold seen; rw [if_pos h]⟩
  · exact ⟨0, by omega, fun x => by unfold seen; rw [if_neg h]⟩

/-- **C109.**  Two applications to the same `r` give the same `z` and the same return code, whatever the output vectors and the work
arrays held before. -/
theorem c109_function_partial (e : Eqs) (isDelta gradq : Bool) (o : Ops P E Q T C) (f : Setup) (gamma delta : ℝ) (lr : ℤ)
    (r z z' : Vec P E Q T C) (w w' : Work P T) (hf : Sound e gradq f) (hlr : lr = 1 ∨ lr = 2) :
    ∃ s s', precondSolve e isDelta gradq o f gamma delta lr r z w = some s ∧
      precondSolve e isDelta gradq o f gamma delta lr r z' w' = some s' ∧ Same e s.z s'.z ∧ (s.ret = 0 ↔ s'.ret = 0) := by
  obtain ⟨s, hs, A⟩ := c109_applied e isDelta gradq o f gamma delta lr r z w hf hlr
  obtain ⟨s', hs', A'⟩ := c109_applied e isDelta gradq o f gamma delta lr r z' w' hf hlr
  obtain ⟨d, hd, hseen⟩ := seen_lt (P := P) (E := E) (Q := Q) (T := T) (C := C) e f r hf.order
  have hph : e.phase → ∀ d < e.norderp, s.z.phase d = s'.z.phase d := fun h d hd => by
    rw [A.phase h d hd, A'.phase h d hd]
  have hq : quatRhs e o f gamma r s.z = quatRhs e o f gamma r s'.z := by
    unfold quatRhs
    by_cases h : f.dquatdphi = true
    · rw [if_pos h, if_pos h, hseen, hseen, hph (hf.qphase h) d hd]
    · rw [if_neg h, if_neg h]
  have ht : f.tempS = true → tempRhs e o f gamma r s.z = tempRhs e o f gamma r s'.z := fun hs => by
    unfold tempRhs
    by_cases h : f.dTdphi = true
    · rw [if_pos h, if_pos h, hseen, hseen, hph (hf.tphase hs h) d hd]
    · rw [if_neg h, if_neg h]
  refine ⟨s, s', hs, hs', ⟨hph, fun h => by rw [A.eta h, A'.eta h], fun h => by rw [A.quat h, A'.quat h, hq], fun h => ?_,
    fun h => by rw [A.conc h, A'.conc h]⟩, ?_⟩
  · rw [A.temp h, A'.temp h]
    by_cases hs : f.tempS = true
    · rw [if_pos hs, if_pos hs, ht hs]
    · rw [if_neg hs, if_neg hs]
  · rw [A.ret, A'.ret, hq]
    constructor
    · rintro ⟨h1, h2, h3, h4, h5⟩; exact ⟨h1, h2, h3, fun hu hs => by rw [← ht hs]; exact h4 hu hs, h5⟩
    · rintro ⟨h1, h2, h3, h4, h5⟩; exact ⟨h1, h2, h3, fun hu hs => by rw [ht hs]; exact h4 hu hs, h5⟩

/-- The diagonal blocks solve their systems exactly at this tolerance. -/
structure Exact (o : Ops P E Q T C) (delta : ℝ) (Ap : P → P) (Ae : E → E) (Aq : Q → Q) (At : T → T) (Ac : C → C) : Prop where
  phase : ∀ x, Ap (o.phase delta 0 x).1 = x
  eta : ∀ x, Ae (o.eta delta 0 x).1 = x
  quat : ∀ x, Aq (o.quat delta 0 x).1 = x
  temp : ∀ x, At (o.temp delta 0 x).1 = x
  conc : ∀ x, Ac (o.conc delta 0 x).1 = x

/-- **C109.**  `M z = r`: with exact block solves and one order parameter the output solves the block lower triangular system whose
diagonal blocks are those of the solvers present (identity for the others) and whose couplings are `- gamma` times the blocks
`dq/dphi` and `dT/dphi` that were asked for. -/
theorem c109_system_partial (e : Eqs) (isDelta gradq : Bool) (o : Ops P E Q T C) (f : Setup) (gamma delta : ℝ) (lr : ℤ)
    (r z : Vec P E Q T C) (w : Work P T) (hf : Sound e gradq f) (hlr : lr = 1 ∨ lr = 2) (h1 : e.norderp = 1)
    (Ap : P → P) (Ae : E → E) (Aq : Q → Q) (At : T → T) (Ac : C → C) (X : Exact o delta Ap Ae Aq At Ac) :
    ∃ s, precondSolve e isDelta gradq o f gamma delta lr r z w = some s ∧
      (e.phase → (if f.phaseS then Ap (s.z.phase 0) else s.z.phase 0) = r.phase 0) ∧
      (e.third → (if f.etaS then Ae s.z.eta else s.z.eta) = r.eta) ∧
      (e.quat → (if f.quatS then Aq s.z.quat - (if f.dquatdphi then gamma • o.dQuatdPhi (s.z.phase 0) else 0) else s.z.quat) =
        r.quat) ∧
      (e.unsteadyT → (if f.tempS then At s.z.temp - (if f.dTdphi then gamma • o.dTdPhi (s.z.phase 0) else 0) else s.z.temp) =
        r.temp) ∧
      (e.conc → (if f.concS then Ac s.z.conc else s.z.conc) = r.conc) := by
  obtain ⟨s, hs, A⟩ := c109_applied e isDelta gradq o f gamma delta lr r z w hf hlr
  have hseen : seen e f s.z = s.z.phase 0 := by unfold seen; rw [h1]; simp
  refine ⟨s, hs, fun h => ?_, fun h => ?_, fun h => ?_, fun h => ?_, fun h => ?_⟩
  · have := A.phase h 0 (by omega)
    by_cases hp : f.phaseS = true
    · rw [if_pos hp] at this ⊢; rw [this, X.phase]
    · rw [if_neg hp] at this ⊢; exact this
  · have := A.eta h
    by_cases hp : f.etaS = true
    · rw [if_pos hp] at this ⊢; rw [this, X.eta]
    · rw [if_neg hp] at this ⊢; exact this
  · have := A.quat h
    by_cases hp : f.quatS = true
    · rw [if_pos hp] at this ⊢
      rw [this, X.quat]
      unfold quatRhs
      by_cases hd : f.dquatdphi = true
      · rw [if_pos hd, if_pos hd, hseen, add_sub_cancel_left]
      · rw [if_neg hd, if_neg hd, sub_zero]
    · rw [if_neg hp] at this ⊢; exact this
  · have := A.temp h
    by_cases hp : f.tempS = true
    · rw [if_pos hp] at this ⊢
      rw [this, X.temp]
      unfold tempRhs
      by_cases hd : f.dTdphi = true
      · rw [if_pos hd, if_pos hd, hseen, add_sub_cancel_left]
      · rw [if_neg hd, if_neg hd, sub_zero]
    · rw [if_neg hp] at this ⊢; exact this
  · have := A.conc h
    by_cases hp : f.concS = true
    · rw [if_pos hp] at this ⊢; rw [this, X.conc]
    · rw [if_neg hp] at this ⊢; exact this

/-- `x + a y` componentwise. -/
def comb (a : ℝ) (x y : Vec P E Q T C) : Vec P E Q T C :=
  { phase := fun d => x.phase d + a • y.phase d, eta := x.eta + a • y.eta, quat := x.quat + a • y.quat,
    temp := x.temp + a • y.temp, conc := x.conc + a • y.conc }

/-- A map that respects `x + a y`. -/
def Lin {V W : Type} [AddCommGroup V] [Module ℝ V] [AddCommGroup W] [Module ℝ W] (F : V → W) : Prop :=
  ∀ (a : ℝ) (x y : V), F (x + a • y) = F x + a • F y

/-- The block solves from a zero guess (a fixed number of cycles, say) and the couplings are linear. -/
structure LinOps (o : Ops P E Q T C) (delta : ℝ) : Prop where
  phase : Lin fun x => (o.phase delta 0 x).1
  eta : Lin fun x => (o.eta delta 0 x).1
  quat : Lin fun x => (o.quat delta 0 x).1
  temp : Lin fun x => (o.temp delta 0 x).1
  conc : Lin fun x => (o.conc delta 0 x).1
  dq : Lin o.dQuatdPhi
  dT : Lin o.dTdPhi

/-- **C109.**  If the block solves and the couplings are linear, so is the preconditioner. -/
theorem c109_linear_partial (e : Eqs) (isDelta gradq : Bool) (o : Ops P E Q T C) (f : Setup) (gamma delta a : ℝ) (lr : ℤ)
    (r r' z : Vec P E Q T C) (w : Work P T) (hf : Sound e gradq f) (hlr : lr = 1 ∨ lr = 2) (L : LinOps o delta) :
    ∃ s s' t, precondSolve e isDelta gradq o f gamma delta lr r z w = some s ∧
      precondSolve e isDelta gradq o f gamma delta lr r' z w = some s' ∧
      precondSolve e isDelta gradq o f gamma delta lr (comb a r r') z w = some t ∧ Same e t.z (comb a s.z s'.z) := by
  obtain ⟨s, hs, A⟩ := c109_applied e isDelta gradq o f gamma delta lr r z w hf hlr
  obtain ⟨s', hs', A'⟩ := c109_applied e isDelta gradq o f gamma delta lr r' z w hf hlr
  obtain ⟨t, ht, B⟩ := c109_applied e isDelta gradq o f gamma delta lr (comb a r r') z w hf hlr
  obtain ⟨d, hd, hseen⟩ := seen_lt (P := P) (E := E) (Q := Q) (T := T) (C := C) e f r hf.order
  have hph : e.phase → ∀ d < e.norderp, t.z.phase d = s.z.phase d + a • s'.z.phase d := fun h d hd => by
    rw [A.phase h d hd, A'.phase h d hd, B.phase h d hd]
    by_cases hp : f.phaseS = true
    · rw [if_pos hp, if_pos hp, if_pos hp]; exact L.phase a _ _
    · rw [if_neg hp, if_neg hp, if_neg hp]; rfl
  have gam : ∀ {W : Type} [AddCommGroup W] [Module ℝ W] (x y p q : W),
      gamma • (x + a • y) + (p + a • q) = (gamma • x + p) + a • (gamma • y + q) := by
    intro W _ _ x y p q
    rw [smul_add, smul_add, smul_comm gamma a y]
    abel
  have hq : quatRhs e o f gamma (comb a r r') t.z = quatRhs e o f gamma r s.z + a • quatRhs e o f gamma r' s'.z := by
    unfold quatRhs
    by_cases h : f.dquatdphi = true
    · rw [if_pos h, if_pos h, if_pos h, hseen, hseen, hseen, hph (hf.qphase h) d hd, L.dq]
      exact gam _ _ _ _
    · rw [if_neg h, if_neg h, if_neg h]; rfl
  have hT : f.tempS = true → tempRhs e o f gamma (comb a r r') t.z =
      tempRhs e o f gamma r s.z + a • tempRhs e o f gamma r' s'.z := fun hs => by
    unfold tempRhs
    by_cases h : f.dTdphi = true
    · rw [if_pos h, if_pos h, if_pos h, hseen, hseen, hseen, hph (hf.tphase hs h) d hd, L.dT]
      exact gam _ _ _ _
    · rw [if_neg h, if_neg h, if_neg h]; rfl
  refine ⟨s, s', t, hs, hs', ht, hph, fun h => ?_, fun h => ?_, fun h => ?_, fun h => ?_⟩
  · show t.z.eta = s.z.eta + a • s'.z.eta
    rw [A.eta h, A'.eta h, B.eta h]
    by_cases hp : f.etaS = true
    · rw [if_pos hp, if_pos hp, if_pos hp]; exact L.eta a _ _
    · rw [if_neg hp, if_neg hp, if_neg hp]; rfl
  · show t.z.quat = s.z.quat + a • s'.z.quat
    rw [A.quat h, A'.quat h, B.quat h]
    by_cases hp : f.quatS = true
    · rw [if_pos hp, if_pos hp, if_pos hp, hq]; exact L.quat a _ _
    · rw [if_neg hp, if_neg hp, if_neg hp]; rfl
  · show t.z.temp = s.z.temp + a • s'.z.temp
    rw [A.temp h, A'.temp h, B.temp h]
    by_cases hp : f.tempS = true
    · rw [if_pos hp, if_pos hp, if_pos hp, hT hp]; exact L.temp a _ _
    · rw [if_neg hp, if_neg hp, if_neg hp]; rfl
  · show t.z.conc = s.z.conc + a • s'.z.conc
    rw [A.conc h, A'.conc h, B.conc h]
    by_cases hp : f.concS = true
    · rw [if_pos hp, if_pos hp, if_pos hp]; exact L.conc a _ _
    · rw [if_neg hp, if_neg hp, if_neg hp]; rfl

/-- **C109.**  Any other request (`lr` not 1 or 2) is the identity on the components the vectors have. -/
theorem c109_identity (e : Eqs) (isDelta gradq : Bool) (o : Ops P E Q T C) (f : Setup) (gamma delta : ℝ) (lr : ℤ)
    (r z : Vec P E Q T C) (w : Work P T) (hu : f.use = true) (hlr : ¬(lr = 1 ∨ lr = 2)) :
    ∃ s, precondSolve e isDelta gradq o f gamma delta lr r z w = some s ∧ Same e s.z r ∧ s.ret = 0 := by
  unfold precondSolve
  rw [if_neg (by simp [hu]), if_neg hlr]
  exact ⟨_, rfl, ⟨fun h _ _ => congrFun (if_pos h) _, fun h => if_pos h, fun h => if_pos h, fun h => if_pos h,
    fun h => if_pos h⟩, rfl⟩

/-- **C109.**  In every configuration the return code is 0 or 1: CVODE may retry with a smaller step, it is never told to give up. -/
theorem c109_recoverable (e : Eqs) (isDelta gradq : Bool) (o : Ops P E Q T C) (f : Setup) (gamma delta : ℝ) (lr : ℤ)
    (r z : Vec P E Q T C) (w : Work P T) (s : St P E Q T C)
    (h : precondSolve e isDelta gradq o f gamma delta lr r z w = some s) : s.ret = 0 ∨ s.ret = 1 := by
  have gT : ∀ a b : St P E Q T C, applyTemp e o f gamma delta r a = some b → b.ret = 0 ∨ b.ret = 1 := by
    intro a b hb
    unfold applyTemp at hb
    split_ifs at hb <;> (obtain rfl := Option.some.inj hb; exact join01 _ _)
  have gP : ∀ a b : St P E Q T C, applyPhase e isDelta o f gamma delta r a = some b → b.ret = 0 ∨ b.ret = 1 := by
    intro a b hb
    unfold applyPhase at hb
    split_ifs at hb <;> (obtain rfl := Option.some.inj hb; exact join01 _ _)
  have gE : ∀ a : St P E Q T C, (a.ret = 0 ∨ a.ret = 1) →
      (if e.third then applyEta o f delta r a else a).ret = 0 ∨ (if e.third then applyEta o f delta r a else a).ret = 1 := by
    intro a ha
    unfold applyEta
    split_ifs
    · exact join01 _ _
    · exact ha
    · exact ha
  have gQ : ∀ a b : St P E Q T C, (a.ret = 0 ∨ a.ret = 1) → applyQuat gradq o f gamma delta r a = some b →
      b.ret = 0 ∨ b.ret = 1 := by
    intro a b ha hb
    unfold applyQuat at hb
    split_ifs at hb
    all_goals obtain rfl := Option.some.inj hb
    all_goals first | exact ha | exact join01 _ _
  unfold precondSolve at h
  by_cases hu : f.use = false
  · rw [if_pos hu] at h; exact absurd h (by simp)
  rw [if_neg hu] at h
  by_cases hlr : lr = 1 ∨ lr = 2
  · rw [if_pos hlr] at h
    obtain ⟨s3, h3, h4⟩ := Option.bind_eq_some_iff.1 h
    obtain ⟨s2, h2, h3⟩ := Option.bind_eq_some_iff.1 h3
    obtain ⟨s1, h1, h2⟩ := Option.bind_eq_some_iff.1 h2
    have b1 : s1.ret = 0 ∨ s1.ret = 1 := by
      split_ifs at h1
      · exact gT _ _ h1
      · obtain rfl := Option.some.inj h1; exact Or.inl rfl
    have b2 : s2.ret = 0 ∨ s2.ret = 1 := by
      by_cases hp : e.phase = true
      · rw [if_pos hp] at h2; exact gP _ _ h2
      · rw [if_neg hp] at h2; obtain rfl := Option.some.inj h2; exact b1
    have b3 : s3.ret = 0 ∨ s3.ret = 1 := by
      by_cases hq : e.quat = true
      · rw [if_pos hq] at h3; exact gQ _ _ (gE _ b2) h3
      · rw [if_neg hq] at h3; obtain rfl := Option.some.inj h3; exact gE _ b2
    obtain ⟨s4, h4, h5⟩ := Option.map_eq_some_iff.1 h4
    have b4 : s4.ret = 0 ∨ s4.ret = 1 := by
      by_cases ht : e.unsteadyT = true ∧ ¬f.dPhidT = true
      · rw [if_pos ht] at h4; exact gT _ _ h4
      · rw [if_neg ht] at h4; obtain rfl := Option.some.inj h4; exact b3
    rw [← h5]
    by_cases hc : e.conc = true
    · rw [if_pos hc]
      unfold applyConc
      split_ifs
      · exact join01 _ _
      · exact join01 _ _
    · rw [if_neg hc]; exact b4
  · rw [if_neg hlr] at h
    obtain rfl := Option.some.inj h
    exact Or.inl rfl

/-! ## Configuration -/

/-- **C109.**  A block has a solver only if its equation is solved and the preconditioner is in use; `enabled = FALSE` removes them
all; without the `Preconditioner` block every equation solved has one (temperature: unless it is steady). -/
theorem c109_setup (e : Eqs) (b : Option Block) :
    ((setup e b).phaseS = true → e.phase = true ∧ (setup e b).use = true) ∧
    ((setup e b).etaS = true → e.third = true ∧ (setup e b).use = true) ∧
    ((setup e b).concS = true → e.conc = true ∧ (setup e b).use = true) ∧
    ((setup e b).tempS = true → e.unsteadyT = true ∧ (setup e b).use = true) ∧
    ((setup e b).dquatdphi = true → e.phase = true) ∧
    (∀ c, b = some c → c.enabled = some false → (setup e b).use = false) ∧
    (b = none → (setup e b).phaseS = e.phase ∧ (setup e b).etaS = e.third ∧ (setup e b).concS = e.conc ∧
      (setup e b).quatS = true ∧ (setup e b).tempS = (e.unsteadyT && !e.steadyT)) := by
  cases b with
  | none =>
    simp only [setup]
    cases e.phase <;> cases e.third <;> cases e.conc <;> cases e.unsteadyT <;> cases e.steadyT <;> simp
  | some c =>
    by_cases h : c.enabled.getD true = true
    · simp only [setup, if_pos h]
      refine ⟨fun k => ?_, fun k => ?_, fun k => ?_, fun k => ?_, fun k => ?_, fun c' hc hk => ?_, fun k => nomatch k⟩
      · exact ⟨(Bool.and_eq_true_iff.1 k).1, trivial⟩
      · exact ⟨(Bool.and_eq_true_iff.1 k).1, trivial⟩
      · exact ⟨(Bool.and_eq_true_iff.1 k).1, trivial⟩
      · exact ⟨(Bool.and_eq_true_iff.1 k).1, trivial⟩
      · exact (Bool.and_eq_true_iff.1 k).1
      · obtain rfl : c = c' := Option.some.inj hc
        rw [hk] at h; exact absurd h (by decide)
    · simp only [setup, if_neg h]
      simp

/-- **C109.**  The set-up is sound for the application in every configuration that leaves `precond_has_dPhidT` off, asks for
`precond_has_dTdphi` only with a phase equation and does not combine quaternion fluxes from cell gradients with the coupling `dq/dphi`. -/
theorem c109_setup_sound (e : Eqs) (b : Option Block) (gradq : Bool) (hn : 1 ≤ e.norderp) (hu : (setup e b).use = true)
    (hPT : ∀ c, b = some c → c.dPhidT ≠ some true) (hTp : ∀ c, b = some c → c.dTdphi = some true → e.phase = true)
    (hg : (setup e b).dquatdphi = true → gradq = false) : Sound e gradq (setup e b) := by
  refine ⟨hu, hn, ?_, fun _ _ h => hg h, (c109_setup e b).2.2.2.2.1, fun _ h => ?_⟩
  · cases b with
    | none => rfl
    | some c =>
      by_cases h : c.enabled.getD true = true
      · simp only [setup, if_pos h]
        have := hPT c rfl
        cases hc : c.dPhidT with
        | none => rfl
        | some v => cases v with
          | false => rfl
          | true => exact absurd hc this
      · simp only [setup, if_neg h]
  · cases b with
    | none => exact absurd h (by simp [setup])
    | some c =>
      by_cases hc : c.enabled.getD true = true
      · simp only [setup, if_pos hc] at h
        refine hTp c rfl ?_
        cases hd : c.dTdphi with
        | none => rw [hd] at h; exact absurd h (by decide)
        | some v => rw [hd] at h; rw [show v = true from h]
      · simp only [setup, if_neg hc] at h
        exact absurd h (by decide)

/-- **C109 (violation).**  An empty `Preconditioner { }` block is not the same as no block: the coupling `dq/dphi` is on by default
without the block and follows the composition model with it.  They differ exactly when there is a phase equation and the
composition equation is not of the KKS type; everything else agrees. -/
theorem c109_violation_empty (e : Eqs) :
    ((setup e none).dquatdphi = (setup e (some {})).dquatdphi ↔ ¬(e.phase = true ∧ e.kks = false)) ∧
    (setup e (some {})) = { setup e none with dquatdphi := e.phase && e.kks } := by
  cases hp : e.phase <;> cases hk : e.kks <;> cases hs : e.steadyT <;> simp [setup, hp, hk, hs]

/-! ## Violations -/

/-- The configurations with `precond_has_dPhidT` that pass the assertions: one order parameter, heat equation, both solvers. -/
structure WithPT (e : Eqs) (f : Setup) : Prop where
  use : f.use = true
  phase : e.phase = true
  unsteady : e.unsteadyT = true
  third : e.third = false
  quat : e.quat = false
  conc : e.conc = false
  order : e.norderp = 1
  phaseS : f.phaseS = true
  tempS : f.tempS = true
  dPhidT : f.dPhidT = true

/-- What the application computes with `precond_has_dPhidT`: the right-hand side of the phase block is built from what `z` holds at
entry, the temperature block comes first and reads the phase work array of the previous application. -/
theorem withPT_value (e : Eqs) (gradq : Bool) (o : Ops P E Q T C) (f : Setup) (gamma delta : ℝ) (lr : ℤ)
    (r z : Vec P E Q T C) (w : Work P T) (hf : WithPT e f) (hlr : lr = 1 ∨ lr = 2) :
    ∃ s, precondSolve e true gradq o f gamma delta lr r z w = some s ∧
      s.z.phase 0 = (o.phase delta 0 ((-1 * gamma) • o.dPhidT (z.phase 0) + r.phase 0)).1 ∧
      s.z.temp = (o.temp delta 0 (if f.dTdphi then gamma • o.dTdPhi w.phaseSol + r.temp else r.temp)).1 ∧
      s.w.phaseSol = s.z.phase 0 := by
  unfold precondSolve
  rw [if_neg (by simp [hf.use]), if_pos hlr, if_pos ⟨hf.unsteady, hf.dPhidT⟩]
  obtain ⟨s1, k1, d1, d2, d3, d4, d5, d6, d7⟩ := temp_stage e o f gamma delta r ⟨z, w, 0⟩ (fun _ _ => hf.phase)
  rw [k1, Option.bind_some, if_pos hf.phase]
  unfold applyPhase
  rw [if_pos hf.phaseS, if_neg (fun h => h.2 ⟨hf.order, rfl, hf.unsteady⟩)]
  obtain ⟨h1, h2, h3, h4, h5, h6, h7, h8, h9, h10⟩ := phaseLoop_spec o delta (phaseRhs o f gamma r s1.z) s1 e.norderp
  simp only [hf.third, hf.quat, hf.conc, hf.dPhidT, Option.bind_some, Option.map_some, Bool.false_eq_true, if_false, not_true,
    and_false]
  rw [if_pos hf.tempS] at d6
  have e1 : phaseRhs o f gamma r s1.z 0 = (-1 * gamma) • o.dPhidT (z.phase 0) + r.phase 0 := by
    unfold phaseRhs; rw [if_pos hf.dPhidT, d1]
  refine ⟨_, rfl, ?_, ?_, ?_⟩
  · exact (h1 0).trans (by rw [if_pos (by have := hf.order; omega), e1])
  · exact h4.trans d6
  · refine h7.trans ?_
    rw [if_neg (by have := hf.order; omega)]
    refine Eq.trans ?_ (h1 0).symm
    rw [if_pos (by have := hf.order; omega), show e.norderp - 1 = 0 from by have := hf.order; omega]

/-- **C109 (violation).**  With `precond_has_dPhidT` the phase component of `z` depends on what the output vector held before the
call, and on nothing of the temperature residual: with an exact phase solve two applications to the same `r` agree there exactly
when the block gives the same value on both previous contents (`gamma` not 0), and changing `r.temp` changes nothing. -/
theorem c109_violation_content (e : Eqs) (gradq : Bool) (o : Ops P E Q T C) (f : Setup) (gamma delta : ℝ) (lr : ℤ)
    (r z z' : Vec P E Q T C) (w : Work P T) (t : T) (hf : WithPT e f) (hlr : lr = 1 ∨ lr = 2) (hg : gamma ≠ 0)
    (Ap : P → P) (X : ∀ x, Ap (o.phase delta 0 x).1 = x) :
    ∃ s s' s'', precondSolve e true gradq o f gamma delta lr r z w = some s ∧
      precondSolve e true gradq o f gamma delta lr r z' w = some s' ∧
      precondSolve e true gradq o f gamma delta lr { r with temp := t } z w = some s'' ∧
      (s.z.phase 0 = s'.z.phase 0 ↔ o.dPhidT (z.phase 0) = o.dPhidT (z'.phase 0)) ∧ s''.z.phase 0 = s.z.phase 0 := by
  obtain ⟨s, hs, p, -, -⟩ := withPT_value e gradq o f gamma delta lr r z w hf hlr
  obtain ⟨s', hs', p', -, -⟩ := withPT_value e gradq o f gamma delta lr r z' w hf hlr
  obtain ⟨s'', hs'', p'', -, -⟩ := withPT_value e gradq o f gamma delta lr { r with temp := t } z w hf hlr
  refine ⟨s, s', s'', hs, hs', hs'', ?_, by rw [p, p'']⟩
  rw [p, p']
  constructor
  · intro h
    have := congrArg Ap h
    rw [X, X] at this
    have h2 := add_right_cancel this
    have hne : (-1 * gamma) ≠ 0 := by intro h0; apply hg; linarith
    have h3 := congrArg (fun v => (-1 * gamma)⁻¹ • v) h2
    simpa only [smul_smul, inv_mul_cancel₀ hne, one_smul] using h3
  · intro h; rw [h]

/-- **C109 (violation).**  With both `precond_has_dPhidT` and `precond_has_dTdphi` the temperature block uses the phase correction
of the *previous* application: applied twice in a row to the residuals `r1` then `r2`, the second temperature component is the solve
with `gamma * dT/dphi` of the first phase correction, so (exact solve, `gamma` not 0) it is the one the lower triangular system asks
for exactly when the coupling cannot tell the two corrections apart. -/
theorem c109_violation_stale (e : Eqs) (gradq : Bool) (o : Ops P E Q T C) (f : Setup) (gamma delta : ℝ) (lr : ℤ)
    (r1 r2 z1 z2 : Vec P E Q T C) (w : Work P T) (hf : WithPT e f) (hT : f.dTdphi = true) (hlr : lr = 1 ∨ lr = 2)
    (hg : gamma ≠ 0) (At : T → T) (X : ∀ x, At (o.temp delta 0 x).1 = x) :
    ∃ s1 s2, precondSolve e true gradq o f gamma delta lr r1 z1 w = some s1 ∧
      precondSolve e true gradq o f gamma delta lr r2 z2 s1.w = some s2 ∧
      (At s2.z.temp - gamma • o.dTdPhi (s2.z.phase 0) = r2.temp ↔ o.dTdPhi (s1.z.phase 0) = o.dTdPhi (s2.z.phase 0)) := by
  obtain ⟨s1, hs1, p1, t1, q1⟩ := withPT_value e gradq o f gamma delta lr r1 z1 w hf hlr
  obtain ⟨s2, hs2, p2, t2, q2⟩ := withPT_value e gradq o f gamma delta lr r2 z2 s1.w hf hlr
  refine ⟨s1, s2, hs1, hs2, ?_⟩
  rw [if_pos hT] at t2
  rw [t2, X, q1]
  constructor
  · intro h
    have h2 : gamma • o.dTdPhi (s1.z.phase 0) - gamma • o.dTdPhi (s2.z.phase 0) = 0 := by
      have h3 : gamma • o.dTdPhi (s1.z.phase 0) + r2.temp - gamma • o.dTdPhi (s2.z.phase 0) - r2.temp = 0 := by
        rw [h, sub_self]
      rw [← h3]; abel
    have h4 := congrArg (fun v => gamma⁻¹ • v) (sub_eq_zero.1 h2)
    simpa only [smul_smul, inv_mul_cancel₀ hg, one_smul] using h4
  · intro h; rw [h, add_sub_cancel_left]

/-- **C109 (violation).**  With several order parameters the couplings `dq/dphi` and `dT/dphi` only see the last one: residuals that
agree there and in the component itself give the same quaternion and temperature corrections. -/
theorem c109_violation_last (e : Eqs) (isDelta gradq : Bool) (o : Ops P E Q T C) (f : Setup) (gamma delta : ℝ) (lr : ℤ)
    (r r' z : Vec P E Q T C) (w : Work P T) (hf : Sound e gradq f) (hp : e.phase = true) (hs : f.phaseS = true)
    (hlr : lr = 1 ∨ lr = 2) (hlast : r.phase (e.norderp - 1) = r'.phase (e.norderp - 1)) (hq : r.quat = r'.quat)
    (ht : r.temp = r'.temp) :
    ∃ s s', precondSolve e isDelta gradq o f gamma delta lr r z w = some s ∧
      precondSolve e isDelta gradq o f gamma delta lr r' z w = some s' ∧
      s.z.quat = s'.z.quat ∧ s.z.temp = s'.z.temp := by
  obtain ⟨s, k, A⟩ := c109_applied e isDelta gradq o f gamma delta lr r z w hf hlr
  obtain ⟨s', k', A'⟩ := c109_applied e isDelta gradq o f gamma delta lr r' z w hf hlr
  have hn := hf.order
  have hseen : seen e f s.z = seen e f s'.z := by
    unfold seen
    rw [if_pos hs, if_pos hs, A.phase hp _ (by omega), A'.phase hp _ (by omega), if_pos hs, if_pos hs, hlast]
  have h1 : quatRhs e o f gamma r s.z = quatRhs e o f gamma r' s'.z := by unfold quatRhs; rw [hseen, hq]
  have h2 : tempRhs e o f gamma r s.z = tempRhs e o f gamma r' s'.z := by unfold tempRhs; rw [hseen, ht]
  refine ⟨s, s', k, k', ?_, ?_⟩
  · by_cases h : e.quat = true
    · rw [A.quat h, A'.quat h, h1, hq]
    · rw [A.noquat h, A'.noquat h]
  · by_cases h : e.unsteadyT = true
    · rw [A.temp h, A'.temp h, h2, ht]
    · rw [A.notemp h, A'.notemp h]

/-! ## Concrete cases -/

/-- An alloy with orientation and heat equation. -/
def exEqs : Eqs :=
  { phase := true, third := false, quat := true, conc := true, steadyT := false, unsteadyT := true, kks := true, norderp := 1 }

/-- Scalar blocks. -/
noncomputable def exOps : Ops ℝ ℝ ℝ ℝ ℝ :=
  { phase := fun _ _ x => (x / 2, true), eta := fun _ _ x => (x, true), quat := fun _ _ x => (x / 4, true),
    temp := fun _ _ x => (x / 2, true), conc := fun _ _ x => (x, false), dQuatdPhi := fun x => 3 * x, dTdPhi := fun x => x,
    dPhidT := fun x => x }

example : Sound exEqs false (setup exEqs (some { dTdphi := some true })) :=
  c109_setup_sound _ _ _ (by decide) (by decide) (by simp) (by simp [exEqs]) (by simp)

example : WithPT { exEqs with quat := false, conc := false }
    (setup { exEqs with quat := false, conc := false } (some { dTdphi := some true, dPhidT := some true })) :=
  ⟨by decide, by decide, by decide, by decide, by decide, by decide, by decide, by decide, by decide, by decide⟩

example : LinOps exOps 1 := by
  constructor <;> intro a x y <;> simp only [exOps, smul_eq_mul] <;> ring

example : Exact exOps 1 (fun x => 2 * x) (fun x => x) (fun x => 4 * x) (fun x => 2 * x) (fun x => x) := by
  constructor <;> intro x <;> simp only [exOps] <;> ring

end AMPE.PrecondCall.Props
