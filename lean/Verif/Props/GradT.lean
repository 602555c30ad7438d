import Verif.Model.GradT
import Verif.Props.Coefficients
import Mathlib.Tactic.LinearCombination

/-! # C90: every flux term requested in the input is part of the flux

The first part concerns which terms reach the flux, the second one the coefficient of the thermal term: it must not depend
on which of the two species is called the first one. -/

namespace AMPE.GradT.Props

open AMPE.Selection AMPE.Coefficients AMPE.Coefficients.Props AMPE.Functions AMPE.Flux AMPE.GradT

/-- **C90** A flux that is computed at all contains exactly the requested terms. -/
theorem c90_complete (c : Cls) (g a : Bool) (l : List Term) (h : evaluateTerms c g a = some l) :
    (.thermal ∈ l ↔ g = true) ∧ (.antitrapping ∈ l ↔ a = true) := by
  cases c <;> cases g <;> cases a <;> simp [evaluateTerms, addTerm, overrides] at h <;> subst h <;> simp

/-- **C90** Without optional terms every class computes its flux. -/
theorem c90_plain (c : Cls) : evaluateTerms c false false = some [] := by cases c <;> rfl

/-- **C90** (partial) The anti-trapping term alone can be requested exactly with the `ebs` form. -/
theorem c90_antitrapping_partial (m : ConcModel) (r : Rhs) (c : Cls) (h : build m r = some c) :
    evaluateTerms c false true = some [.antitrapping] ↔ r = .ebs := by
  cases r <;> simp [build] at h <;> try subst h
  all_goals first | simp [evaluateTerms, addTerm, overrides] | skip
  all_goals (obtain ⟨-, rfl⟩ := h; simp)

/-- **C90 is violated** by every other form of the equations: the run stops at the first evaluation. -/
theorem c90_violation_antitrapping (m : ConcModel) (r : Rhs) (c : Cls) (h : build m r = some c) (hr : r ≠ .ebs) (g : Bool) :
    evaluateTerms c g true = none := by
  cases r <;> simp [build] at h <;> try subst h
  all_goals first | exact absurd rfl hr | skip
  all_goals try obtain ⟨-, rfl⟩ := h
  all_goals cases g <;> rfl

/-- **C90 is violated** by thermal diffusion: whatever the model and the form of the equations, an input giving heats of
transport stops at the first evaluation, because the class that has the term is never built. -/
theorem c90_violation_thermal (k : Keys) (q : ℝ × ℝ) (a : Bool) (hk : readTerms k = some (some q, a))
    (m : ConcModel) (r : Rhs) (c : Cls) (h : build m r = some c) :
    k.q0.isSome ∧ evaluateTerms c (some q).isSome a = none := by
  refine ⟨?_, ?_⟩
  · unfold readTerms at hk
    cases hq : k.q0
    · simp [hq] at hk
    · rfl
  · cases r <;> simp [build] at h <;> try subst h
    all_goals try obtain ⟨-, rfl⟩ := h
    all_goals rfl

/-- Giving the second heat of transport only is accepted and has no effect. -/
theorem c90_violation_second_key (q1 : ℝ) (a : Option Bool) :
    readTerms ⟨none, some q1, a⟩ = readTerms ⟨none, none, a⟩ := rfl

/-- **C90 is violated** by the class itself: setting its coefficients never returns, whatever the available stack. -/
theorem c90_violation_recursion (n : ℕ) : returns n .setDiffusionCoeff = false := by
  induction n with
  | zero => rfl
  | succ n ih => simp [returns, calls, ih]

/-! ## The coefficient -/

/-- **C90** No thermal flux without a temperature difference. -/
theorem c90_uniform (dx : ℝ) (temp mq sideT flux : Field2) (i0 i1 : ℤ) (h : temp i0 i1 = temp (i0 - 1) i1) :
    addGradTX dx temp mq sideT flux i0 i1 = flux i0 i1 := by
  simp [addGradTX, h]

/-- **C90** A pure phase has no thermal diffusion. -/
theorem c90_pure (M : ℝ → ℝ) (q0 q1 : ℝ) : phaseMq M q0 q1 0 = 0 ∧ phaseMq M q0 q1 1 = 0 := by
  simp [phaseMq]

/-- **C90** The coefficient of a face interpolates between those of the two phases. -/
theorem c90_mixture (ML MA : ℝ → ℝ) (q0 q1 phi cl ca : ℝ) (h0 : 0 ≤ phi) (h1 : phi ≤ 1) :
    faceMq ML MA q0 q1 phi cl ca = some ((1 - phi) * phaseMq ML q0 q1 cl + phi * phaseMq MA q0 q1 ca) := by
  simp [faceMq, interpFunc, clamp, pos, h0, h1]

/-- **C90** The class with the thermal term adds both terms when both are asked for. -/
theorem c90_both : evaluateTerms .ebsGradT true true = some [.thermal, .antitrapping] := rfl

/-- The same mobility parameters with the two species exchanged. -/
noncomputable def rename (p : MobParams) : MobParams :=
  ⟨fun i => p.q (1 - i), p.hasExtra, fun i => p.qExtra (1 - i), p.qq0,
    fun i j => (-(p.qq1 i j).1, (p.qq1 i j).2⁻¹), p.qq2, fun i j => (-(p.qq3 i j).1, (p.qq3 i j).2⁻¹)⟩

theorem deltaG2_rename (R : ℝ) (p : MobParams) (c0 c1 T : ℝ) : deltaG2 R (rename p) c1 c0 T = deltaG2 R p c0 c1 T := by
  simp only [deltaG2, getQ, getQQ, rename, Real.log_inv]
  norm_num
  ring

/-- **C90** The interdiffusion mobility does not depend on which species is the first. -/
theorem c90_mobility (R : ℝ) (p0 p1 : MobParams) (c T : ℝ) :
    mobilityBinary R (rename p1) (rename p0) (1 - c) T = mobilityBinary R p0 p1 c T := by
  have e : 1 - (1 - c) = c := by ring
  simp only [mobilityBinary, e, deltaG2_rename]
  ring

/-- Exchanging the species reverses the thermal flux. -/
def Reverses (R : ℝ) (p0 p1 : MobParams) (q0 q1 T c : ℝ) : Prop :=
  phaseMq (fun x => mobilityBinary R (rename p1) (rename p0) x T) q1 q0 (1 - c)
    = -phaseMq (fun x => mobilityBinary R p0 p1 x T) q0 q1 c

/-- **C90 is violated** by the coefficient: inside the composition range, exchanging the species reverses it exactly when the heats of transport
are opposite or the mobility happens to be the same at `c` and `1 - c`. -/
theorem c90_violation_rename_iff (R : ℝ) (p0 p1 : MobParams) (q0 q1 T c : ℝ) (h0 : 0 < c) (h1 : c < 1) :
    Reverses R p0 p1 q0 q1 T c ↔ q0 + q1 = 0 ∨ mobilityBinary R p0 p1 c T = mobilityBinary R p0 p1 (1 - c) T := by
  have e : 1 - (1 - c) = c := by ring
  have a := c90_mobility R p0 p1 c T
  have b := c90_mobility R p0 p1 (1 - c) T
  rw [e] at b
  simp only [Reverses, phaseMq, e, a, b]
  have hc : c * (1 - c) ≠ 0 := (mul_pos h0 (by linarith)).ne'
  generalize mobilityBinary R p0 p1 c T = M
  generalize mobilityBinary R p0 p1 (1 - c) T = N
  constructor
  · intro h
    have : c * (1 - c) * ((q0 + q1) * (M - N)) = 0 := by linear_combination h
    rcases mul_eq_zero.1 ((mul_eq_zero.1 this).resolve_left hc) with h | h
    · exact Or.inl h
    · exact Or.inr (sub_eq_zero.1 h)
  · rintro (h | h)
    · have : q1 = -q0 := by linarith
      subst this; ring
    · rw [h]; ring

/-- Thermal diffusion with the mobility of each species: the species with heat of transport `q` moves with velocity `M q`
relative to the lattice, counted relative to the mean. -/
noncomputable def wantedMq (m0 m1 q0 q1 c : ℝ) : ℝ := c * (1 - c) * (m0 * q0 - m1 * q1)

/-- The wanted coefficient does not depend on which species is the first. -/
theorem wanted_rename (m0 m1 q0 q1 c : ℝ) : wantedMq m1 m0 q1 q0 (1 - c) = -wantedMq m0 m1 q0 q1 c := by
  simp only [wantedMq]; ring

/-- **C90** (partial) The coefficient has the sign of `q0 - q1`, hence vanishes when both species have the same heat of transport,
at the middle composition. -/
theorem c90_middle_partial (R : ℝ) (p0 p1 : MobParams) (q0 q1 T : ℝ) :
    phaseMq (fun x => mobilityBinary R p0 p1 x T) q0 q1 (1 / 2)
      = 1 / 4 * mobilityBinary R p0 p1 (1 / 2) T * (q0 - q1) := by
  have e : (1 : ℝ) - 1 / 2 = 1 / 2 := by norm_num
  simp only [phaseMq, e]; ring

/-- **C90 is violated** in magnitude: with two species of the same constant mobility `m` the coefficient is the wanted one
times `c (1 - c)` (and the unit conversion), so it vanishes to second order in the dilute limit instead of to first order. -/
theorem c90_violation_factor (R : ℝ) (p : MobParams) (q0 q1 T c : ℝ)
    (hp : ∀ x, deltaG2 R p x (1 - x) T = deltaG2 R p c (1 - c) T) :
    let m := atomicMobility R (deltaG2 R p c (1 - c) T) T
    phaseMq (fun x => mobilityBinary R p p x T) q0 q1 c = c * (1 - c) * m2toum2 * wantedMq m m q0 q1 c := by
  intro m
  simp only [phaseMq, mobilityBinary, wantedMq, hp, m]
  ring

/-- Constant parameters meet the hypothesis of `c90_violation_factor`. -/
example : ∀ x : ℝ, deltaG2 1 ⟨fun _ => (5, 1), false, fun _ => (0, 0), fun _ _ => (0, 1), fun _ _ => (0, 1), fun _ _ => (0, 1),
    fun _ _ => (0, 1)⟩ x (1 - x) 1 = 5 := by
  intro x
  simp [deltaG2, getQ, getQQ]
  ring

/-- A species that is more mobile when it is rare: the coefficient does depend on the naming, for every composition but one half. -/
example (c : ℝ) (h0 : 0 < c) (h1 : c < 1) (hc : c ≠ 1 / 2) :
    ¬ Reverses 1 ⟨fun _ => (Real.log 2, 1), false, fun _ => (0, 0), fun _ _ => (0, 1), fun _ _ => (0, 1), fun _ _ => (0, 1), fun _ _ => (0, 1)⟩
      ⟨fun _ => (0, 1), false, fun _ => (0, 0), fun _ _ => (0, 1), fun _ _ => (0, 1), fun _ _ => (0, 1), fun _ _ => (0, 1)⟩ 1 0 1 c := by
  rw [c90_violation_rename_iff _ _ _ _ _ _ _ h0 h1]
  have e1 : ∀ g x : ℝ, deltaG2 1 ⟨fun _ => (g, 1), false, fun _ => (0, 0), fun _ _ => (0, 1), fun _ _ => (0, 1), fun _ _ => (0, 1),
    fun _ _ => (0, 1)⟩ x (1 - x) 1 = g := by
    intro g x
    simp [deltaG2, getQ, getQQ]
    ring
  simp only [mobilityBinary, e1, atomicMobility]
  rw [not_or]
  refine ⟨by norm_num, fun h => hc ?_⟩
  have hp : c * (1 - c) ≠ 0 := (mul_pos h0 (by linarith)).ne'
  have e2 : Real.exp (Real.log 2 * (1 / (1 * 1))) = 2 := by rw [mul_one, div_one, mul_one, Real.exp_log (by norm_num)]
  rw [e2, m2toum2] at h
  simp only [mul_one, div_one, zero_mul, Real.exp_zero] at h
  have : c * (1 - c) * (2 * c - 1) * 1e12 = 0 := by linear_combination -h
  have h3 := (mul_eq_zero.1 ((mul_eq_zero.1 this).resolve_right (by norm_num))).resolve_left hp
  linarith

end AMPE.GradT.Props
