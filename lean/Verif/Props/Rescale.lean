import Verif.Model.Rescale
import Mathlib.Analysis.Calculus.Deriv.Basic
import Mathlib.Analysis.Calculus.Deriv.Mul
import Mathlib.Analysis.SpecialFunctions.Trigonometric.Arctan
import Mathlib.Tactic.Linarith
import Mathlib.Tactic.Ring
import Mathlib.Tactic.NormNum
import Mathlib.Tactic.FieldSimp
import Mathlib.Tactic.Positivity

/-! # C106: the unit of temperature must not be seen

Specification: a temperature of `T` kelvin is stored as `T / f`.  Every quantity that is not a temperature computed from the stored field with
the parameters of the run must be what the parameters in kelvin give at `T`; a rate of change of temperature must be that rate divided
by `f`; a boundary condition `a T + b ∂T = g` must hold for the temperature in kelvin. -/

namespace AMPE.Rescale.Props

open AMPE.Flux AMPE.Rescale

/-- The stored field. -/
noncomputable def reduce (f : ℝ) (T : Field2) : Field2 := fun i j => T i j / f

/-- Rescaling happens exactly with the time-dependent heat equation and a positive melting temperature, and then the melting
temperature is the unit. -/
theorem c106_unit (i : Input) (f : ℝ) : factor i = some f ↔ i.heat = true ∧ i.steady = false ∧ 0 < i.meltingT ∧ f = i.meltingT := by
  unfold factor
  by_cases h : i.heat = true ∧ i.steady = false ∧ 0 < i.meltingT
  · rw [if_pos h]
    constructor
    · intro e
      exact ⟨h.1, h.2.1, h.2.2, (Option.some.inj e).symm⟩
    · rintro ⟨_, _, _, e⟩
      rw [e]
  · rw [if_neg h]
    constructor
    · intro e
      exact absurd e (by simp)
    · rintro ⟨a, b, c, _⟩
      exact absurd ⟨a, b, c⟩ h

/-- The unit is positive. -/
theorem factor_pos {i : Input} {f : ℝ} (h : factor i = some f) : 0 < f := by
  obtain ⟨_, _, h3, h4⟩ := (c106_unit i f).1 h
  rw [h4]; exact h3

/-- **C106, melting, undercooling force.** The driving force computed from the stored field is the one in kelvin. -/
theorem c106_melt_force (i : Input) {f : ℝ} (hf : f ≠ 0) (interp : Char) (T : Field2) (phi : ℝ) (x y : ℤ) :
    meltForce (read (some f) i) interp (reduce f T) phi x y = meltForce (read none i) interp T phi x y := by
  unfold meltForce PhaseRHS.deltaTemperature reduce read
  cases Functions.derivInterpFunc interp phi with
  | none => rfl
  | some hp =>
    show some _ = some _
    congr 1
    by_cases hm : i.meltingT = 0
    · simp [hm]
    · field_simp

/-- Same for the difference of the free energies of source/TemperatureFreeEnergyStrategy.cc. -/
theorem c106_melt_difference (i : Input) {f : ℝ} (hf : f ≠ 0) (T : ℝ) :
    meltDifference (read (some f) i) (T / f) = meltDifference (read none i) T := by
  unfold meltDifference read
  by_cases hm : i.meltingT = 0
  · simp [hm]
  · dsimp only
    field_simp

/-- **C106**: the difference is positive, i.e. the solid is favoured, exactly below the melting temperature, and zero at it. -/
theorem c106_melt_sign (i : Input) {f : ℝ} (hf : f ≠ 0) (hm : 0 < i.meltingT) (hv : 0 < i.vm) (hl : 0 < i.latent) (T : ℝ) :
    (0 < meltDifference (read (some f) i) (T / f) ↔ T < i.meltingT) ∧ (meltDifference (read (some f) i) (T / f) = 0 ↔ T = i.meltingT) := by
  rw [c106_melt_difference i hf]
  have e : meltDifference (read none i) T = i.latent * (1e-6 / i.vm) / i.meltingT * (i.meltingT - T) := by
    unfold meltDifference read
    dsimp only
    ring
  have hk : 0 < i.latent * (1e-6 / i.vm) / i.meltingT := by positivity
  rw [e]
  constructor
  · rw [mul_pos_iff_of_pos_left hk, sub_pos]
  · rw [mul_eq_zero, or_iff_right hk.ne', sub_eq_zero, eq_comm]

/-- The linear alloy's melting temperature is the one in kelvin over `f`. -/
theorem equilibriumT_reduced (i : Input) {f : ℝ} (hf : f ≠ 0) (c : ℝ) :
    equilibriumT (read (some f) i) c = equilibriumT (read none i) c / f := by
  unfold equilibriumT read
  cases i.linear
  · simp
  · simp only [if_true]
    field_simp

/-- **C106, wells.** With the linear model and a non-negative `gamma` the force is the one in kelvin. -/
theorem c106_well_partial (i : Input) {f : ℝ} (hf : f ≠ 0) (hl : i.linear = true) (hg : 0 ≤ i.gamma) (c T phi : ℝ) :
    wellForce (read (some f) i) c (T / f) phi = wellForce (read none i) c T phi := by
  have hb : ∀ o, (read o i).beckermann = false := by
    intro o
    show (i.linear && decide (i.gamma < 0)) = false
    rw [decide_eq_false (not_lt.2 hg)]
    simp
  unfold wellForce
  rw [hb, hb, equilibriumT_reduced i hf]
  have e1 : (read (some f) i).gamma = i.gamma * f := by
    show (if i.linear then i.gamma * f else i.gamma) = _
    rw [if_pos hl]
  have e2 : (read none i).gamma = i.gamma := rfl
  have e3 : (read (some f) i).alpha = (read none i).alpha := rfl
  rw [e1, e2, e3]
  simp only [Bool.false_eq_true, if_false]
  unfold PhaseRHS.biasWell
  rw [show i.gamma * f * (equilibriumT (read none i) c / f - T / f) = i.gamma * (equilibriumT (read none i) c - T) by field_simp]

/-- **C106 is violated** by the well of Beckermann et al. (linear model, negative or missing `gamma`): `alpha` is not rescaled, the force
is that in kelvin divided by the melting temperature.  The two agree exactly when the force vanishes or the unit is one. -/
theorem c106_violation_beckermann (i : Input) {f : ℝ} (hf : f ≠ 0) (hl : i.linear = true) (hg : i.gamma < 0) (c T phi : ℝ) :
    wellForce (read (some f) i) c (T / f) phi = wellForce (read none i) c T phi / f
      ∧ (wellForce (read (some f) i) c (T / f) phi = wellForce (read none i) c T phi
          ↔ f = 1 ∨ wellForce (read none i) c T phi = 0) := by
  have hb : ∀ o, (read o i).beckermann = true := by
    intro o
    show (i.linear && decide (i.gamma < 0)) = true
    rw [hl, decide_eq_true hg]
    rfl
  have h1 : wellForce (read (some f) i) c (T / f) phi = wellForce (read none i) c T phi / f := by
    unfold wellForce
    rw [hb, hb, equilibriumT_reduced i hf]
    simp only [if_true]
    unfold PhaseRHS.biasWellBeckermann
    have e3 : (read (some f) i).alpha = (read none i).alpha := rfl
    rw [e3]
    field_simp
  refine ⟨h1, ?_⟩
  rw [h1]
  generalize wellForce (read none i) c T phi = w
  constructor
  · intro h
    rw [div_eq_iff hf] at h
    by_cases hw : w = 0
    · exact Or.inr hw
    · left
      have : w * (f - 1) = 0 := by linarith
      rcases mul_eq_zero.1 this with h0 | h0
      · exact absurd h0 hw
      · linarith
  · rintro (h | h)
    · rw [h, div_one]
    · rw [h, zero_div]

/-- **C106 is violated** by the well of a pure material (`bias_well_gamma`, no composition): `gamma` is not rescaled.  The force agrees
with the one in kelvin exactly when the unit is one, the temperature is the melting temperature, or the force has no
temperature dependence at all. -/
theorem c106_violation_pure_well (i : Input) {f : ℝ} (hf : f ≠ 0) (hl : i.linear = false) (c T phi : ℝ) :
    wellForce (read (some f) i) c (T / f) phi = wellForce (read none i) c T phi
      ↔ f = 1 ∨ T = i.meltingT ∨ i.gamma = 0 ∨ i.alpha = 0 ∨ phi = 0 ∨ phi = 1 := by
  have hb : ∀ o, (read o i).beckermann = false := by
    intro o
    show (i.linear && decide (i.gamma < 0)) = false
    rw [hl]; rfl
  have e1 : (read (some f) i).gamma = i.gamma := by
    show (if i.linear then i.gamma * f else i.gamma) = _
    rw [hl]; rfl
  have e0 : equilibriumT (read none i) c = i.meltingT := by
    show i.meltingT + (if i.linear then i.slope else 0) * (c - i.cref) = i.meltingT
    rw [hl]
    simp
  have e2 : (read none i).gamma = i.gamma := rfl
  have e3 : ∀ o, (read o i).alpha = i.alpha := fun _ => rfl
  unfold wellForce
  rw [hb, hb, equilibriumT_reduced i hf, e0, e1, e2, e3, e3]
  simp only [Bool.false_eq_true, if_false]
  unfold PhaseRHS.biasWell
  have hat : (4 : ℝ) * Real.arctan 1 ≠ 0 := by
    rw [Real.arctan_one]
    have := Real.pi_pos
    positivity
  constructor
  · intro h
    by_contra hne
    push_neg at hne
    obtain ⟨h1, h2, h3, h4, h5, h6⟩ := hne
    have hphi : (1 : ℝ) - phi ≠ 0 := fun h => h6 (by linarith)
    have hA : i.alpha / (4 * Real.arctan 1) ≠ 0 := div_ne_zero h4 hat
    have h7 := mul_right_cancel₀ hphi h
    have h8 := mul_right_cancel₀ h5 h7
    have h9 := mul_left_cancel₀ hA h8
    have h10 := Real.arctan_injective h9
    have h11 := mul_left_cancel₀ h3 h10
    rw [← sub_div, div_eq_iff hf] at h11
    have h12 : (i.meltingT - T) * (f - 1) = 0 := by linarith
    rcases mul_eq_zero.1 h12 with h | h
    · exact h2 (by linarith)
    · exact h1 (by linarith)
  · rintro (h | h | h | h | h | h)
    · rw [h]; simp
    · rw [h]; simp
    · rw [h]; simp
    · rw [h]; simp
    · rw [h]; simp
    · rw [h]; simp

/-- **C106, orientation.** `H T` is the one in kelvin. -/
theorem c106_orientation (i : Input) {f : ℝ} (hf : f ≠ 0) (T p1 g : ℝ) :
    orientTerm (read (some f) i) (T / f) p1 g = orientTerm (read none i) T p1 g := by
  show i.H * f * (T / f) * p1 * g = i.H * T * p1 * g
  field_simp

/-- **C106, heat equation.** The rate of the stored field is the rate in kelvin divided by `f` (constant heat capacity). -/
theorem c106_heat (i : Input) {f : ℝ} (hf : f ≠ 0) (dx dy diff : ℝ) (w : Bool) (T r : Field2) (x y : ℤ) :
    tempRate2 (read (some f) i) dx dy diff w (reduce f T) r x y = tempRate2 (read none i) dx dy diff w T r x y / f := by
  have e : i.latent * (1e-6 / i.vm) / (i.cpA * (1e-6 / i.vm) * f) = i.latent * (1e-6 / i.vm) / (i.cpA * (1e-6 / i.vm)) / f := by
    rw [div_div]
  cases w
  · show Thermal.laplacian2 dx dy diff (reduce f T) x y = Thermal.laplacian2 dx dy diff T x y / f
    unfold Thermal.laplacian2 reduce
    ring
  · show Thermal.laplacian2 dx dy diff (reduce f T) x y + i.latent * (1e-6 / i.vm) / (i.cpA * (1e-6 / i.vm) * f) * r x y
      = (Thermal.laplacian2 dx dy diff T x y + i.latent * (1e-6 / i.vm) / (i.cpA * (1e-6 / i.vm)) * r x y) / f
    rw [e]
    unfold Thermal.laplacian2 reduce
    ring

/-- Same in 3D. -/
theorem c106_heat3 (i : Input) {f : ℝ} (hf : f ≠ 0) (dx dy dz diff : ℝ) (w : Bool) (T r : Field3) (x y z : ℤ) :
    tempRate3 (read (some f) i) dx dy dz diff w (fun a b c => T a b c / f) r x y z
      = tempRate3 (read none i) dx dy dz diff w T r x y z / f := by
  have e : i.latent * (1e-6 / i.vm) / (i.cpA * (1e-6 / i.vm) * f) = i.latent * (1e-6 / i.vm) / (i.cpA * (1e-6 / i.vm)) / f := by
    rw [div_div]
  cases w
  · show Thermal.laplacian3 dx dy dz diff (fun a b c => T a b c / f) x y z = Thermal.laplacian3 dx dy dz diff T x y z / f
    unfold Thermal.laplacian3
    ring
  · show Thermal.laplacian3 dx dy dz diff (fun a b c => T a b c / f) x y z
        + i.latent * (1e-6 / i.vm) / (i.cpA * (1e-6 / i.vm) * f) * r x y z
      = (Thermal.laplacian3 dx dy dz diff T x y z + i.latent * (1e-6 / i.vm) / (i.cpA * (1e-6 / i.vm)) * r x y z) / f
    rw [e]
    unfold Thermal.laplacian3
    ring

/-- **C106, energy.** The thermal energy printed is the one in kelvin ("rescaling of cp compensates rescaling of T"). -/
theorem c106_energy {ι : Type} (i : Input) {f : ℝ} (hf : f ≠ 0) (w : Bool) (cells : List ι) (wt T phi : ι → ℝ) :
    Thermal.thermalEnergy (read (some f) i).latent w cells wt (fun _ => (read (some f) i).cp) (fun c => T c / f) phi
      = Thermal.thermalEnergy (read none i).latent w cells wt (fun _ => (read none i).cp) T phi := by
  unfold Thermal.thermalEnergy
  have : ∀ c, (read (some f) i).cp * (T c / f) * wt c = (read none i).cp * T c * wt c := by
    intro c
    show i.cpA * (1e-6 / i.vm) * f * (T c / f) * wt c = i.cpA * (1e-6 / i.vm) * T c * wt c
    rw [mul_assoc (i.cpA * (1e-6 / i.vm)) f, mul_div_cancel₀ _ hf]
  simp only [this]
  rfl

/-! ## Boundary conditions -/

/-- The ghost value for the stored field with `g / f` is the ghost value in kelvin over `f`. -/
theorem ghost_reduced (c : Boundary.Coef) (f h u : ℝ) : Boundary.ghost ⟨c.a, c.b, c.g * (1 / f)⟩ h (u / f) = Boundary.ghost c h u / f := by
  unfold Boundary.ghost
  dsimp only
  rw [div_div, mul_comm _ f, ← div_div]
  congr 1
  ring

/-- What the model's strategy does to the coefficients. -/
theorem modelBc_some {f : ℝ} (hf : 0 < f) (n : ℤ) (c : Boundary.Coef) : modelBc (some f) n c = ⟨c.a, c.b, c.g * (1 / f)⟩ := by
  unfold modelBc strategyBc bcFactor
  exact if_pos (by positivity)

/-- What the integrator's strategy does: nothing. -/
theorem integratorBc_eq (f : Option ℝ) (c : Boundary.Coef) : integratorBc f c = c := by
  unfold integratorBc strategyBc defaultCoeff
  exact if_neg (by norm_num)

/-- Filling commutes with the change of unit when the coefficients are rescaled. -/
theorem fill_reduced (B : Boundary.Box) (touch : Boundary.Side → Bool) (coef : Boundary.Side → Boundary.Coef) {f : ℝ} (dx dy : ℝ)
    (T : Field2) :
    Boundary.fillDepth B touch (fun s => ⟨(coef s).a, (coef s).b, (coef s).g * (1 / f)⟩) dx dy (reduce f T)
      = reduce f (Boundary.fillDepth B touch coef dx dy T) := by
  have h1 : Boundary.fillEdges B touch (fun s => ⟨(coef s).a, (coef s).b, (coef s).g * (1 / f)⟩) dx dy (reduce f T)
      = reduce f (Boundary.fillEdges B touch coef dx dy T) := by
    funext x y
    unfold Boundary.fillEdges reduce
    dsimp only
    simp only [ghost_reduced]
    split_ifs <;> rfl
  unfold Boundary.fillDepth
  rw [h1]
  funext x y
  unfold Boundary.fillCorners reduce
  dsimp only
  split_ifs <;> ring

/-- **C106, boundary values set by the model** (initial data, output, regridding): the ghost cells of the stored field are those in
kelvin over `f`, all sides and corners, any conditions. -/
theorem c106_model_boundary {f : ℝ} (hf : 0 < f) (n : ℤ) (B : Boundary.Box) (touch : Boundary.Side → Bool)
    (coef : Boundary.Side → Boundary.Coef) (dx dy : ℝ) (T : Field2) :
    Boundary.fillDepth B touch (fun s => modelBc (some f) n (coef s)) dx dy (reduce f T)
      = reduce f (Boundary.fillDepth B touch coef dx dy T) := by
  simp only [modelBc_some hf]
  exact fill_reduced B touch coef dx dy T

/-- **C106 is violated** by the boundary values set by the integrator, for every evaluation of the rates: the coefficient is passed
where the constructor expects the number of ghost cells, and the prescribed value or slope is used unchanged with the
rescaled field.  The ghost value is right exactly when the prescribed value is zero or the unit is one. -/
theorem c106_violation_boundary {f : ℝ} (hf : f ≠ 0) (c : Boundary.Coef) {h : ℝ} (hh : h ≠ 0) (hc : 2 * c.b + c.a * h ≠ 0) (u : ℝ) :
    Boundary.ghost (integratorBc (some f) c) h (u / f) - Boundary.ghost c h u / f = 2 * h * c.g * (1 - 1 / f) / (2 * c.b + c.a * h)
      ∧ (Boundary.ghost (integratorBc (some f) c) h (u / f) = Boundary.ghost c h u / f ↔ c.g = 0 ∨ f = 1) := by
  rw [integratorBc_eq]
  have h1 : Boundary.ghost c h (u / f) - Boundary.ghost c h u / f = 2 * h * c.g * (1 - 1 / f) / (2 * c.b + c.a * h) := by
    unfold Boundary.ghost
    rw [div_div, mul_comm _ f, ← div_div, ← sub_div]
    congr 1
    ring
  refine ⟨h1, ?_⟩
  rw [← sub_eq_zero, h1, div_eq_zero_iff]
  constructor
  · rintro (h2 | h2)
    · rcases mul_eq_zero.1 h2 with h3 | h3
      · rcases mul_eq_zero.1 h3 with h4 | h4
        · exact absurd h4 (mul_ne_zero two_ne_zero hh)
        · exact Or.inl h4
      · right
        have : 1 / f = 1 := by linarith
        rw [div_eq_iff hf] at this
        linarith
    · exact absurd h2 hc
  · rintro (h2 | h2)
    · left; rw [h2]; ring
    · left; rw [h2]; ring

/-- The condition that actually holds at the boundary, for the temperature in kelvin: the prescribed value times `f`. -/
theorem c106_violation_condition {f : ℝ} (hf : f ≠ 0) (c : Boundary.Coef) {h : ℝ} (hh : h ≠ 0) (hc : 2 * c.b + c.a * h ≠ 0) (u : ℝ) :
    c.a * ((u + f * Boundary.ghost (integratorBc (some f) c) h (u / f)) / 2)
      + c.b * ((f * Boundary.ghost (integratorBc (some f) c) h (u / f) - u) / h) = f * c.g := by
  rw [integratorBc_eq]
  have h1 : f * Boundary.ghost c h (u / f) * (2 * c.b + c.a * h) = 2 * h * c.g * f + (2 * c.b - c.a * h) * u := by
    unfold Boundary.ghost
    rw [mul_assoc, div_mul_cancel₀ _ hc]
    field_simp
  generalize f * Boundary.ghost c h (u / f) = G at h1
  field_simp
  linarith

/-- The number of ghost cells the integrator's object believes to have: none with a melting temperature above one, minus one without
rescaling. -/
theorem c106_stencil {f : ℝ} (hf : 1 < f) : integratorStencil (some f) = 0 ∧ integratorStencil none = -1 := by
  constructor
  · show (if 0 ≤ 1 / f then ⌊1 / f⌋ else ⌈1 / f⌉) = 0
    rw [if_pos (by positivity), Int.floor_eq_zero_iff]
    exact ⟨by positivity, (div_lt_one (by linarith)).2 hf⟩
  · show (if (0 : ℝ) ≤ -1 then ⌊(-1 : ℝ)⌋ else ⌈(-1 : ℝ)⌉) = -1
    rw [if_neg (by norm_num)]
    exact_mod_cast Int.ceil_intCast (-1)

/-! ## The coupled equations -/

/-- Rates with rescaled boundary values. -/
theorem rates_reduced (i : Input) {f : ℝ} (hf : f ≠ 0) (bc bc' : Boundary.Side → Boundary.Coef)
    (hbc : ∀ s, bc' s = ⟨(bc s).a, (bc s).b, (bc s).g * (1 / f)⟩) (B : Boundary.Box) (touch : Boundary.Side → Bool) (interp : Char)
    (G : Field2 → (ℤ → ℤ → Option ℝ) → Field2) (dx dy diff : ℝ) (phi T : Field2) :
    meltRates (read (some f) i) bc' B touch interp G dx dy diff phi (reduce f T)
      = ((meltRates (read none i) bc B touch interp G dx dy diff phi T).1,
         reduce f (meltRates (read none i) bc B touch interp G dx dy diff phi T).2) := by
  have e : bc' = fun s => ⟨(bc s).a, (bc s).b, (bc s).g * (1 / f)⟩ := funext hbc
  unfold meltRates
  dsimp only
  rw [e, fill_reduced B touch bc dx dy T]
  simp only [c106_melt_force i hf]
  refine Prod.ext rfl ?_
  funext x y
  exact c106_heat i hf dx dy diff true _ _ x y

/-- `(phi, T)` solves the coupled equations on an open or closed set of times. -/
def Solves (p : Params) (bc : Boundary.Side → Boundary.Coef) (B : Boundary.Box) (touch : Boundary.Side → Bool) (interp : Char)
    (G : Field2 → (ℤ → ℤ → Option ℝ) → Field2) (dx dy diff : ℝ) (S : Set ℝ) (phi T : ℝ → Field2) : Prop :=
  ∀ t ∈ S, ∀ x y,
    HasDerivWithinAt (fun s => phi s x y) ((meltRates p bc B touch interp G dx dy diff (phi t) (T t)).1 x y) S t
      ∧ HasDerivWithinAt (fun s => T s x y) ((meltRates p bc B touch interp G dx dy diff (phi t) (T t)).2 x y) S t

theorem solves_reduced (i : Input) {f : ℝ} (hf : f ≠ 0) (bc bc' : Boundary.Side → Boundary.Coef)
    (hbc : ∀ s, bc' s = ⟨(bc s).a, (bc s).b, (bc s).g * (1 / f)⟩) (B : Boundary.Box) (touch : Boundary.Side → Bool) (interp : Char)
    (G : Field2 → (ℤ → ℤ → Option ℝ) → Field2) (dx dy diff : ℝ) (S : Set ℝ) (phi T : ℝ → Field2) :
    Solves (read (some f) i) bc' B touch interp G dx dy diff S phi (fun t => reduce f (T t))
      ↔ Solves (read none i) bc B touch interp G dx dy diff S phi T := by
  constructor
  · intro h t ht x y
    obtain ⟨h1, h2⟩ := h t ht x y
    rw [rates_reduced i hf bc bc' hbc] at h1 h2
    refine ⟨h1, ?_⟩
    have h3 := h2.mul_const f
    have e : (fun s => reduce f (T s) x y * f) = fun s => T s x y := by
      funext s
      exact div_mul_cancel₀ _ hf
    rw [e] at h3
    refine h3.congr_deriv ?_
    exact div_mul_cancel₀ _ hf
  · intro h t ht x y
    obtain ⟨h1, h2⟩ := h t ht x y
    rw [rates_reduced i hf bc bc' hbc]
    exact ⟨h1, h2.div_const f⟩

/-- **C106, intended evolution.** With the boundary values of the model, the stored fields solve the equations of the run exactly when
the fields in kelvin solve the equations in kelvin, for all boundary conditions, all patches and whatever else is in the phase
equation. -/
theorem c106_evolution_partial (i : Input) {f : ℝ} (hf : 0 < f) (n : ℤ) (bc : Boundary.Side → Boundary.Coef) (B : Boundary.Box)
    (touch : Boundary.Side → Bool) (interp : Char) (G : Field2 → (ℤ → ℤ → Option ℝ) → Field2) (dx dy diff : ℝ) (S : Set ℝ)
    (phi T : ℝ → Field2) :
    Solves (read (some f) i) (fun s => modelBc (some f) n (bc s)) B touch interp G dx dy diff S phi (fun t => reduce f (T t))
      ↔ Solves (read none i) bc B touch interp G dx dy diff S phi T :=
  solves_reduced i hf.ne' bc _ (fun s => modelBc_some hf n (bc s)) B touch interp G dx dy diff S phi T

/-- **C106, actual evolution.** With the boundary values of the integrator, the stored fields solve the equations of the run exactly
when the fields in kelvin solve the equations in kelvin with every prescribed boundary value multiplied by the melting
temperature. -/
theorem c106_violation_evolution (i : Input) {f : ℝ} (hf : f ≠ 0) (bc : Boundary.Side → Boundary.Coef) (B : Boundary.Box)
    (touch : Boundary.Side → Bool) (interp : Char) (G : Field2 → (ℤ → ℤ → Option ℝ) → Field2) (dx dy diff : ℝ) (S : Set ℝ)
    (phi T : ℝ → Field2) :
    Solves (read (some f) i) (fun s => integratorBc (some f) (bc s)) B touch interp G dx dy diff S phi (fun t => reduce f (T t))
      ↔ Solves (read none i) (fun s => ⟨(bc s).a, (bc s).b, (bc s).g * f⟩) B touch interp G dx dy diff S phi T := by
  refine solves_reduced i hf _ _ (fun s => ?_) B touch interp G dx dy diff S phi T
  rw [integratorBc_eq]
  have : (bc s).g * f * (1 / f) = (bc s).g := by field_simp
  dsimp only
  rw [this]

/-- Without flux through the sides (or any homogeneous condition) the run is right. -/
theorem c106_insulated (i : Input) {f : ℝ} (hf : f ≠ 0) (bc : Boundary.Side → Boundary.Coef) (h0 : ∀ s, (bc s).g = 0) (B : Boundary.Box)
    (touch : Boundary.Side → Bool) (interp : Char) (G : Field2 → (ℤ → ℤ → Option ℝ) → Field2) (dx dy diff : ℝ) (S : Set ℝ)
    (phi T : ℝ → Field2) :
    Solves (read (some f) i) (fun s => integratorBc (some f) (bc s)) B touch interp G dx dy diff S phi (fun t => reduce f (T t))
      ↔ Solves (read none i) bc B touch interp G dx dy diff S phi T := by
  refine solves_reduced i hf _ _ (fun s => ?_) B touch interp G dx dy diff S phi T
  rw [integratorBc_eq, h0 s, zero_mul]
  have := h0 s
  cases hs : bc s with
  | mk a b g =>
    rw [hs] at this
    dsimp only at this ⊢
    rw [this]

/-! ## Uses that were forgotten, and output -/

/-- **C106 is violated** by activated diffusion: the stored temperature is put into `exp(-Q/RT)`.  The coefficient is the one in kelvin exactly
when the unit is one or there is no temperature dependence. -/
theorem c106_violation_arrhenius {f R : ℝ} (hf : f ≠ 0) (hR : R ≠ 0) (m : DiffCoeff.Arrhenius) (t1 t2 : ℝ) (ht : t1 + t2 ≠ 0) :
    DiffCoeff.rate R m (t1 / f, t2 / f) = DiffCoeff.rate R m (t1, t2) ↔ f = 1 ∨ m.q0 = 0 ∨ m.d0 = 0 := by
  unfold DiffCoeff.rate
  dsimp only
  have e : 2 / (t1 / f + t2 / f) = f * (2 / (t1 + t2)) := by
    rw [← add_div]
    field_simp
  rw [e]
  constructor
  · intro h
    by_cases hd : m.d0 = 0
    · exact Or.inr (Or.inr hd)
    · have h1 := Real.exp_injective (mul_left_cancel₀ hd h)
      by_cases hq : m.q0 = 0
      · exact Or.inr (Or.inl hq)
      · left
        have h2 : m.q0 / R ≠ 0 := div_ne_zero hq hR
        have h3 : 2 / (t1 + t2) ≠ 0 := div_ne_zero two_ne_zero ht
        have h4 : -(m.q0 / R) * (2 / (t1 + t2)) ≠ 0 := mul_ne_zero (neg_ne_zero.2 h2) h3
        have h5 : f * (-(m.q0 / R) * (2 / (t1 + t2))) = 1 * (-(m.q0 / R) * (2 / (t1 + t2))) := by linarith
        exact mul_right_cancel₀ h4 h5
  · rintro (h | h | h)
    · rw [h, one_mul]
    · rw [h]; simp
    · rw [h]; simp

/-- **C106 is violated** by the output: the field written is `T / f`; read back as the initial temperature of another run of the same kind it
is divided once more.  The round trip restores the temperature exactly when it is zero or the unit is one. -/
theorem c106_violation_output {f : ℝ} (hf : f ≠ 0) (T : ℝ) :
    (written (FieldsFile.startTemp true f T) = T ↔ T = 0 ∨ f = 1)
      ∧ FieldsFile.startTemp true f (written (FieldsFile.startTemp true f T)) = T / f ^ 2
      ∧ (FieldsFile.startTemp true f (written (FieldsFile.startTemp true f T)) = FieldsFile.startTemp true f T ↔ T = 0 ∨ f = 1) := by
  have key : ∀ a b : ℝ, 1 / f * a = a ↔ a = 0 ∨ f = 1 := by
    intro a _
    constructor
    · intro h
      by_cases ha : a = 0
      · exact Or.inl ha
      · right
        have h1 : 1 / f * a = 1 * a := by rw [h, one_mul]
        have h2 := mul_right_cancel₀ ha h1
        rw [div_eq_iff hf] at h2
        linarith
    · rintro (h | h)
      · rw [h, mul_zero]
      · rw [h]; simp
  have s : ∀ x, FieldsFile.startTemp true f x = 1 / f * x := fun x => if_pos rfl
  unfold written
  simp only [s]
  refine ⟨key T T, by field_simp, ?_⟩
  rw [key (1 / f * T) T]
  constructor
  · rintro (h | h)
    · rcases mul_eq_zero.1 h with h1 | h1
      · exact absurd h1 (by simpa using hf)
      · exact Or.inl h1
    · exact Or.inr h
  · rintro (h | h)
    · left; rw [h, mul_zero]
    · exact Or.inr h

/-! ## Examples -/

/-- A heat-equation input of a pure material with melting temperature 100 K. -/
noncomputable def sample : Input where
  heat := true
  steady := false
  meltingT := 100
  vm := 1e-5
  cpA := 25
  H := 1e-3
  latent := 1000
  linear := false
  alpha := 1
  gamma := 2
  slope := 0
  cref := 0

/-- The unit is 100 K. -/
example : factor sample = some 100 := (c106_unit sample 100).2 ⟨rfl, rfl, by norm_num [sample], rfl⟩

/-- tests/Heat1D/1d_rescale.input: the left side is held at 1 K, stored 0.01; the integrator holds the stored field at 1, that is 100 K. -/
example : Boundary.ghost (integratorBc (some 100) ⟨1, 0, 1⟩) 1 (1 / 100) ≠ Boundary.ghost ⟨1, 0, 1⟩ 1 1 / 100 := by
  intro h
  have := ((c106_violation_boundary (f := 100) (by norm_num) ⟨1, 0, 1⟩ (h := 1) (by norm_num) (by norm_num) 1).2).1 h
  norm_num at this

/-- The pure well is wrong one degree below melting. -/
example : wellForce (read (some 100) sample) 0 (99 / 100) 0.5 ≠ wellForce (read none sample) 0 99 0.5 := by
  intro h
  have := (c106_violation_pure_well sample (f := 100) (by norm_num) rfl 0 99 0.5).1 h
  norm_num [sample] at this

/-- The alloy with the same numbers is right. -/
example : wellForce (read (some 100) { sample with linear := true }) 0.1 (99 / 100) 0.5
    = wellForce (read none { sample with linear := true }) 0.1 99 0.5 :=
  c106_well_partial { sample with linear := true } (by norm_num) rfl (by norm_num [sample]) 0.1 99 0.5

/-- Diffusion at 800 K and 900 K with an activation energy is wrong. -/
example : DiffCoeff.rate 8 ⟨1, 1000⟩ (800 / 1000, 900 / 1000) ≠ DiffCoeff.rate 8 ⟨1, 1000⟩ (800, 900) := by
  intro h
  have := (c106_violation_arrhenius (f := 1000) (R := 8) (by norm_num) (by norm_num) ⟨1, 1000⟩ 800 900 (by norm_num)).1 h
  norm_num at this

end AMPE.Rescale.Props
