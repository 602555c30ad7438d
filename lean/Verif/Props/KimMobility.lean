import Mathlib.Analysis.Calculus.Deriv.Inv
import Mathlib.Analysis.SpecialFunctions.Integrals.Basic
import Mathlib.Analysis.SpecialFunctions.ExpDeriv
import Mathlib.MeasureTheory.Integral.IntervalIntegral.FundThmCalculus
import Mathlib.Tactic.Linarith
import Mathlib.Tactic.Ring
import Mathlib.Tactic.FieldSimp
import Mathlib.Tactic.LinearCombination
import Verif.Model.Alloy
import Verif.Props.Functions
import Verif.Props.PairWeights

/-!
# C73-C75: Kim's phase mobility

C73: front velocity of the finite-mobility strategy.  C74: values of the mobilities.  C75: cells read by the update loop.
-/

namespace AMPE.Alloy.Props

open AMPE.Functions AMPE.Functions.Props AMPE.PairWeights AMPE.PairWeights.Props
open Filter Topology

/-! ## C73 -/

/-- Planar front of width `delta` at position `x0`. -/
noncomputable def front (delta x : ℝ) : ℝ := 1 / (1 + Real.exp (x / delta))

theorem front_pos (delta x : ℝ) : 0 < front delta x := by unfold front; positivity

theorem front_lt_one (delta x : ℝ) : front delta x < 1 := by
  unfold front
  rw [div_lt_one (by positivity)]
  linarith [Real.exp_pos (x / delta)]

theorem front_deriv (delta x : ℝ) :
    HasDerivAt (front delta) (-(front delta x * (1 - front delta x)) / delta) x := by
  have he : HasDerivAt (fun y => Real.exp (y / delta)) (Real.exp (x / delta) * (1 / delta)) x :=
    ((hasDerivAt_id x).div_const delta).exp
  have hne : (1 + Real.exp (x / delta)) ≠ 0 := by positivity
  refine ((hasDerivAt_const x (1:ℝ)).div (he.const_add 1) hne).congr_deriv ?_
  unfold front
  field_simp
  ring

theorem front_deriv2 (delta x : ℝ) :
    HasDerivAt (fun y => -(front delta y * (1 - front delta y)) / delta)
      (front delta x * (1 - front delta x) * (1 - 2 * front delta x) / delta ^ 2) x := by
  have h := front_deriv delta x
  refine (((h.mul (h.const_sub 1)).neg).div_const delta).congr_deriv ?_
  ring

/-- The width of the equilibrium interface. -/
noncomputable def eqWidth (epsilon well : ℝ) : ℝ := epsilon / Real.sqrt (32 * well)

theorem eqWidth_pos {epsilon well : ℝ} (he : 0 < epsilon) (hw : 0 < well) : 0 < eqWidth epsilon well := by
  unfold eqWidth; positivity

theorem eqWidth_sq {epsilon well : ℝ} (hw : 0 < well) :
    eqWidth epsilon well ^ 2 * (32 * well) = epsilon ^ 2 := by
  unfold eqWidth
  rw [div_pow, Real.sq_sqrt (by positivity)]
  field_simp

theorem mobFinite_width {epsilon well im : ℝ} (he : 0 < epsilon) (hw : 0 < well) (him : 0 < im) :
    6 * mobFinite epsilon well im * eqWidth epsilon well = im := by
  unfold mobFinite kimAlpha eqWidth
  have h32 : Real.sqrt (32 * well) = Real.sqrt 2 * Real.sqrt (16 * well) := by
    rw [← Real.sqrt_mul (by norm_num)]; ring_nf
  have h2 : Real.sqrt 2 * Real.sqrt 2 = 2 := Real.mul_self_sqrt (by norm_num)
  have p2 : 0 < Real.sqrt 2 := by positivity
  have p16 : 0 < Real.sqrt (16 * well) := by positivity
  rw [h32]
  simp only
  field_simp
  linear_combination (-3) * h2

/-- **C73**: with harmonic interpolation and a constant energy difference `df = f_l - f_a`, the planar front moving with
velocity `interface_mobility * df` solves the phase equation with the finite Kim mobility exactly: solid (1) behind,
liquid (0) ahead, equilibrium profile. -/
theorem c73_front_velocity_partial (epsilon well im df : ℝ) (he : 0 < epsilon) (hw : 0 < well) (him : 0 < im) (t x : ℝ) :
    let phi := fun t x => front (eqWidth epsilon well) (x - im * df * t)
    ∃ phi_t phi_x phi_xx g' h', HasDerivAt (fun s => phi s x) phi_t t ∧
      (∀ y, HasDerivAt (phi t) (phi_x y) y) ∧ HasDerivAt phi_x phi_xx x ∧
      derivWellFunc 'd' (phi t x) = some g' ∧ derivInterpFunc 'h' (phi t x) = some h' ∧
      phi_t = mobFinite epsilon well im * (epsilon ^ 2 * phi_xx - well * g' + h' * df) := by
  intro phi
  set D := eqWidth epsilon well with hD
  have hDp : 0 < D := eqWidth_pos he hw
  have hsq : D ^ 2 * (32 * well) = epsilon ^ 2 := eqWidth_sq hw
  have hM := mobFinite_width he hw him
  rw [← hD] at hM
  set F := front D (x - im * df * t) with hF
  have h0 : 0 ≤ F := (front_pos _ _).le
  have h1 : F ≤ 1 := (front_lt_one _ _).le
  have hinner : HasDerivAt (fun s => x - im * df * s) (-(im * df)) t := by
    refine (((hasDerivAt_id t).const_mul (im * df)).const_sub x).congr_deriv ?_
    ring
  have hsh : ∀ y, HasDerivAt (fun z => z - im * df * t) 1 y := fun y => (hasDerivAt_id y).sub_const _
  refine ⟨_, fun y => -(front D (y - im * df * t) * (1 - front D (y - im * df * t))) / D, F * (1 - F) * (1 - 2 * F) / D ^ 2, _, _,
    HasDerivAt.comp (h₂ := front D) (h := fun s => x - im * df * s) t (front_deriv D (x - im * df * t)) hinner, fun y => ?_, ?_, rfl, rfl, ?_⟩
  · have h := HasDerivAt.comp (h₂ := front D) (h := fun z => z - im * df * t) y (front_deriv D (y - im * df * t)) (hsh y)
    exact h.congr_deriv (mul_one _)
  · exact ((front_deriv2 D (x - im * df * t)).comp x (hsh x)).congr_deriv (mul_one _)
  · have hc : clamp F = F := clamp_of_mem h0 h1
    have hphi : phi t x = F := rfl
    rw [hphi, hc, ← hsq]
    rw [← hF]
    clear_value F
    generalize mobFinite epsilon well im = M at hM ⊢
    clear_value D
    rw [← hM]
    field_simp
    ring

/-- **C73**: the front of `c73_front_velocity` is a solid half space and a liquid half space, with the half value at
the position `interface_mobility * df * t`. -/
theorem c73_front_shape (epsilon well v t : ℝ) (he : 0 < epsilon) (hw : 0 < well) :
    let phi := fun x => front (eqWidth epsilon well) (x - v * t)
    Tendsto phi atBot (𝓝 1) ∧ Tendsto phi atTop (𝓝 0) ∧ phi (v * t) = 1 / 2 := by
  intro phi
  have hD := eqWidth_pos he hw
  refine ⟨?_, ?_, ?_⟩
  · have h1 : Tendsto (fun x => (x - v * t) / eqWidth epsilon well) atBot atBot :=
      (tendsto_atBot_add_const_right _ (-(v * t)) tendsto_id).atBot_div_const hD
    have h2 := (Real.tendsto_exp_atBot.comp h1).const_add 1
    have h3 := h2.inv₀ (by norm_num)
    simpa [phi, front, Function.comp, one_div] using h3
  · have h1 : Tendsto (fun x => (x - v * t) / eqWidth epsilon well) atTop atTop :=
      (tendsto_atTop_add_const_right _ (-(v * t)) tendsto_id).atTop_div_const hD
    have h2 := tendsto_atTop_add_const_left _ (1:ℝ) (Real.tendsto_exp_atTop.comp h1)
    have h3 := h2.inv_tendsto_atTop
    simpa [phi, front, Function.comp, one_div, Pi.inv_def] using h3
  · simp only [phi, front, sub_self, zero_div, Real.exp_zero]
    norm_num

/-- **C73** (any interpolation): for every planar front moving steadily with velocity `v` — any interpolation and well
function with the given derivatives — velocity times the integral of the squared slope over an interval is the
mobility times the drop of `h df - w g + eps^2 phi'^2/2` over the interval. -/
theorem c73_velocity_identity (M epsilon well df v a b : ℝ) (g g' h h' phi phi' phi'' : ℝ → ℝ)
    (hg : ∀ y, HasDerivAt g (g' y) y) (hh : ∀ y, HasDerivAt h (h' y) y)
    (hp : ∀ x, HasDerivAt phi (phi' x) x) (hp2 : ∀ x, HasDerivAt phi' (phi'' x) x)
    (hw : ∀ x, -v * phi' x = M * (epsilon ^ 2 * phi'' x - well * g' (phi x) + h' (phi x) * df)) :
    v * ∫ x in a..b, phi' x ^ 2 =
      M * ((h (phi a) * df - well * g (phi a) + epsilon ^ 2 * phi' a ^ 2 / 2)
        - (h (phi b) * df - well * g (phi b) + epsilon ^ 2 * phi' b ^ 2 / 2)) := by
  have hcont : Continuous phi' := continuous_iff_continuousAt.2 fun x => (hp2 x).continuousAt
  have hder : ∀ x, HasDerivAt (fun x => M * (h (phi x) * df - well * g (phi x) + epsilon ^ 2 * phi' x ^ 2 / 2))
      (-v * phi' x ^ 2) x := by
    intro x
    have e1 := ((hh (phi x)).comp x (hp x)).mul_const df
    have e2 := ((hg (phi x)).comp x (hp x)).const_mul well
    have e3 := (((hp2 x).pow 2).const_mul (epsilon ^ 2)).div_const 2
    refine ((((e1.sub e2).add e3).const_mul M)).congr_deriv ?_
    simp only [Nat.cast_ofNat, Nat.add_one_sub_one, pow_one]
    linear_combination (-phi' x) * hw x
  have hI := intervalIntegral.integral_eq_sub_of_hasDerivAt (a := a) (b := b) (fun x _ => hder x)
    ((hcont.pow 2).const_mul (-v) |>.intervalIntegrable a b)
  rw [intervalIntegral.integral_const_mul] at hI
  linear_combination (-1) * hI

/-- **C73** (equilibrium profile): the integral of the squared slope of the equilibrium profile between two points is the
drop of `phi^2/2 - phi^3/3` over the width; over the whole line it is 1/(6 width), which with `c73_velocity_identity`
gives velocity `interface_mobility * df` for every interpolation function as long as the profile stays at
equilibrium. -/
theorem c73_equilibrium_profile (delta a b : ℝ) :
    ∫ x in a..b, (-(front delta x * (1 - front delta x)) / delta) ^ 2 =
      ((front delta a ^ 2 / 2 - front delta a ^ 3 / 3) - (front delta b ^ 2 / 2 - front delta b ^ 3 / 3)) / delta := by
  have hder : ∀ x, HasDerivAt (fun x => (-(front delta x ^ 2 / 2 - front delta x ^ 3 / 3)) / delta)
      ((-(front delta x * (1 - front delta x)) / delta) ^ 2) x := by
    intro x
    have h := front_deriv delta x
    refine (((((h.pow 2).div_const 2).sub ((h.pow 3).div_const 3)).neg).div_const delta).congr_deriv ?_
    push_cast
    ring
  have hcont : Continuous (front delta) := continuous_iff_continuousAt.2 fun x => (front_deriv delta x).continuousAt
  have hi : Continuous fun x => (-(front delta x * (1 - front delta x)) / delta) ^ 2 := by fun_prop
  rw [intervalIntegral.integral_eq_sub_of_hasDerivAt (fun x _ => hder x) (hi.intervalIntegrable a b)]
  ring

/-! ## C74 -/

/-- **C74**: the finite mobility is positive. -/
theorem c74_finite_pos (epsilon well im : ℝ) (he : 0 < epsilon) (hw : 0 < well) (him : 0 < im) :
    0 < mobFinite epsilon well im := by
  unfold mobFinite kimAlpha
  positivity

/-- Quadratic form of the second derivatives of the liquid free energy in the concentration jump. -/
noncomputable def jumpForm (n : ℕ) (Hess : Fin n → Fin n → ℝ) (jump : Fin n → ℝ) : ℝ :=
  ∑ i, ∑ j, jump i * Hess i j * jump j

/-- **C74**: for binary and ternary alloys the array index `2*i+j` addresses entry `(i, j)` of the row-major second
derivatives: without zeta parameters, the zeta factor is the quadratic form of the concentration jump over the
liquid diffusivity. -/
theorem c74_zeta (z : Zeta) (n : ℕ) (hn : n = 1 ∨ n = 2) (R D Q0 mv temp : ℝ) (d2 cl cs : ℕ → ℝ)
    (Hess : Fin n → Fin n → ℝ) (hH : ∀ i j : Fin n, d2 (n * i.val + j.val) = Hess i j) (hz : z.eval temp < 0) :
    zetaFactor z n R D Q0 mv temp d2 cl cs =
      some (jumpForm n Hess (fun i => cl i - cs i) / (D * Real.exp (-Q0 / (R * temp))) * (1.0e-6 / mv)) := by
  unfold zetaFactor jumpForm
  rw [if_pos hz]
  rcases hn with rfl | rfl
  · rw [if_pos (by intro i hi j hj; omega)]
    have := hH 0 0
    simp only [Fin.isValue, Fin.val_zero, mul_zero, add_zero] at this
    simp [this]
  · rw [if_pos (by intro i hi j hj; omega)]
    have h00 := hH 0 0
    have h01 := hH 0 1
    have h10 := hH 1 0
    have h11 := hH 1 1
    simp only [Fin.isValue, Fin.val_zero, Fin.val_one, mul_zero, add_zero, zero_add, mul_one, Nat.reduceAdd] at h00 h01 h10 h11
    simp [Finset.sum_range_succ, Fin.sum_univ_two, h00, h01, h10, h11]

/-- **C74** (limit): with three or more compositions the fixed stride 2 stays inside the array but does not address the
second derivatives: entries (1,0) and (0,2) are read from the same place. -/
theorem c74_stride_limit (n : ℕ) (hn : 3 ≤ n) (Hess : ℕ → ℕ → ℝ) (d2 : ℕ → ℝ)
    (hd : ∀ i < n, ∀ j < n, d2 (n * i + j) = Hess i j) :
    d2 (2 * 1 + 0) = Hess 0 2 ∧ d2 (2 * 0 + 2) = Hess 0 2 := by
  have := hd 0 (by omega) 2 (by omega)
  simp only [mul_zero, zero_add] at this
  exact ⟨by simpa using this, by simpa using this⟩

/-- **C74**: with interface kinetics and anti-trapping the inverse mobilities add up: the mobility is below both the finite
mobility and the diffusion-controlled one. -/
theorem c74_anti_trap (ty : InterpType) (epsilon well im : ℝ) (z : Zeta) (n : ℕ) (R D Q0 mv temp : ℝ) (d2 cl cs : ℕ → ℝ)
    (he : 0 < epsilon) (hw : 0 < well) (him : 0 < im) {zf : ℝ} (hzf : zetaFactor z n R D Q0 mv temp d2 cl cs = some zf)
    (hpos : 0 < zf) (hty : ty ≠ .other) :
    ∃ m mi, mobAntiTrap ty epsilon well im z n R D Q0 mv temp d2 cl cs = some m ∧
      mobInf ty epsilon well z n R D Q0 mv temp d2 cl cs = some mi ∧
      1 / m = 1 / mobFinite epsilon well im + 1 / mi ∧ 0 < m ∧ 0 < mi ∧ m < mi ∧ m < mobFinite epsilon well im := by
  obtain ⟨f, hf, hfp⟩ : ∃ f, kksMobilityFactor ty epsilon well = some f ∧ 0 < f := by
    cases ty with
    | pbg => exact ⟨_, rfl, by positivity⟩
    | harmonic => exact ⟨_, rfl, by positivity⟩
    | other => exact absurd rfl hty
  have ha : 0 < kimAlpha epsilon well im := by unfold kimAlpha; positivity
  refine ⟨1 / (kimAlpha epsilon well im + 1 / f * zf), f / zf, ?_, ?_, ?_, by positivity, by positivity, ?_, ?_⟩
  · simp only [mobAntiTrap, hf, hzf]; rfl
  · simp only [mobInf, hf, hzf]; rfl
  · unfold mobFinite; field_simp
  · rw [div_lt_div_iff₀ (by positivity) hpos]
    field_simp
    nlinarith [mul_pos ha hfp]
  · unfold mobFinite
    apply one_div_lt_one_div_of_lt ha
    have : 0 < 1 / f * zf := by positivity
    linarith

/-- **C74**: the zeta factor is positive when the diffusivity, molar volume are and the second derivatives are positive
definite, unless both phases have the same composition. -/
theorem c74_zeta_pos (z : Zeta) (n : ℕ) (hn : n = 1 ∨ n = 2) (R D Q0 mv temp : ℝ) (d2 cl cs : ℕ → ℝ)
    (Hess : Fin n → Fin n → ℝ) (hH : ∀ i j : Fin n, d2 (n * i.val + j.val) = Hess i j) (hD : 0 < D) (hmv : 0 < mv)
    (hdef : ∀ x, x ≠ 0 → 0 < jumpForm n Hess x) (hne : ∃ i < n, cl i ≠ cs i) (hz0 : z.eval temp ≠ 0) :
    ∃ zf, zetaFactor z n R D Q0 mv temp d2 cl cs = some zf ∧ 0 < zf := by
  by_cases hz : z.eval temp < 0
  · refine ⟨_, c74_zeta z n hn R D Q0 mv temp d2 cl cs Hess hH hz, ?_⟩
    obtain ⟨i, hi, hne⟩ := hne
    have := hdef (fun i => cl i - cs i) (fun h => hne (by have := congrFun h ⟨i, hi⟩; simpa [sub_eq_zero] using this))
    positivity
  · refine ⟨_, by unfold zetaFactor; rw [if_neg hz], ?_⟩
    have : 0 < z.eval temp := lt_of_le_of_ne (not_lt.1 hz) (Ne.symm hz0)
    positivity

/-- **C74** (violation): a zeta polynomial that is negative at the given temperature is not rejected: the routine behaves
as if no zeta parameters had been given. -/
theorem c74_violation_negative_polynomial (z : Zeta) (n : ℕ) (R D Q0 mv temp : ℝ) (d2 cl cs : ℕ → ℝ)
    (hneg : z.z0 + z.z1 * (temp - z.tref) + z.z2 * (temp - z.tref) * (temp - z.tref) < 0) :
    zetaFactor z n R D Q0 mv temp d2 cl cs = zetaFactor { z with tref := -1 } n R D Q0 mv temp d2 cl cs := by
  have h1 : z.eval temp < 0 := by
    unfold Zeta.eval; split_ifs <;> [norm_num; exact hneg]
  have h2 : Zeta.eval { z with tref := -1 } temp < 0 := by
    unfold Zeta.eval; rw [if_pos (by norm_num)]; norm_num
  unfold zetaFactor
  rw [if_pos h1, if_pos h2]

/-- **C74** (three phases): for every triple of phase fractions the mobility is a weighted mean of the two liquid-solid
mobilities; with two phases only (below the 0.99 cut) it is that of the pair. -/
theorem c74_three_phases (epsilon well : ℝ) (zLA zLB : Zeta) (mv temp : ℝ) (phi : Fin 3 → ℝ) (hs : Simplex phi)
    (ha : 0 < zLA.eval temp) (hb : 0 < zLB.eval temp) :
    ∃ m, mob3 epsilon well zLA zLB mv temp phi = some m ∧
      let k := 16 * well / (3 * epsilon * epsilon * (47 / 60))
      let mA := k / (zLA.eval temp * (1.0e-6 / mv))
      let mB := k / (zLB.eval temp * (1.0e-6 / mv))
      min mA mB ≤ m ∧ m ≤ max mA mB ∧ (phi 2 = 0 → phi 0 ≤ 0.99 → phi 1 ≤ 0.99 → m = mA) := by
  obtain ⟨w01, w02, w12, e, r01, r02, r12, hsum⟩ := c09_partition_of_unity phi hs
  refine ⟨_, by simp only [mob3, kksMobilityFactor, e, if_pos (And.intro ha hb)]; rfl, ?_⟩
  intro k mA mB
  have hA1 : min mA mB ≤ mA := min_le_left _ _
  have hB1 : min mA mB ≤ mB := min_le_right _ _
  have hA2 : mA ≤ max mA mB := le_max_left _ _
  have hB2 : mB ≤ max mA mB := le_max_right _ _
  show _ ≤ w01 * mA + w02 * mB + w12 * (0.5 * (mA + mB)) ∧ w01 * mA + w02 * mB + w12 * (0.5 * (mA + mB)) ≤ _ ∧
    (_ → _ → _ → w01 * mA + w02 * mB + w12 * (0.5 * (mA + mB)) = mA)
  have hhalf : (0.5 : ℝ) * (mA + mB) = (mA + mB) / 2 := by rw [show (0.5 : ℝ) = 1 / 2 by norm_num]; ring
  have hC1 : min mA mB ≤ 0.5 * (mA + mB) := by rw [hhalf]; linarith
  have hC2 : 0.5 * (mA + mB) ≤ max mA mB := by rw [hhalf]; linarith
  generalize min mA mB = lo at *
  generalize max mA mB = hi at *
  generalize 0.5 * (mA + mB) = mC at *
  obtain ⟨q01, -⟩ := r01
  obtain ⟨q02, -⟩ := r02
  obtain ⟨q12, -⟩ := r12
  refine ⟨?_, ?_, fun h2 h0 h1 => ?_⟩
  · have : lo = w01 * lo + w02 * lo + w12 * lo := by rw [← add_mul, ← add_mul, hsum, one_mul]
    rw [this]
    gcongr
  · have : hi = w01 * hi + w02 * hi + w12 * hi := by rw [← add_mul, ← add_mul, hsum, one_mul]
    rw [this]
    gcongr
  · rw [c09_two_phase phi hs h2 h0 h1] at e
    simp only [Option.some.injEq, Prod.mk.injEq] at e
    obtain ⟨rfl, rfl, rfl⟩ := e
    ring

/-- Kim's constant for energy fraction `h` and concentration fraction `p`. -/
noncomputable def kimConstant (h p : ℝ → ℝ) : ℝ := ∫ x in (0:ℝ)..1, h x * (1 - p x) / (x * (1 - x))

theorem kimConstant_poly {h p q : ℝ → ℝ} (e : ∀ x, 0 < x → x < 1 → h x * (1 - p x) = q x * (x * (1 - x))) :
    kimConstant h p = ∫ x in (0:ℝ)..1, q x := by
  unfold kimConstant
  refine intervalIntegral.integral_congr_Ioo_of_le zero_le_one fun x hx => ?_
  have : x * (1 - x) ≠ 0 := mul_ne_zero hx.1.ne' (sub_pos.2 hx.2).ne'
  show h x * (1 - p x) / (x * (1 - x)) = q x
  rw [e x hx.1 hx.2, mul_div_assoc, div_self this, mul_one]

/-- The factor as Kim derives it: `16 w / (3 eps^2 a2)`. -/
noncomputable def kimFactor (epsilon well a2 : ℝ) : ℝ := 16 * well / (3 * epsilon * epsilon * a2)

theorem computes_p_poly {H : ℝ → ℝ} (hH : Computes (interpFunc 'p') H) (x : ℝ) (h0 : 0 < x) (h1 : x < 1) :
    H x = x ^ 3 * (10 - 15 * x + 6 * x ^ 2) := by
  have := hH x
  simp [interpFunc, clamp_of_mem h0.le h1.le] at this
  rw [← this]; ring

theorem computes_h_poly {H : ℝ → ℝ} (hH : Computes (interpFunc 'h') H) (x : ℝ) (h0 : 0 < x) (h1 : x < 1) :
    H x = x ^ 2 * (3 - 2 * x) := by
  have := hH x
  simp [interpFunc, clamp_of_mem h0.le h1.le] at this
  rw [← this]; ring

theorem computes_l_poly {H : ℝ → ℝ} (hH : Computes (interpFunc 'l') H) (x : ℝ) (h0 : 0 < x) (h1 : x < 1) :
    H x = x := by
  have := hH x
  simp [interpFunc, pos_of_nonneg h0.le, min_eq_right h1.le] at this
  exact this.symm

/-- **C74**: for PBG energy interpolation and linear concentration interpolation the factor is Kim's. -/
theorem c74_factor_pbg_partial (epsilon well : ℝ) (H P : ℝ → ℝ) (hH : Computes (interpFunc 'p') H)
    (hP : Computes (interpFunc 'l') P) :
    kksMobilityFactor .pbg epsilon well = some (kimFactor epsilon well (kimConstant H P)) := by
  have : kimConstant H P = 47 / 60 := by
    rw [kimConstant_poly (q := fun x => 10 * x ^ 2 - 15 * x ^ 3 + 6 * x ^ 4) fun x h0 h1 => by
      rw [computes_p_poly hH x h0 h1, computes_l_poly hP x h0 h1]; ring]
    rw [intervalIntegral.integral_add ((by fun_prop : Continuous _).intervalIntegrable _ _) ((by fun_prop : Continuous _).intervalIntegrable _ _),
      intervalIntegral.integral_sub ((by fun_prop : Continuous _).intervalIntegrable _ _) ((by fun_prop : Continuous _).intervalIntegrable _ _)]
    simp [integral_pow]
    norm_num
  rw [this]; rfl

/-- **C74** (violation): for harmonic energy interpolation the constant 0.5 is not the one of the formula, whatever the
concentration interpolation (linear: 5/6, harmonic: 19/30, PBG: 239/420). -/
theorem c74_violation_factor_harmonic (epsilon well : ℝ) (he : 0 < epsilon) (hw : 0 < well) (H P : ℝ → ℝ) (tc : Char)
    (htc : tc ∈ ['l', 'h', 'p']) (hH : Computes (interpFunc 'h') H) (hP : Computes (interpFunc tc) P) :
    kksMobilityFactor .harmonic epsilon well ≠ some (kimFactor epsilon well (kimConstant H P)) := by
  have key : ∀ a : ℝ, 0.5 < a → kksMobilityFactor .harmonic epsilon well ≠ some (kimFactor epsilon well a) := by
    intro a ha heq
    have h := Option.some_injective _ heq
    have hlt : 16 * well / (3 * epsilon * epsilon * a) < 16 * well / (3 * epsilon * epsilon * 0.5) := by
      apply div_lt_div_of_pos_left (by positivity) (by positivity)
      exact mul_lt_mul_of_pos_left ha (by positivity)
    unfold kimFactor at h
    linarith
  simp only [List.mem_cons, List.not_mem_nil, or_false] at htc
  rcases htc with rfl | rfl | rfl
  · have : kimConstant H P = 5 / 6 := by
      rw [kimConstant_poly (q := fun x => 3 * x - 2 * x ^ 2) fun x h0 h1 => by
        rw [computes_h_poly hH x h0 h1, computes_l_poly hP x h0 h1]; ring]
      have h := intervalIntegral.integral_eq_sub_of_hasDerivAt (a := 0) (b := 1)
        (f := fun x : ℝ => 3 / 2 * x ^ 2 - 2 / 3 * x ^ 3) (f' := fun x => 3 * x - 2 * x ^ 2)
        (fun x _ => (((hasDerivAt_pow 2 x).const_mul (3 / 2)).sub ((hasDerivAt_pow 3 x).const_mul (2 / 3))).congr_deriv
          (by push_cast; ring)) ((by fun_prop : Continuous _).intervalIntegrable _ _)
      rw [h]; norm_num
    rw [this]; exact key _ (by norm_num)
  · have : kimConstant H P = 19 / 30 := by
      rw [kimConstant_poly (q := fun x => 3 * x + x ^ 2 - 8 * x ^ 3 + 4 * x ^ 4) fun x h0 h1 => by
        rw [computes_h_poly hH x h0 h1, computes_h_poly hP x h0 h1]; ring]
      have h := intervalIntegral.integral_eq_sub_of_hasDerivAt (a := 0) (b := 1)
        (f := fun x : ℝ => 3 / 2 * x ^ 2 + 1 / 3 * x ^ 3 - 2 * x ^ 4 + 4 / 5 * x ^ 5)
        (f' := fun x => 3 * x + x ^ 2 - 8 * x ^ 3 + 4 * x ^ 4)
        (fun x _ => (((((hasDerivAt_pow 2 x).const_mul (3 / 2)).add ((hasDerivAt_pow 3 x).const_mul (1 / 3))).sub
          ((hasDerivAt_pow 4 x).const_mul 2)).add ((hasDerivAt_pow 5 x).const_mul (4 / 5))).congr_deriv
          (by push_cast; ring)) ((by fun_prop : Continuous _).intervalIntegrable _ _)
      rw [h]; norm_num
    rw [this]; exact key _ (by norm_num)
  · have : kimConstant H P = 239 / 420 := by
      rw [kimConstant_poly (q := fun x => 3 * x + x ^ 2 + x ^ 3 - 29 * x ^ 4 + 36 * x ^ 5 - 12 * x ^ 6) fun x h0 h1 => by
        rw [computes_h_poly hH x h0 h1, computes_p_poly hP x h0 h1]; ring]
      have h := intervalIntegral.integral_eq_sub_of_hasDerivAt (a := 0) (b := 1)
        (f := fun x : ℝ => 3 / 2 * x ^ 2 + 1 / 3 * x ^ 3 + 1 / 4 * x ^ 4 - 29 / 5 * x ^ 5 + 6 * x ^ 6 - 12 / 7 * x ^ 7)
        (f' := fun x => 3 * x + x ^ 2 + x ^ 3 - 29 * x ^ 4 + 36 * x ^ 5 - 12 * x ^ 6)
        (fun x _ => (((((((hasDerivAt_pow 2 x).const_mul (3 / 2)).add ((hasDerivAt_pow 3 x).const_mul (1 / 3))).add
          ((hasDerivAt_pow 4 x).const_mul (1 / 4))).sub ((hasDerivAt_pow 5 x).const_mul (29 / 5))).add
          ((hasDerivAt_pow 6 x).const_mul 6)).sub ((hasDerivAt_pow 7 x).const_mul (12 / 7))).congr_deriv
          (by push_cast; ring)) ((by fun_prop : Continuous _).intervalIntegrable _ _)
      rw [h]; norm_num
    rw [this]; exact key _ (by norm_num)

/-! ## C75 -/

theorem walkRow_spec (i j k te ci mo : ℤ) (m : ℕ) :
    (walkRow i j k te ci mo m).2 = (te + m, ci + m, mo + m) ∧
      (walkRow i j k te ci mo m).1 = (List.range m).map fun (a : ℕ) => ⟨i + a, j, k, te + a, ci + a, mo + a⟩ := by
  induction m generalizing i te ci mo with
  | zero => simp [walkRow]
  | succ m ih =>
    obtain ⟨h1, h2⟩ := ih (i + 1) (te + 1) (ci + 1) (mo + 1)
    refine ⟨?_, ?_⟩
    · rw [walkRow]
      simp only [h1]
      push_cast
      simp only [Prod.mk.injEq]
      refine ⟨by ring, by ring, by ring⟩
    · rw [walkRow]
      simp only [h2, List.range_succ_eq_map, List.map_cons, List.map_map, Nat.cast_zero, add_zero]
      congr 1
      refine List.map_congr_left fun a _ => ?_
      simp only [Function.comp, Nat.succ_eq_add_one, Nat.cast_add, Nat.cast_one, Visit.mk.injEq]
      refine ⟨by ring, trivial, trivial, by ring, by ring, by ring⟩

theorem walkPlane_spec (sT sC : ℤ) (nx : ℕ) (i0 j k te ci mo : ℤ) (m : ℕ) :
    (walkPlane sT sC nx i0 j k te ci mo m).2 = (te + m * (nx + sT), ci + m * (nx + sC), mo + m * nx) ∧
      (walkPlane sT sC nx i0 j k te ci mo m).1 = (List.range m).flatMap fun (b : ℕ) => (List.range nx).map fun (a : ℕ) =>
        ⟨i0 + a, j + b, k, te + b * (nx + sT) + a, ci + b * (nx + sC) + a, mo + b * nx + a⟩ := by
  induction m generalizing j te ci mo with
  | zero => simp [walkPlane]
  | succ m ih =>
    obtain ⟨r1, r2⟩ := walkRow_spec i0 j k te ci mo nx
    obtain ⟨h1, h2⟩ := ih (j + 1) (te + nx + sT) (ci + nx + sC) (mo + nx)
    refine ⟨?_, ?_⟩
    · rw [walkPlane]
      simp only [r1, h1]
      push_cast
      simp only [Prod.mk.injEq]
      refine ⟨by ring, by ring, by ring⟩
    · rw [walkPlane]
      simp only [r1, r2, h2, List.range_succ_eq_map, List.flatMap_cons, List.flatMap_map, Nat.cast_zero, zero_mul, add_zero]
      congr 1
      refine List.flatMap_congr fun b _ => ?_
      refine List.map_congr_left fun a _ => ?_
      simp only [Nat.succ_eq_add_one, Nat.cast_add, Nat.cast_one, Visit.mk.injEq]
      refine ⟨trivial, by ring, trivial, by ring, by ring, by ring⟩

theorem walkAll_spec (sT sC pT pC : ℤ) (nx ny : ℕ) (i0 j0 k te ci mo : ℤ) (m : ℕ) :
    walkAll sT sC pT pC nx ny i0 j0 k te ci mo m = (List.range m).flatMap fun (c : ℕ) => (List.range ny).flatMap fun (b : ℕ) =>
      (List.range nx).map fun (a : ℕ) =>
        ⟨i0 + a, j0 + b, k + c, te + c * (ny * (nx + sT) + pT) + b * (nx + sT) + a,
          ci + c * (ny * (nx + sC) + pC) + b * (nx + sC) + a, mo + c * (ny * nx) + b * nx + a⟩ := by
  induction m generalizing k te ci mo with
  | zero => simp [walkAll]
  | succ m ih =>
    obtain ⟨r1, r2⟩ := walkPlane_spec sT sC nx i0 j0 k te ci mo ny
    rw [walkAll]
    simp only [r1, r2, ih, List.range_succ_eq_map, List.flatMap_cons, List.flatMap_map, Nat.cast_zero, zero_mul, add_zero]
    congr 1
    refine List.flatMap_congr fun c _ => ?_
    refine List.flatMap_congr fun b _ => ?_
    refine List.map_congr_left fun a _ => ?_
    simp only [Nat.succ_eq_add_one, Nat.cast_add, Nat.cast_one, Visit.mk.injEq]
    refine ⟨trivial, trivial, by ring, by ring, by ring, by ring⟩

/-- **C75**: for every patch and all ghost widths, the update loop visits every cell of the mobility's ghost box exactly
once (in storage order) and reads temperature and phase concentrations of that very cell. -/
theorem c75_update_cells (b : Box3) (gT gC gM : ℕ) :
    (∀ v ∈ kimVisits b gT gC gM, v.te = offset b gT v.i v.j v.k ∧ v.ci = offset b gC v.i v.j v.k ∧
      v.mo = offset b gM v.i v.j v.k) ∧
    ∀ i j k : ℤ, (b.lo0 - gM ≤ i ∧ i < b.lo0 + b.n0 + gM) → (b.lo1 - gM ≤ j ∧ j < b.lo1 + b.n1 + gM) →
      (b.lo2 - gM ≤ k ∧ k < b.lo2 + b.n2 + gM) → ∃ v ∈ kimVisits b gT gC gM, v.i = i ∧ v.j = j ∧ v.k = k := by
  unfold kimVisits
  simp only [walkAll_spec]
  refine ⟨fun v hv => ?_, fun i j k hi hj hk => ?_⟩
  · simp only [List.mem_flatMap, List.mem_map, List.mem_range] at hv
    obtain ⟨c, -, q, -, a, -, rfl⟩ := hv
    unfold offset
    push_cast
    refine ⟨by ring, by ring, by ring⟩
  · refine ⟨_, List.mem_flatMap.2 ⟨(k - (b.lo2 - gM)).toNat, List.mem_range.2 (by omega), List.mem_flatMap.2
      ⟨(j - (b.lo1 - gM)).toNat, List.mem_range.2 (by omega), List.mem_map.2
        ⟨(i - (b.lo0 - gM)).toNat, List.mem_range.2 (by omega), rfl⟩⟩⟩, ?_, ?_, ?_⟩ <;> simp only <;> omega

/-- **C75**: the values are stored consecutively and the number of evaluations is the size of the mobility array. -/
theorem c75_update_count (b : Box3) (gT gC gM : ℕ) :
    (kimVisits b gT gC gM).map Visit.mo =
      (List.range ((b.n2 + 2 * gM) * ((b.n1 + 2 * gM) * (b.n0 + 2 * gM)))).map fun (a : ℕ) => (a : ℤ) := by
  have row : ∀ (m : ℕ) (o : ℕ) (nx : ℕ), (List.range m).flatMap (fun b => (List.range nx).map fun a => o + (b * nx + a)) =
      (List.range (m * nx)).map fun a => o + a := by
    intro m o nx
    induction m with
    | zero => simp
    | succ m ih =>
      rw [List.range_succ, List.flatMap_append, ih, Nat.succ_mul, List.range_add, List.map_append]
      simp [List.map_map, Function.comp_def]
  unfold kimVisits
  simp only [walkAll_spec, List.map_flatMap, List.map_map, Function.comp_def]
  generalize b.n0 + 2 * gM = nx
  generalize b.n1 + 2 * gM = ny
  generalize b.n2 + 2 * gM = nz
  have e1 : ∀ c : ℕ, (List.range ny).flatMap (fun (q : ℕ) => (List.range nx).map fun (a : ℕ) =>
      (0 + (c : ℤ) * ((ny : ℤ) * nx) + (q : ℤ) * nx + a)) = (List.range (ny * nx)).map fun (a : ℕ) => ((0 + (c * (ny * nx) + a) : ℕ) : ℤ) := by
    intro c
    have := congrArg (List.map fun (a : ℕ) => (a : ℤ)) (row ny (c * (ny * nx)) nx)
    simp only [List.map_flatMap, List.map_map, Function.comp_def] at this
    simp only [zero_add]
    rw [← this]
    refine List.flatMap_congr fun q _ => List.map_congr_left fun a _ => ?_
    push_cast
    ring
  simp only [e1]
  have := congrArg (List.map fun (a : ℕ) => (a : ℤ)) (row nz 0 (ny * nx))
  simp only [List.map_flatMap, List.map_map, Function.comp_def, zero_add] at this ⊢
  rw [← this]

/-- **C75** (limit): the order parameters are read at the concentration offset, so they belong to the same cell exactly when
both arrays have the same ghost width (or the offsets coincide by accident). -/
theorem c75_phi_cell (b : Box3) (gT gC gM gP : ℕ) (h : gP = gC) :
    ∀ v ∈ kimVisits b gT gC gM, v.ci = offset b gP v.i v.j v.k := by
  subst h
  exact fun v hv => ((c75_update_cells b gT gP gM).1 v hv).2.1

/-- A patch of 4 x 3 x 2 cells, ghost widths 2 (temperature), 1 (concentrations), 1 (mobility). -/
example : (kimVisits ⟨0, 0, 0, 4, 3, 2⟩ 2 1 1).length = 4 * 5 * 6 := by decide +kernel

end AMPE.Alloy.Props
