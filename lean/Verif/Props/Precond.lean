import Verif.Model.Precond
import Verif.Props.Functions
import Mathlib.Analysis.Calculus.Deriv.Add
import Mathlib.Analysis.Calculus.Deriv.Mul
import Mathlib.Analysis.Calculus.Deriv.Comp
import Mathlib.Tactic.Linarith
import Mathlib.Tactic.Ring
import Mathlib.Tactic.NormNum
import Mathlib.Tactic.FieldSimp
import Mathlib.Tactic.LinearCombination

/-! # C80: the preconditioner blocks are the linearised implicit step -/

namespace AMPE.Precond.Props

open AMPE.Functions AMPE.Functions.Props AMPE.Flux AMPE.PhaseRHS AMPE.Smoother AMPE.LevelSolve AMPE.Precond AMPE.Thermal

/-! ## Specification -/

/-- Five-point Laplacian, written independently of the routines. -/
noncomputable def lap (dx dy : ℝ) (u : ℤ × ℤ → ℝ) (p : ℤ × ℤ) : ℝ :=
  (u (p.1 + 1, p.2) - 2 * u p + u (p.1 - 1, p.2)) / dx ^ 2 + (u (p.1, p.2 + 1) - 2 * u p + u (p.1, p.2 - 1)) / dy ^ 2

/-- A field of pairs as a field of two indices. -/
def cur (u : ℤ × ℤ → ℝ) : Field2 := fun i j => u (i, j)

/-- The rate of the order parameter computed by the program for the fields `phi`, `fl`, `fa`: mobility times the
phase right-hand side (`none` if the program stops). -/
noncomputable def rate (interp : Char) (eps scale dx dy : ℝ) (M fl fa phi : ℤ × ℤ → ℝ) (p : ℤ × ℤ) : Option ℝ :=
  (phaseRate2 interp scale dx dy (gradFluxX eps dx (cur phi)) (gradFluxY eps dy (cur phi)) (cur fl) (cur fa) (cur phi) p.1 p.2).map
    (M p * ·)

/-- The rate of the temperature computed by the program from the rate `f` of the order parameter. -/
noncomputable def tempRate (dx dy diff L : ℝ) (cp T f : ℤ × ℤ → ℝ) (p : ℤ × ℤ) : ℝ :=
  rhsTemp2 dx dy diff L true (cur T) (cur cp) (cur f) p.1 p.2

/-- `u + s v`. -/
def along (u v : ℤ × ℤ → ℝ) (s : ℝ) : ℤ × ℤ → ℝ := fun p => u p + s * v p

/-! ## The operators -/

theorem coef_residual (K : Coef2) (a b : ℝ) (hx : K.fx = K.dx) (hy : K.fy = K.dy) (h1 : K.xdc = fun _ => a) (h2 : K.ydc = fun _ => a)
    (u : ℤ × ℤ → ℝ) (p : ℤ × ℤ) (hb : b = a) :
    K.levelResidual u p = K.rhs p - K.m p * (b * lap K.dx K.dy u p) - K.sf p * u p := by
  subst hb
  simp only [Coef2.levelResidual, Coef2.residual, Coef2.xflux, Coef2.yflux, hx, hy, h1, h2, lap, add_sub_cancel_right,
    div_eq_mul_inv, one_mul, pow_two, mul_inv]
  ring

theorem phase_residual (dx dy eps gamma : ℝ) (M C r z : ℤ × ℤ → ℝ) (p : ℤ × ℤ) :
    (phaseCoef dx dy eps gamma M C r).levelResidual z p = r p - (C p * z p - gamma * M p * (eps ^ 2 * lap dx dy z p)) := by
  rw [coef_residual _ (-gamma * eps * eps) _ rfl rfl rfl rfl z p rfl]
  simp only [phaseCoef]
  ring

theorem temp_residual (dx dy diff gamma : ℝ) (r z : ℤ × ℤ → ℝ) (p : ℤ × ℤ) :
    (tempCoef dx dy diff gamma r).levelResidual z p = r p - (z p - gamma * (diff * lap dx dy z p)) := by
  rw [coef_residual _ (-gamma * diff) _ rfl rfl rfl rfl z p rfl]
  simp only [tempCoef]
  ring

theorem block_product (dx dy eps latent : ℝ) (M cp C z : ℤ × ℤ → ℝ) (p : ℤ × ℤ) :
    timesDTDPhi (phaseTempCoef dx dy eps latent M cp C) z p = M p / cp p * (latent * eps ^ 2 * lap dx dy z p) - C p * z p := by
  have h := coef_residual (phaseTempCoef dx dy eps latent M cp C) (-latent * eps * eps) _ rfl rfl rfl rfl z p rfl
  have e : timesDTDPhi (phaseTempCoef dx dy eps latent M cp C) z p = (phaseTempCoef dx dy eps latent M cp C).levelResidual z p := by
    simp only [timesDTDPhi, accumOp, Coef2.levelResidual, Coef2.residual, phaseTempCoef]
  rw [e, h]
  simp only [phaseTempCoef]
  ring

theorem rate_eq (interp : Char) (eps scale dx dy : ℝ) (M fl fa phi : ℤ × ℤ → ℝ) (p : ℤ × ℤ) (h : ℝ)
    (hh : derivInterpFunc interp (phi p) = some h) :
    rate interp eps scale dx dy M fl fa phi p =
      some (M p * (eps ^ 2 * lap dx dy phi p - scale * (32 * phi p * (1 - phi p) * (1 - 2 * phi p)) + h * (fl p - fa p))) := by
  obtain ⟨i, j⟩ := p
  have hh' : derivInterpFunc interp (cur phi i j) = some h := hh
  simp only [rate, phaseRate2, pbgCell, derivWellFunc, if_true, Option.bind_eq_bind, Option.bind_some, fenergyCell,
    Bool.false_eq_true, if_false, hh', Option.map_some]
  congr 2
  simp only [cur, div2, gradFluxX, gradFluxY, lap, add_sub_cancel_right, div_eq_mul_inv, one_mul, pow_two, mul_inv]
  ring

theorem tempRate_eq (dx dy diff L : ℝ) (cp T f : ℤ × ℤ → ℝ) (p : ℤ × ℤ) :
    tempRate dx dy diff L cp T f p = diff * lap dx dy T p + L / cp p * f p := by
  simp only [tempRate, rhsTemp2, if_true, laplacian2, cur, lap, div_eq_mul_inv, one_mul, pow_two, mul_inv]
  ring

theorem lap_along (dx dy : ℝ) (u v : ℤ × ℤ → ℝ) (s : ℝ) (p : ℤ × ℤ) :
    lap dx dy (along u v s) p = lap dx dy u p + s * lap dx dy v p := by
  simp only [lap, along]
  ring

theorem line_deriv (a b : ℝ) : HasDerivAt (fun s : ℝ => a + s * b) b 0 :=
  (((hasDerivAt_id' (0 : ℝ)).mul_const b).const_add a).congr_deriv (by ring)

theorem well_line (a b : ℝ) :
    HasDerivAt (fun s : ℝ => 32 * (a + s * b) * (1 - (a + s * b)) * (1 - 2 * (a + s * b))) (32 * (1 + 6 * a * (a - 1)) * b) 0 := by
  have h := line_deriv a b
  have := ((h.const_mul 32).mul (h.const_sub 1)).mul ((h.const_mul 2).const_sub 1)
  exact this.congr_deriv (by simp; ring)

/-! ## Theorems -/

/-- The derivative of the program's phase rate along a correction `z` (the driving force `fl - fa` held fixed, `h2` the
second derivative of the interpolation function at the current value). -/
theorem rate_deriv (interp : Char) (eps scale dx dy : ℝ) (M fl fa phi z : ℤ × ℤ → ℝ) (p : ℤ × ℤ) (h : ℝ → ℝ) (h2 : ℝ)
    (hh : ∀ x, derivInterpFunc interp x = some (h x)) (hd : HasDerivAt h h2 (phi p)) (f : ℝ → ℝ)
    (hf : ∀ s, rate interp eps scale dx dy M fl fa (along phi z s) p = some (f s)) :
    HasDerivAt f (M p * (eps ^ 2 * lap dx dy z p - scale * (32 * (1 + 6 * phi p * (phi p - 1)) * z p)
      + h2 * z p * (fl p - fa p))) 0 := by
  have e : f = fun s => M p * ((eps ^ 2 * (lap dx dy phi p + s * lap dx dy z p))
      - scale * (32 * (phi p + s * z p) * (1 - (phi p + s * z p)) * (1 - 2 * (phi p + s * z p)))
      + h (phi p + s * z p) * (fl p - fa p)) := by
    funext s
    have h1 := hf s
    rw [rate_eq interp eps scale dx dy M fl fa _ p _ (hh _), lap_along] at h1
    exact (Option.some.inj h1).symm
  have hd0 : HasDerivAt h h2 (phi p + 0 * z p) := by rw [zero_mul, add_zero]; exact hd
  have hc : HasDerivAt (fun s : ℝ => h (phi p + s * z p)) (h2 * z p) 0 :=
    HasDerivAt.comp (h₂ := h) (h := fun s : ℝ => phi p + s * z p) 0 hd0 (line_deriv (phi p) (z p))
  rw [e]
  have := ((((line_deriv (lap dx dy phi p) (lap dx dy z p)).const_mul (eps ^ 2)).sub ((well_line (phi p) (z p)).const_mul scale)).add
    (hc.mul_const (fl p - fa p))).const_mul (M p)
  exact this.congr_deriv (by ring)

/-- **C80** (phase block): a correction with zero residual solves the linearised implicit step
`d/ds [phi + s z - gamma * rate(phi + s z)] = r`, for the rate without driving force, at every mobility field. -/
theorem c80_phase (interp : Char) (eps scale dx dy gamma : ℝ) (M C f phi r z : ℤ × ℤ → ℝ) (cells : Set (ℤ × ℤ))
    (h : ℝ → ℝ) (hh : ∀ x, derivInterpFunc interp x = some (h x)) (hd : ∀ p ∈ cells, DifferentiableAt ℝ h (phi p))
    (hC : ∀ p, phaseC 'd' gamma (M p) scale (phi p) = some (C p)) (hs : PhaseSolved dx dy eps gamma M C cells r z)
    (p : ℤ × ℤ) (hp : p ∈ cells) (F : ℝ → ℝ) (hF : ∀ s, rate interp eps scale dx dy M f f (along phi z s) p = some (F s)) :
    HasDerivAt (fun s => along phi z s p - gamma * F s) (r p) 0 := by
  have h1 := rate_deriv interp eps scale dx dy M f f phi z p h _ hh (hd p hp).hasDerivAt F hF
  have h2 := hs p hp
  rw [phase_residual] at h2
  have h3 := hC p
  simp only [phaseC, secondDerivWellFunc, if_true, Option.bind_eq_bind, Option.bind_some, Option.some.injEq] at h3
  have h4 := (line_deriv (phi p) (z p)).sub (h1.const_mul gamma)
  refine h4.congr_deriv ?_
  rw [← h3] at h2
  norm_num at h2
  linear_combination -h2

/-- With a driving force, the block leaves out its derivative, and nothing else. -/
theorem c80_phase_driving_force (interp : Char) (eps scale dx dy gamma : ℝ) (M C fl fa phi r z : ℤ × ℤ → ℝ) (cells : Set (ℤ × ℤ))
    (h : ℝ → ℝ) (h2 : ℝ) (hh : ∀ x, derivInterpFunc interp x = some (h x)) (p : ℤ × ℤ) (hp : p ∈ cells) (hd : HasDerivAt h h2 (phi p))
    (hC : ∀ p, phaseC 'd' gamma (M p) scale (phi p) = some (C p)) (hs : PhaseSolved dx dy eps gamma M C cells r z)
    (F : ℝ → ℝ) (hF : ∀ s, rate interp eps scale dx dy M fl fa (along phi z s) p = some (F s)) :
    HasDerivAt (fun s => along phi z s p - gamma * F s) (r p - gamma * M p * h2 * (fl p - fa p) * z p) 0 := by
  have h1 := rate_deriv interp eps scale dx dy M fl fa phi z p h _ hh hd F hF
  have h2 := hs p hp
  rw [phase_residual] at h2
  have h3 := hC p
  simp only [phaseC, secondDerivWellFunc, if_true, Option.bind_eq_bind, Option.bind_some, Option.some.injEq] at h3
  have h4 := (line_deriv (phi p) (z p)).sub (h1.const_mul gamma)
  refine h4.congr_deriv ?_
  rw [← h3] at h2
  norm_num at h2
  linear_combination -h2

/-- **C80** (violation): with another well the operator still uses the second derivative of that well, while the rate
always uses the double well; the error is proportional to the difference of the two. -/
theorem c80_violation_single_well (interp : Char) (eps scale dx dy gamma : ℝ) (M C f phi r z : ℤ × ℤ → ℝ) (cells : Set (ℤ × ℤ))
    (h : ℝ → ℝ) (hh : ∀ x, derivInterpFunc interp x = some (h x)) (hd : ∀ p ∈ cells, DifferentiableAt ℝ h (phi p))
    (hC : ∀ p, phaseC 's' gamma (M p) scale (phi p) = some (C p)) (hs : PhaseSolved dx dy eps gamma M C cells r z)
    (p : ℤ × ℤ) (hp : p ∈ cells) (F : ℝ → ℝ) (hF : ∀ s, rate interp eps scale dx dy M f f (along phi z s) p = some (F s)) :
    HasDerivAt (fun s => along phi z s p - gamma * F s)
      (r p + gamma * M p * scale * (32 * (1 + 6 * phi p * (phi p - 1)) - 2) * z p) 0 := by
  have h1 := rate_deriv interp eps scale dx dy M f f phi z p h _ hh (hd p hp).hasDerivAt F hF
  have h2 := hs p hp
  rw [phase_residual] at h2
  have h3 := hC p
  simp only [phaseC, secondDerivWellFunc, Option.bind_eq_bind, show ('s' : Char) ≠ 'd' by decide, if_false, if_true,
    Option.bind_some, Option.some.injEq] at h3
  have h4 := (line_deriv (phi p) (z p)).sub (h1.const_mul gamma)
  refine h4.congr_deriv ?_
  rw [← h3] at h2
  norm_num at h2
  linear_combination -h2

/-- **C80** (both blocks): with `precond_has_dTdphi`, the two solves together give the solution of the linearised implicit
step of the coupled system: along the correction `(zphi, zT)` the derivative of `y - gamma * rate(y)` is the right-hand
side, in both components. -/
theorem c80_coupled (interp : Char) (eps scale dx dy diff L gamma : ℝ) (M cp C CT f phi T rphi rT zphi zT : ℤ × ℤ → ℝ)
    (cells : Set (ℤ × ℤ)) (h : ℝ → ℝ) (hh : ∀ x, derivInterpFunc interp x = some (h x))
    (hd : ∀ p ∈ cells, DifferentiableAt ℝ h (phi p)) (hC : ∀ p, phaseC 'd' gamma (M p) scale (phi p) = some (C p))
    (hCT : ∀ p, phaseTempC 'd' L (M p / cp p) scale (phi p) = some (CT p))
    (h1 : PhaseSolved dx dy eps gamma M C cells rphi zphi)
    (h2 : TempSolved dx dy diff gamma (phaseTempCoef dx dy eps L M cp CT) cells rT zphi zT)
    (p : ℤ × ℤ) (hp : p ∈ cells) (F : ℝ → ℤ × ℤ → ℝ)
    (hF : ∀ s q, rate interp eps scale dx dy M f f (along phi zphi s) q = some (F s q)) :
    HasDerivAt (fun s => along phi zphi s p - gamma * F s p) (rphi p) 0 ∧
      HasDerivAt (fun s => along T zT s p - gamma * tempRate dx dy diff L cp (along T zT s) (F s) p) (rT p) 0 := by
  refine ⟨c80_phase interp eps scale dx dy gamma M C f phi rphi zphi cells h hh hd hC h1 p hp (fun s => F s p) (fun s => hF s p), ?_⟩
  have d1 := rate_deriv interp eps scale dx dy M f f phi zphi p h _ hh (hd p hp).hasDerivAt (fun s => F s p) (fun s => hF s p)
  have e2 := h2 p hp
  rw [temp_residual, block_product] at e2
  have e3 := hCT p
  simp only [phaseTempC, secondDerivWellFunc, if_true, Option.bind_eq_bind, Option.bind_some, Option.some.injEq] at e3
  rw [← e3] at e2
  have e4 : (fun s => along T zT s p - gamma * tempRate dx dy diff L cp (along T zT s) (F s) p) =
      fun s => (T p + s * zT p) - gamma * (diff * (lap dx dy T p + s * lap dx dy zT p) + L / cp p * F s p) := by
    funext s
    rw [tempRate_eq, lap_along]
    rfl
  rw [e4]
  have d2 := (line_deriv (T p) (zT p)).sub ((((line_deriv (lap dx dy T p) (lap dx dy zT p)).const_mul diff).add
    (d1.const_mul (L / cp p))).const_mul gamma)
  refine d2.congr_deriv ?_
  simp only [div_eq_mul_inv] at e2 ⊢
  linear_combination -e2

/-- Without the coupling block, the temperature solve is exact for a frozen order parameter. -/
theorem c80_temperature (dx dy diff L gamma : ℝ) (cp T f r z : ℤ × ℤ → ℝ) (cells : Set (ℤ × ℤ))
    (hs : TempSolvedPlain dx dy diff gamma cells r z) (p : ℤ × ℤ) (hp : p ∈ cells) :
    HasDerivAt (fun s => along T z s p - gamma * tempRate dx dy diff L cp (along T z s) f p) (r p) 0 := by
  have e2 := hs p hp
  rw [temp_residual] at e2
  have e4 : (fun s => along T z s p - gamma * tempRate dx dy diff L cp (along T z s) f p) =
      fun s => (T p + s * z p) - gamma * (diff * (lap dx dy T p + s * lap dx dy z p) + L / cp p * f p) := by
    funext s
    rw [tempRate_eq, lap_along]
    rfl
  rw [e4]
  have d2 := (line_deriv (T p) (z p)).sub ((((line_deriv (lap dx dy T p) (lap dx dy z p)).const_mul diff).add_const
    (L / cp p * f p)).const_mul gamma)
  refine d2.congr_deriv ?_
  linear_combination -e2

/-- **C80** (violation): the coupling block fills the ghost cells of the phase correction with the boundary condition of
the temperature (source/QuatIntegrator.cc:1881).  At the left boundary face of a cell, with coefficients `aphi` and `aT` of the
two (homogeneous) conditions, the product differs from the one with the phase condition by this term. -/
theorem c80_violation_boundary (dx dy eps L : ℝ) (M cp C z w : ℤ × ℤ → ℝ) (p : ℤ × ℤ) (aphi aT : ℝ)
    (hin : w p = z p) (hE : w (p.1 + 1, p.2) = z (p.1 + 1, p.2)) (hS : w (p.1, p.2 - 1) = z (p.1, p.2 - 1))
    (hN : w (p.1, p.2 + 1) = z (p.1, p.2 + 1)) (hz : z (p.1 - 1, p.2) = k1 aphi dx * z p) (hw : w (p.1 - 1, p.2) = k1 aT dx * z p) :
    timesDTDPhi (phaseTempCoef dx dy eps L M cp C) w p - timesDTDPhi (phaseTempCoef dx dy eps L M cp C) z p =
      M p / cp p * (L * eps ^ 2 / dx ^ 2) * ((k1 aT dx - k1 aphi dx) * z p) := by
  rw [block_product, block_product]
  simp only [lap, hin, hE, hS, hN, hz, hw]
  ring

/-- A no-flux condition for the phase and a fixed temperature at the same face: the ghost value of the correction has the
wrong sign, and the product is off by `-2 L M eps^2/(cp dx^2)` times the correction. -/
theorem c80_violation_fixed_temperature (dx dy eps L : ℝ) (hx : 0 < dx) (M cp C z w : ℤ × ℤ → ℝ) (p : ℤ × ℤ)
    (hin : w p = z p) (hE : w (p.1 + 1, p.2) = z (p.1 + 1, p.2)) (hS : w (p.1, p.2 - 1) = z (p.1, p.2 - 1))
    (hN : w (p.1, p.2 + 1) = z (p.1, p.2 + 1)) (hz : z (p.1 - 1, p.2) = k1 0 dx * z p) (hw : w (p.1 - 1, p.2) = k1 1 dx * z p) :
    timesDTDPhi (phaseTempCoef dx dy eps L M cp C) w p - timesDTDPhi (phaseTempCoef dx dy eps L M cp C) z p =
      -2 * (M p / cp p * (L * eps ^ 2 / dx ^ 2)) * z p := by
  rw [c80_violation_boundary dx dy eps L M cp C z w p 0 1 hin hE hS hN hz hw]
  have e1 : k1 0 dx = 1 := by simp [k1]
  have e2 : k1 1 dx = -1 := by
    unfold k1
    rw [div_eq_iff]
    · ring
    · linarith
  rw [e1, e2]
  ring

/-- The hypotheses are met with a correction `z` that is not zero (a single cell of an infinite field). -/
example : ∃ (C r z : ℤ × ℤ → ℝ), (∀ p, phaseC 'd' 1 (2 : ℝ) 3 ((fun _ => 1 / 2 : ℤ × ℤ → ℝ) p) = some (C p)) ∧
    PhaseSolved 1 1 1 1 (fun _ => 2) C Set.univ r z ∧ z (0, 0) ≠ 0 := by
  obtain ⟨c, hc⟩ : ∃ c, phaseC 'd' 1 (2 : ℝ) 3 (1 / 2) = some c := ⟨_, rfl⟩
  refine ⟨fun _ => c, fun p => c * (if p = (0, 0) then 1 else 0) - 1 * 2 * (1 ^ 2 * lap 1 1 (fun p => if p = (0, 0) then 1 else 0) p),
    fun p => if p = (0, 0) then 1 else 0, fun _ => hc, ?_, ?_⟩
  · intro p _
    rw [phase_residual]
    exact sub_self _
  · simp

/-- The interpolation `p` is computed everywhere and differentiable. -/
example (x : ℝ) : ∃ h : ℝ → ℝ, (∀ x, derivInterpFunc 'p' x = some (h x)) ∧ DifferentiableAt ℝ h x := by
  obtain ⟨F, d, h1, _, h3⟩ := c11_second_partial 'p' x (Or.inl rfl)
  exact ⟨F, h1, h3.differentiableAt⟩

end AMPE.Precond.Props
