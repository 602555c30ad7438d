import Verif.Model.QuatPrecond
import Verif.Props.Functions
import Verif.Props.OrientSolve
import Mathlib.Analysis.Calculus.Deriv.Add
import Mathlib.Analysis.Calculus.Deriv.Mul
import Mathlib.Analysis.Calculus.Deriv.Comp
import Mathlib.Tactic.Linarith
import Mathlib.Tactic.Ring
import Mathlib.Tactic.NormNum
import Mathlib.Tactic.FieldSimp
import Mathlib.Tactic.LinearCombination

/-! # C100: the orientation block of the preconditioner and the order of the blocks -/

namespace AMPE.QuatPrecond.Props

open AMPE.Functions AMPE.Functions.Props AMPE.Quat AMPE.Tagging AMPE.QuatFlow AMPE.OrientSolve AMPE.LevelSolve AMPE.QuatPrecond

/-! ## Specification -/

/-- Divergence of `k` times the gradient of `q` with face coefficients `kx` (west faces) and `ky` (south faces). -/
noncomputable def divK (hx hy : ℝ) (kx ky q : Cell → ℝ) (c : Cell) : ℝ :=
  (kx (c.1 + 1, c.2) * ((q (c.1 + 1, c.2) - q c) / hx) - kx c * ((q c - q (c.1 - 1, c.2)) / hx)) / hx
    + (ky (c.1, c.2 + 1) * ((q (c.1, c.2 + 1) - q c) / hy) - ky c * ((q c - q (c.1, c.2 - 1)) / hy)) / hy

/-- The rate of one orientation component, before projection: mobility times the divergence of diffusion coefficient (`-fc`)
times gradient. -/
noncomputable def rate (hx hy : ℝ) (M : Cell → ℝ) (fc : Off) (q : Cell → ℝ) (c : Cell) : ℝ :=
  M c * divK hx hy (fun p => -fc.x p) (fun p => -fc.y p) q c

/-- `u + s v`. -/
def along (u v : Cell → ℝ) (s : ℝ) : Cell → ℝ := fun c => u c + s * v c

/-- The program's operator (`add_quat_op2d` on the fluxes of `compute_flux2d`) is the rate. -/
theorem addOp_rate (hx hy : ℝ) (M : Cell → ℝ) (fc : Off) (q : Cell → ℝ) (r : ℝ) (c : Cell) :
    addOp hx hy M (fluxX hx fc.x q) (fluxY hy fc.y q) r c = r + rate hx hy M fc q c := by
  simp only [addOp, fluxX, fluxY, rate, divK, add_sub_cancel_right, div_eq_mul_inv, one_mul]
  ring

/-! ## The solve -/

/-- The coefficients are refused exactly when a cell has a mobility that is not positive. -/
theorem c100_gate (hx hy gamma : ℝ) (cells : Finset Cell) (M : Cell → ℝ) (fc : Off) :
    setCoefs hx hy gamma cells M fc = none ↔ ∃ c ∈ cells, M c ≤ 0 := by
  unfold setCoefs
  by_cases h : ∃ c ∈ cells, M c ≤ 0 <;> simp [h]

/-- The correction returned solves `z - gamma * rate(z) = rhs`, although the system solved inside is the one symmetrised by the
square root of the mobility. -/
theorem c100_solves (hx hy gamma : ℝ) (cells : Finset Cell) (M : Cell → ℝ) (fc : Off) (L : QuatLevel) (rhs z : Cell → ℝ)
    (hL : setCoefs hx hy gamma cells M fc = some L) (hz : Solved L cells rhs z) (c : Cell) (hc : c ∈ cells) :
    z c - gamma * rate hx hy M fc z c = rhs c := by
  have hpos : ∀ p ∈ cells, 0 < M p := by
    intro p hp
    by_contra hn
    have : setCoefs hx hy gamma cells M fc = none := (c100_gate ..).2 ⟨p, hp, not_lt.1 hn⟩
    rw [this] at hL; exact absurd hL (by simp)
  unfold setCoefs at hL
  rw [if_neg (by rintro ⟨p, hp, h⟩; exact absurd (hpos p hp) (not_lt.2 h))] at hL
  obtain rfl := (Option.some.inj hL).symm
  obtain ⟨u, hu, hz⟩ := hz
  have h := hu c hc
  have hm : Real.sqrt (M c) ≠ 0 := (Real.sqrt_pos.2 (hpos c hc)).ne'
  have hsq : Real.sqrt (M c) * Real.sqrt (M c) = M c := Real.mul_self_sqrt (hpos c hc).le
  have hz' : ∀ p, Real.sqrt (M p) * u p = z p := fun p => by rw [hz p]; ring
  simp only [QuatLevel.residual, QuatLevel.fx, QuatLevel.fy, hz', add_sub_cancel_right] at h
  have h2 : rhs c / Real.sqrt (M c) * Real.sqrt (M c) = rhs c := div_mul_cancel₀ _ hm
  have h3 : u c * Real.sqrt (M c) = z c := (hz c).symm
  simp only [rate, divK, div_eq_mul_inv]
  have h4 := congrArg (· * Real.sqrt (M c)) h
  simp only [zero_mul, sub_mul, h2, h3] at h4
  rw [← hsq]
  simp only [one_div] at h4
  linear_combination (-1) * h4

/-- In other words the derivative of `q - gamma * rate(q)` in the direction of the correction is the right-hand side, for the
mobility and diffusion coefficients of the current state. -/
theorem c100_linearised (hx hy gamma : ℝ) (cells : Finset Cell) (M : Cell → ℝ) (fc : Off) (L : QuatLevel) (rhs q z : Cell → ℝ)
    (hL : setCoefs hx hy gamma cells M fc = some L) (hz : Solved L cells rhs z) (c : Cell) (hc : c ∈ cells) :
    HasDerivAt (fun s => along q z s c - gamma * addOp hx hy M (fluxX hx fc.x (along q z s)) (fluxY hy fc.y (along q z s)) 0 c)
      (rhs c) 0 := by
  have h := c100_solves hx hy gamma cells M fc L rhs z hL hz c hc
  have e : (fun s => along q z s c - gamma * addOp hx hy M (fluxX hx fc.x (along q z s)) (fluxY hy fc.y (along q z s)) 0 c)
      = fun s => (q c - gamma * rate hx hy M fc q c) + s * rhs c := by
    funext s
    rw [addOp_rate, ← h]
    simp only [along, rate, divK, div_eq_mul_inv]
    ring
  rw [e]
  have := ((hasDerivAt_id (0 : ℝ)).mul_const (rhs c)).const_add (q c - gamma * rate hx hy M fc q c)
  exact this.congr_deriv (by ring)

/-- The system solved is the one with no dependence on the phase when the coupling is off. -/
theorem c100_uncoupled (gamma : ℝ) (product r : Cell → ℝ) : quatRhs false gamma product r = r := by
  funext c; simp [quatRhs]

/-! ## The coupling to the phase correction -/

theorem face_deriv {n : ℕ} (P : CoefParams) (hP : P.avg = 'a') (a b za zb ta tb : ℝ) (gx gy : QVec n)
    (ha : threshold ≤ a) (hb : threshold ≤ b)
    (h1 : ReportsDerivAt (derivInterpFunc P.interp1) (interpFunc P.interp1) (0.5 * (a + b)))
    (h2 : ReportsDerivAt (derivInterpFunc P.interp2) (interpFunc P.interp2) (0.5 * (a + b)))
    (f : ℝ → ℝ) (d : ℝ × ℝ) (e : ℝ) (hf : ∀ s, faceCoef P (a + s * za) (b + s * zb) ta tb gx gy = some (f s))
    (hd : coefDeriv P a b ta tb gx gy = some d) (he : derivInterpFunc P.interp2 (0.5 * (a + b)) = some e) :
    HasDerivAt f (coupleCoef d za zb - P.epsQ * P.epsQ * (e * (0.5 * (za + zb)))) 0 := by
  obtain ⟨F1, d1, c1, r1, k1⟩ := h1
  obtain ⟨F2, d2, c2, r2, k2⟩ := h2
  obtain rfl : d2 = e := by rw [r2] at he; exact Option.some.inj he
  unfold coefDeriv at hd
  rw [if_neg (by push Not; exact ⟨ha, hb⟩)] at hd
  simp only [averageFunc, hP, if_true, r1, derivAverageFunc, Option.bind_eq_bind, Option.bind_some] at hd
  cases hg : evalGradNormi P.floorType (acc (fun m => gx m ^ 2) + acc (fun m => gy m ^ 2)) (P.gradientFloor ^ 2)
      (1 / P.gradientFloor) with
  | none => rw [hg] at hd; simp at hd
  | some gi =>
    rw [hg] at hd
    simp only [Option.bind_some, Option.some.injEq] at hd
    have hfs : f = fun s => -gi * (P.misorientation * (0.5 * (ta + tb)) * F1 (0.5 * (a + s * za + (b + s * zb))))
        - P.epsQ * P.epsQ * F2 (0.5 * (a + s * za + (b + s * zb))) := by
      funext s
      have := hf s
      simp only [faceCoef, averageFunc, hP, if_true, Option.bind_eq_bind, Option.bind_some, c1 _, c2 _, hg,
        Option.some.injEq] at this
      exact this.symm
    have hl : HasDerivAt (fun s : ℝ => 0.5 * (a + s * za + (b + s * zb))) (0.5 * (za + zb)) 0 := by
      have := ((((hasDerivAt_id (0 : ℝ)).mul_const za).const_add a).add
        (((hasDerivAt_id (0 : ℝ)).mul_const zb).const_add b)).const_mul 0.5
      exact this.congr_deriv (by ring)
    have hz : (0.5 * (a + b) : ℝ) = 0.5 * (a + 0 * za + (b + 0 * zb)) := by ring
    rw [hz] at k1 k2
    have e1 := HasDerivAt.comp (0 : ℝ) k1 hl
    have e2 := HasDerivAt.comp (0 : ℝ) k2 hl
    have e3 := ((e1.const_mul (P.misorientation * (0.5 * (ta + tb)))).const_mul (-gi)).sub (e2.const_mul (P.epsQ * P.epsQ))
    rw [hfs]
    refine e3.congr_deriv ?_
    rw [← hd]
    simp only [coupleCoef]
    ring

/-- Everything the coupling is computed from at phase `phi`, temperature `T`, orientation gradient `g` (arithmetic average). -/
structure Setup (n : ℕ) where
  P : CoefParams
  kind : Char
  scale : ℝ
  minM : ℝ
  alt : ℝ
  hx : ℝ
  hy : ℝ
  phi : Cell → ℝ
  T : Cell → ℝ
  g : SideGrad n

/-- A field of pairs as a field of two indices. -/
def cur (u : Cell → ℝ) : AMPE.Flux.Field2 := fun i j => u (i, j)

/-- The grid data for a phase field. -/
def Setup.grid {n : ℕ} (S : Setup n) (phi : Cell → ℝ) : Grid := ⟨S.hx, S.hy, cur phi, cur S.T, fun _ _ => 0⟩

/-- `fc` and `M` are the face coefficients and mobilities the program computes for the phase `phi`. -/
def Setup.Coefs {n : ℕ} (S : Setup n) (phi : Cell → ℝ) (fc : Off) (M : Cell → ℝ) : Prop :=
  (∀ c, coefX S.P (S.grid phi) S.g c.1 c.2 = some (fc.x c)) ∧ (∀ c, coefY S.P (S.grid phi) S.g c.1 c.2 = some (fc.y c))
    ∧ ∀ c, quatMobility S.kind S.scale S.minM S.alt (phi c) = some (M c)

/-- `dX`, `dY`, `mD` are the derivative arrays the program computes. -/
def Setup.Derivs {n : ℕ} (S : Setup n) (dX dY : Cell → ℝ × ℝ) (mD : Cell → ℝ) : Prop :=
  (∀ c : Cell, coefDeriv S.P (S.phi (c.1 - 1, c.2)) (S.phi c) (S.T (c.1 - 1, c.2)) (S.T c) (S.g.xx c.1 c.2) (S.g.yx c.1 c.2)
      = some (dX c))
    ∧ (∀ c : Cell, coefDeriv S.P (S.phi (c.1, c.2 - 1)) (S.phi c) (S.T (c.1, c.2 - 1)) (S.T c) (S.g.xy c.1 c.2) (S.g.yy c.1 c.2)
      = some (dY c))
    ∧ ∀ c, quatMobilityDeriv S.kind S.scale S.minM S.alt (S.phi c) = some (mD c)

/-- The derivative of the weight of the `epsilon_q` term on the faces, in the direction `z`. -/
def Setup.Weights {n : ℕ} (S : Setup n) (z : Cell → ℝ) (ex ey : Cell → ℝ) : Prop :=
  (∀ c : Cell, ∃ e, derivInterpFunc S.P.interp2 (0.5 * (S.phi (c.1 - 1, c.2) + S.phi c)) = some e
      ∧ ex c = e * (0.5 * (z (c.1 - 1, c.2) + z c)))
    ∧ ∀ c : Cell, ∃ e, derivInterpFunc S.P.interp2 (0.5 * (S.phi (c.1, c.2 - 1) + S.phi c)) = some e
      ∧ ey c = e * (0.5 * (z (c.1, c.2 - 1) + z c))

/-- The routines differentiate correctly at the values in use (C11 and C41 say where that is so), and the phase is not below the
threshold of the derivative routine. -/
structure Setup.Smooth {n : ℕ} (S : Setup n) : Prop where
  avg : S.P.avg = 'a'
  above : ∀ c, threshold ≤ S.phi c
  one : ∀ c d : Cell, ReportsDerivAt (derivInterpFunc S.P.interp1) (interpFunc S.P.interp1) (0.5 * (S.phi c + S.phi d))
  two : ∀ c d : Cell, ReportsDerivAt (derivInterpFunc S.P.interp2) (interpFunc S.P.interp2) (0.5 * (S.phi c + S.phi d))
  mob : ∀ c, ReportsDerivAt (quatMobilityDeriv S.kind S.scale S.minM S.alt) (quatMobility S.kind S.scale S.minM S.alt) (S.phi c)

theorem divK_add (hx hy : ℝ) (ax ay bx b_y q : Cell → ℝ) (t : ℝ) (c : Cell) :
    divK hx hy (fun p => ax p - t * bx p) (fun p => ay p - t * b_y p) q c
      = divK hx hy ax ay q c - t * divK hx hy bx b_y q c := by
  simp only [divK, div_eq_mul_inv]; ring

theorem block_eq (hx hy : ℝ) (mD sqrtM : Cell → ℝ) (fc : Off) (dX dY : Cell → ℝ × ℝ) (q z : Cell → ℝ) (c : Cell) :
    block hx hy mD sqrtM fc dX dY q z c
      = -(mD c * z c) * divK hx hy fc.x fc.y q c - sqrtM c * divK hx hy (coupleX dX z) (coupleY dY z) q c := by
  simp only [block, addOp, fluxX, fluxY, divK, add_sub_cancel_right, div_eq_mul_inv, one_mul]
  ring

/-- The derivative of the rate of the orientation with respect to the phase, in the direction of the phase correction. -/
theorem rate_phase_deriv {n : ℕ} (S : Setup n) (hS : S.Smooth) (z q : Cell → ℝ) (fc : ℝ → Off) (M : ℝ → Cell → ℝ)
    (hc : ∀ s, S.Coefs (along S.phi z s) (fc s) (M s)) (dX dY : Cell → ℝ × ℝ) (mD : Cell → ℝ) (hD : S.Derivs dX dY mD)
    (ex ey : Cell → ℝ) (hW : S.Weights z ex ey) (c : Cell) :
    HasDerivAt (fun s => addOp S.hx S.hy (M s) (fluxX S.hx (fc s).x q) (fluxY S.hy (fc s).y q) 0 c)
      (-(mD c * z c) * divK S.hx S.hy (fc 0).x (fc 0).y q c
        - M 0 c * (divK S.hx S.hy (coupleX dX z) (coupleY dY z) q c - S.P.epsQ * S.P.epsQ * divK S.hx S.hy ex ey q c)) 0 := by
  have fx : ∀ p : Cell, HasDerivAt (fun s => (fc s).x p) (coupleX dX z p - S.P.epsQ * S.P.epsQ * ex p) 0 := by
    intro p
    obtain ⟨e, he, hx⟩ := hW.1 p
    rw [hx]
    exact face_deriv S.P hS.avg _ _ _ _ _ _ _ _ (hS.above _) (hS.above _) (hS.one _ _) (hS.two _ _) _ (dX p) e
      (fun s => (hc s).1 p) (hD.1 p) he
  have fy : ∀ p : Cell, HasDerivAt (fun s => (fc s).y p) (coupleY dY z p - S.P.epsQ * S.P.epsQ * ey p) 0 := by
    intro p
    obtain ⟨e, he, hy⟩ := hW.2 p
    rw [hy]
    exact face_deriv S.P hS.avg _ _ _ _ _ _ _ _ (hS.above _) (hS.above _) (hS.one _ _) (hS.two _ _) _ (dY p) e
      (fun s => (hc s).2.1 p) (hD.2.1 p) he
  have fm : HasDerivAt (fun s => M s c) (mD c * z c) 0 := by
    obtain ⟨F, d, hF, hd, hder⟩ := hS.mob c
    have hm : (fun s => M s c) = fun s => F (S.phi c + s * z c) := by
      funext s
      have := (hc s).2.2 c
      rw [hF] at this
      exact (Option.some.inj this).symm
    have hdd : d = mD c := by
      have := hD.2.2 c
      rw [hd] at this
      exact Option.some.inj this
    rw [hm, ← hdd]
    have hl : HasDerivAt (fun s : ℝ => S.phi c + s * z c) (z c) 0 := by
      have := ((hasDerivAt_id (0 : ℝ)).mul_const (z c)).const_add (S.phi c)
      exact this.congr_deriv (by ring)
    have hz : S.phi c = S.phi c + 0 * z c := by ring
    rw [hz] at hder
    exact HasDerivAt.comp (0 : ℝ) hder hl
  have hdiv : HasDerivAt (fun s => divK S.hx S.hy (fc s).x (fc s).y q c)
      (divK S.hx S.hy (coupleX dX z) (coupleY dY z) q c - S.P.epsQ * S.P.epsQ * divK S.hx S.hy ex ey q c) 0 := by
    rw [← divK_add]
    exact (((((fx _).mul_const _).sub ((fx _).mul_const _)).div_const _).add
      ((((fy _).mul_const _).sub ((fy _).mul_const _)).div_const _))
  have e : (fun s => addOp S.hx S.hy (M s) (fluxX S.hx (fc s).x q) (fluxY S.hy (fc s).y q) 0 c)
      = fun s => -(M s c * divK S.hx S.hy (fc s).x (fc s).y q c) := by
    funext s
    rw [addOp_rate]
    simp only [rate, divK, div_eq_mul_inv]
    ring
  rw [e]
  exact (fm.mul hdiv).neg.congr_deriv (by ring)

/-- VIOLATION: the coupling term is not the derivative of the orientation rate with respect to the phase.  It uses the square
root of the mobility where the mobility belongs, and leaves out the dependence of the `epsilon_q` term on the phase; the exact
difference. -/
theorem c100_violation_coupling {n : ℕ} (S : Setup n) (hS : S.Smooth) (z q : Cell → ℝ) (fc : ℝ → Off) (M : ℝ → Cell → ℝ)
    (hc : ∀ s, S.Coefs (along S.phi z s) (fc s) (M s)) (dX dY : Cell → ℝ × ℝ) (mD : Cell → ℝ) (hD : S.Derivs dX dY mD)
    (ex ey : Cell → ℝ) (hW : S.Weights z ex ey) (c : Cell) (d : ℝ)
    (hd : HasDerivAt (fun s => addOp S.hx S.hy (M s) (fluxX S.hx (fc s).x q) (fluxY S.hy (fc s).y q) 0 c) d 0) :
    d - block S.hx S.hy mD (fun p => Real.sqrt (M 0 p)) (fc 0) dX dY q z c
      = (Real.sqrt (M 0 c) - M 0 c) * divK S.hx S.hy (coupleX dX z) (coupleY dY z) q c
        + M 0 c * (S.P.epsQ * S.P.epsQ) * divK S.hx S.hy ex ey q c := by
  rw [hd.unique (rate_phase_deriv S hS z q fc M hc dX dY mD hD ex ey hW c), block_eq]
  ring

theorem const_weights {n : ℕ} (S : Setup n) (h : S.P.interp2 = 'c') (z : Cell → ℝ) : S.Weights z (fun _ => 0) (fun _ => 0) := by
  constructor <;> intro c <;> exact ⟨0, by simp [derivInterpFunc, h], by ring⟩

/-- Partial: with the weight of the `epsilon_q` term constant (the default) and mobility 1 in the cell the coupling term is the
derivative.  Missing: other mobilities (see `c100_violation_mobility`). -/
theorem c100_coupling_partial {n : ℕ} (S : Setup n) (hS : S.Smooth) (h2 : S.P.interp2 = 'c') (z q : Cell → ℝ) (fc : ℝ → Off)
    (M : ℝ → Cell → ℝ) (hc : ∀ s, S.Coefs (along S.phi z s) (fc s) (M s)) (dX dY : Cell → ℝ × ℝ) (mD : Cell → ℝ)
    (hD : S.Derivs dX dY mD) (c : Cell) (h1 : M 0 c = 1) :
    HasDerivAt (fun s => addOp S.hx S.hy (M s) (fluxX S.hx (fc s).x q) (fluxY S.hy (fc s).y q) 0 c)
      (block S.hx S.hy mD (fun p => Real.sqrt (M 0 p)) (fc 0) dX dY q z c) 0 := by
  refine (rate_phase_deriv S hS z q fc M hc dX dY mD hD _ _ (const_weights S h2 z) c).congr_deriv ?_
  rw [block_eq, h1, Real.sqrt_one]
  simp only [divK]
  ring

/-- VIOLATION: for any positive mobility other than 1 and a phase correction whose coefficient change has a nonzero divergence,
the coupling term is wrong, by exactly the factor between the mobility and its square root. -/
theorem c100_violation_mobility {n : ℕ} (S : Setup n) (hS : S.Smooth) (h2 : S.P.interp2 = 'c') (z q : Cell → ℝ) (fc : ℝ → Off)
    (M : ℝ → Cell → ℝ) (hc : ∀ s, S.Coefs (along S.phi z s) (fc s) (M s)) (dX dY : Cell → ℝ × ℝ) (mD : Cell → ℝ)
    (hD : S.Derivs dX dY mD) (c : Cell) (h0 : 0 < M 0 c) (h1 : M 0 c ≠ 1)
    (hdiv : divK S.hx S.hy (coupleX dX z) (coupleY dY z) q c ≠ 0) (d : ℝ)
    (hd : HasDerivAt (fun s => addOp S.hx S.hy (M s) (fluxX S.hx (fc s).x q) (fluxY S.hy (fc s).y q) 0 c) d 0) :
    block S.hx S.hy mD (fun p => Real.sqrt (M 0 p)) (fc 0) dX dY q z c ≠ d := by
  intro hb
  have h := c100_violation_coupling S hS z q fc M hc dX dY mD hD _ _ (const_weights S h2 z) c d hd
  rw [hb, sub_self] at h
  have hz : divK S.hx S.hy (fun _ => (0 : ℝ)) (fun _ => 0) q c = 0 := by simp [divK]
  rw [hz, mul_zero, add_zero] at h
  rcases mul_eq_zero.1 h.symm with h | h
  · have hs : Real.sqrt (M 0 c) = M 0 c := by linarith
    have hq := Real.mul_self_sqrt h0.le
    rw [hs] at hq
    exact h1 (mul_left_cancel₀ h0.ne' (by rw [hq, mul_one]))
  · exact hdiv h

/-- What the coupled preconditioner solves: the orientation correction satisfies the linearised equation with the program's
coupling term for the phase correction `zphi`. -/
theorem c100_coupled (hx hy gamma : ℝ) (cells : Finset Cell) (M mD : Cell → ℝ) (fc : Off) (dX dY : Cell → ℝ × ℝ) (L : QuatLevel)
    (q zphi r z : Cell → ℝ) (hL : setCoefs hx hy gamma cells M fc = some L)
    (hz : Solved L cells (quatRhs true gamma (block hx hy mD L.m fc dX dY q zphi) r) z) (c : Cell) (hc : c ∈ cells) :
    z c - gamma * (rate hx hy M fc z c
        + (-(mD c * zphi c) * divK hx hy fc.x fc.y q c
            - Real.sqrt (M c) * divK hx hy (coupleX dX zphi) (coupleY dY zphi) q c)) = r c := by
  have h := c100_solves hx hy gamma cells M fc L _ z hL hz c hc
  have hm : L.m c = Real.sqrt (M c) := by
    unfold setCoefs at hL
    by_cases h : ∃ c ∈ cells, M c ≤ 0
    · rw [if_pos h] at hL; simp at hL
    · rw [if_neg h] at hL; rw [← Option.some.inj hL]
  simp only [quatRhs, if_true, block_eq, hm] at h
  linear_combination h

/-! ## The order -/

/-- `b` runs somewhere and everything it reads ran before. -/
def ReadsFresh (g : Config) : Prop :=
  ∀ pre b post, order g = pre ++ b :: post → ∀ d ∈ reads g b, d ∈ pre

/-- Every component present gets exactly one block, and no other. -/
theorem c100_blocks_once (g : Config) (b : Block) :
    (order g).count b = match b with
      | .temperature => if g.unsteadyT then 1 else 0
      | .phase => if g.withPhase then 1 else 0
      | .eta => if g.withThird then 1 else 0
      | .quat => if g.evolveQuat then 1 else 0
      | .concentration => if g.withConc then 1 else 0 := by
  obtain ⟨a1, a2, a3, a4, a5, a6, a7, a8⟩ := g
  cases b <;> cases a1 <;> cases a2 <;> cases a3 <;> cases a4 <;> cases a5 <;> cases a6 <;> rfl

/-- The components whose corrections are read exist. -/
def Consistent (g : Config) : Prop :=
  (g.dPhidT = true → g.unsteadyT = true) ∧ (g.dTdphi = true → g.withPhase = true) ∧ (g.dquatdphi = true → g.withPhase = true)

/-- A block of the list reads only corrections computed earlier, as a check by recursion. -/
def fresh (g : Config) : List Block → List Block → Bool
  | _, [] => true
  | done, b :: l => (reads g b).all (fun d => done.contains d) && fresh g (done ++ [b]) l

theorem fresh_iff (g : Config) : ∀ (l done : List Block), fresh g done l = true ↔
    ∀ pre b post, l = pre ++ b :: post → ∀ d ∈ reads g b, d ∈ done ++ pre
  | [], done => by simp [fresh]
  | a :: l, done => by
      have ih := fresh_iff g l (done ++ [a])
      simp only [fresh, Bool.and_eq_true, List.all_eq_true, List.contains_iff_mem, ih]
      constructor
      · rintro ⟨h1, h2⟩ pre b post he d hd
        cases pre with
        | nil =>
          simp only [List.nil_append, List.cons.injEq] at he
          rw [List.append_nil]; exact h1 d (he.1 ▸ hd)
        | cons x pre =>
          simp only [List.cons_append, List.cons.injEq] at he
          have := h2 pre b post he.2 d hd
          rw [he.1] at this
          simpa using this
      · intro h
        refine ⟨fun d hd => by simpa using h [] a l rfl d hd, fun pre b post he d hd => ?_⟩
        simpa using h (a :: pre) b post (by rw [he]; rfl) d hd

/-- The corrections a block reads have been computed earlier in the same application of the preconditioner, unless both couplings
between phase and temperature are switched on. -/
theorem c100_order (g : Config) (hg : Consistent g) :
    ReadsFresh g ↔ ¬ (g.unsteadyT = true ∧ g.dPhidT = true ∧ g.dTdphi = true) := by
  have h : ReadsFresh g ↔ fresh g [] (order g) = true := by
    rw [fresh_iff]; simp [ReadsFresh]
  rw [h]
  obtain ⟨a1, a2, a3, a4, a5, a6, a7, a8⟩ := g
  unfold Consistent at hg
  revert hg
  cases a1 <;> cases a2 <;> cases a3 <;> cases a4 <;> cases a5 <;> cases a6 <;> cases a7 <;> cases a8 <;> decide

/-- VIOLATION: with both `precond_has_dPhidT` and `precond_has_dTdphi` (nothing refuses the combination) the temperature block
runs first and reads the phase correction of an earlier application. -/
theorem c100_violation_both (g : Config) (h1 : g.unsteadyT = true) (h2 : g.dPhidT = true) (h3 : g.dTdphi = true) :
    ∃ post, order g = .temperature :: post ∧ Block.phase ∈ reads g .temperature ∧
      (Block.phase ∈ post ↔ g.withPhase = true) := by
  obtain ⟨a1, a2, a3, a4, a5, a6, a7, a8⟩ := g
  simp only at h1 h2 h3
  subst h1 h2 h3
  refine ⟨_, rfl, by simp [reads], ?_⟩
  cases a1 <;> cases a2 <;> cases a3 <;> cases a5 <;> cases a8 <;> decide

/-- The return code is 0 exactly when every block that ran returned 0. -/
theorem c100_retcode (lr : ℤ) (h : lr = 1 ∨ lr = 2) (codes : List ℤ) : retcode lr codes = 0 ↔ ∀ k ∈ codes, k = 0 := by
  unfold retcode
  rw [if_pos h]
  have key : ∀ (l : List ℤ) (r : ℤ),
      l.foldl (fun rc converged => if converged = 0 ∧ rc = 0 then 0 else 1) r = 0 ↔ r = 0 ∧ ∀ k ∈ l, k = 0 := by
    intro l
    induction l with
    | nil => simp
    | cons a l ih =>
      intro r
      rw [List.foldl_cons, ih]
      by_cases ha : a = 0 <;> by_cases hr : r = 0 <;> simp [ha, hr]
  simpa using key codes 0

/-- With several order parameters the coupled blocks see the correction of the last one only. -/
theorem c100_violation_last_order_parameter {α : Type*} (l : List α) (z : α) : phaseSol (l ++ [z]) = some z := by
  simp [phaseSol, List.foldl_append]

/-! ## The hypotheses can be met -/

/-- A uniform phase 1/2 with linear weight, constant second weight, polynomial mobility, floor type `s`. -/
noncomputable def sample : Setup 1 :=
  { P := { epsQ := 1, misorientation := 1, gradientFloor := 1, floorType := 's', interp1 := 'q', interp2 := 'c', avg := 'a' },
    kind := 'p', scale := 4, minM := 0, alt := 1, hx := 1, hy := 1, phi := fun _ => 1 / 2, T := fun _ => 2,
    g := ⟨fun _ _ _ => 0, fun _ _ _ => 0, fun _ _ _ => 0, fun _ _ _ => 0⟩ }

theorem sample_smooth : sample.Smooth where
  avg := rfl
  above c := by simp only [sample, threshold]; norm_num
  one c d := by
    simp only [sample]
    exact c11_first_partial 'q' _ (Or.inl (by simp [derivGood]))
  two c d := ⟨fun _ => 1, 0, fun x => by simp [sample, interpFunc], by simp [sample, derivInterpFunc], hasDerivAt_const _ _⟩
  mob c := by
    obtain ⟨d, hd, F, hF, hder⟩ := AMPE.OrientSolve.Props.c41_deriv_poly 4 0 1 (1 / 2)
    exact ⟨F, d, hF, hd, hder⟩

/-- The hypotheses of the coupling theorems hold together, with mobility 2 and a nonzero divergence. -/
example : ∃ (fc : ℝ → Off) (M : ℝ → Cell → ℝ) (dX dY : Cell → ℝ × ℝ) (mD : Cell → ℝ),
    sample.Smooth ∧ sample.P.interp2 = 'c' ∧ (∀ s, sample.Coefs (along sample.phi (fun _ => 1) s) (fc s) (M s))
      ∧ sample.Derivs dX dY mD ∧ M 0 (0, 0) = 2
      ∧ divK sample.hx sample.hy (coupleX dX fun _ => 1) (coupleY dY fun _ => 1) (fun c => (c.1 : ℝ) ^ 2) (0, 0) = -4 := by
  have hx : ∀ (s : ℝ) (c : Cell), ∃ v, coefX sample.P (sample.grid (along sample.phi (fun _ => 1) s)) sample.g c.1 c.2 = some v :=
    fun s c => ⟨_, by simp only [coefX, faceCoef, sample, averageFunc, interpFunc, evalGradNormi]; simp; rfl⟩
  have hy : ∀ (s : ℝ) (c : Cell), ∃ v, coefY sample.P (sample.grid (along sample.phi (fun _ => 1) s)) sample.g c.1 c.2 = some v :=
    fun s c => ⟨_, by simp only [coefY, faceCoef, sample, averageFunc, interpFunc, evalGradNormi]; simp; rfl⟩
  have hm : ∀ (s : ℝ) (c : Cell), ∃ v, quatMobility sample.kind sample.scale sample.minM sample.alt
      (along sample.phi (fun _ => 1) s c) = some v :=
    fun s c => ⟨_, by simp only [quatMobility, qfunc, sample]; simp; rfl⟩
  choose X hX using hx
  choose Y hY using hy
  choose M hM using hm
  have hth : ¬ ((1 / 2 : ℝ) < threshold) := by unfold threshold; norm_num
  have hd : ∀ a b : ℝ, ∀ u v : QVec 1, u = (fun _ => 0) → v = (fun _ => 0) →
      coefDeriv sample.P (1 / 2) (1 / 2) 2 2 u v = some (1, 1) := by
    intro a b u v hu hv
    subst hu hv
    have h0 : acc (fun _ : Fin 1 => (0 : ℝ) ^ 2) = 0 := by simp [acc]
    simp only [coefDeriv, hth, sample, averageFunc, derivInterpFunc, derivAverageFunc, evalGradNormi, or_self, if_false, h0]
    simp [pos]
    norm_num
  refine ⟨fun s => ⟨X s, Y s⟩, M, fun _ => (1, 1), fun _ => (1, 1),
    fun _ => (4 - 0) * (-30 * max 0 (min 1 (1 / 2)) * max 0 (min 1 (1 / 2)) * (1 - max 0 (min 1 (1 / 2))) * (1 - max 0 (min 1 (1 / 2)))),
    sample_smooth, rfl, fun s => ⟨hX s, hY s, hM s⟩, ⟨fun c => hd 0 0 _ _ rfl rfl, fun c => hd 0 0 _ _ rfl rfl, fun c => ?_⟩, ?_, ?_⟩
  · simp [quatMobilityDeriv, dqfunc, sample]
  · have := hM 0 (0, 0)
    have e : quatMobility sample.kind sample.scale sample.minM sample.alt (along sample.phi (fun _ => 1) 0 (0, 0)) = some 2 := by
      simp only [quatMobility, qfunc, sample, along]
      norm_num
    rw [e] at this
    exact (Option.some.inj this).symm
  · simp only [divK, coupleX, coupleY, coupleCoef, sample]
    norm_num

/-- Two cells coupled by one face: the solve has a solution in a non-trivial case. -/
example : ∃ L, setCoefs 1 1 1 {((0, 0) : Cell)} (fun _ => 4) ⟨fun _ => -1, fun _ => -1⟩ = some L
    ∧ Solved L {((0, 0) : Cell)} (fun _ => 34) (fun c => if c = (0, 0) then 2 else 0) := by
  refine ⟨⟨1, 1, 1, ⟨fun _ => -1, fun _ => -1⟩, fun _ => Real.sqrt 4⟩, ?_, ?_⟩
  · unfold setCoefs
    rw [if_neg (by rintro ⟨c, _, h⟩; norm_num at h)]
  · have h2 : Real.sqrt 4 = 2 := by rw [show (4 : ℝ) = 2 ^ 2 by norm_num]; exact Real.sqrt_sq (by norm_num)
    refine ⟨fun c => if c = (0, 0) then 1 else 0, ?_, ?_⟩
    · intro c hc
      rw [Finset.mem_singleton] at hc
      subst hc
      simp only [QuatLevel.residual, QuatLevel.fx, QuatLevel.fy, h2]
      norm_num
    · intro c
      simp only [h2]
      by_cases h : c = (0, 0) <;> simp [h]

end AMPE.QuatPrecond.Props
