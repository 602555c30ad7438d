import Verif.Model.Anisotropy
import Verif.Props.Quat
import Mathlib.Analysis.SpecialFunctions.Trigonometric.Deriv
import Mathlib.Analysis.SpecialFunctions.Trigonometric.ArctanDeriv
import Mathlib.Analysis.SpecialFunctions.Sqrt
import Mathlib.Analysis.Calculus.Deriv.Inv
import Mathlib.Analysis.Calculus.Deriv.Pow
import Mathlib.Tactic.Linarith
import Mathlib.Tactic.Ring
import Mathlib.Tactic.NormNum
import Mathlib.Tactic.Positivity
import Mathlib.Tactic.FieldSimp
import Mathlib.Tactic.LinearCombination

/-!
# Anisotropic interfaces: C63 (flux derives from the energy), C64 (anisotropy follows the crystal)
-/

namespace AMPE.Anisotropy.Props

open AMPE.Quat AMPE.Quat.Props AMPE.Flux AMPE.Anisotropy

theorem cut_pos : 0 < cut := by unfold cut; positivity

/-! ## C63 in two dimensions -/

/-- **C63**: away from the cut-off the 2D flux is the derivative of the energy density with respect to the gradient, in
every direction `v`. -/
theorem c63_flux_is_gradient_2d (eps nu : ℝ) (k : ℕ) (ref px py vx vy : ℝ) (h : cut < |px|) :
    HasDerivAt (fun t => energy2 eps nu k ref (px + t * vx) (py + t * vy))
      (flux0 eps nu k ref px py * vx + flux1 eps nu k ref px py * vy) 0 := by
  have hpx : px ≠ 0 := by
    rintro rfl; rw [abs_zero] at h; exact absurd cut_pos (not_lt.mpr h.le)
  have dx : HasDerivAt (fun t : ℝ => px + t * vx) vx 0 := by
    simpa using ((hasDerivAt_id (0 : ℝ)).mul_const vx).const_add px
  have dy : HasDerivAt (fun t : ℝ => py + t * vy) vy 0 := by
    simpa using ((hasDerivAt_id (0 : ℝ)).mul_const vy).const_add py
  have e0 : px + 0 * vx = px := by ring
  have e1 : py + 0 * vy = py := by ring
  have dth : HasDerivAt (fun t : ℝ => Real.arctan ((py + t * vy) / (px + t * vx)))
      ((px * vy - py * vx) / (px * px + py * py)) 0 := by
    have := (dy.div dx (by rw [e0]; exact hpx)).arctan
    refine this.congr_deriv ?_
    simp only [Pi.div_apply, e0, e1]
    have : px * px + py * py ≠ 0 := by
      have := mul_self_pos.mpr hpx; exact ne_of_gt (by nlinarith [mul_self_nonneg py])
    have h3 : 1 + (py / px) ^ 2 ≠ 0 := by positivity
    field_simp
  have dE : HasDerivAt (fun t : ℝ => epsTheta eps nu k (Real.arctan ((py + t * vy) / (px + t * vx))) ref)
      (dEps eps nu k (Real.arctan (py / px)) ref * ((px * vy - py * vx) / (px * px + py * py))) 0 := by
    have := ((((dth.sub_const ref).const_mul (k : ℝ)).cos.const_mul nu).const_add 1).const_mul eps
    refine this.congr_deriv ?_
    simp only [e0, e1, dEps]
    ring
  have dG : HasDerivAt (fun t : ℝ => (px + t * vx) * (px + t * vx) + (py + t * vy) * (py + t * vy))
      (2 * (px * vx + py * vy)) 0 := by
    refine ((dx.mul dx).add (dy.mul dy)).congr_deriv ?_
    rw [e0, e1]; ring
  have dW := ((dE.const_mul (1 / 2)).mul dE).mul dG
  have hloc : (fun t => energy2 eps nu k ref (px + t * vx) (py + t * vy)) =ᶠ[nhds 0]
      fun t => 1 / 2 * epsTheta eps nu k (Real.arctan ((py + t * vy) / (px + t * vx))) ref
        * epsTheta eps nu k (Real.arctan ((py + t * vy) / (px + t * vx))) ref
        * ((px + t * vx) * (px + t * vx) + (py + t * vy) * (py + t * vy)) := by
    have hc : ContinuousAt (fun t : ℝ => |px + t * vx|) 0 := dx.continuousAt.abs
    have hh : cut < |px + 0 * vx| := by rw [e0]; exact h
    filter_upwards [hc.eventually (lt_mem_nhds hh)] with t ht
    simp only [energy2, theta]
    rw [if_pos ht]
  refine (dW.congr_of_eventuallyEq hloc).congr_deriv ?_
  simp only [Pi.mul_apply, e0, e1, flux0, flux1, theta]
  rw [if_pos h]
  have hG : px * px + py * py ≠ 0 := by
    have := mul_self_pos.mpr hpx; exact ne_of_gt (by nlinarith [mul_self_nonneg py])
  generalize epsTheta eps nu k (Real.arctan (py / px)) ref = E
  generalize dEps eps nu k (Real.arctan (py / px)) ref = D
  field_simp
  ring

/-- **C63**: in terms of the true direction `t` of the gradient, `(r cos t, r sin t)`: for a pattern of even order (the code
uses four) the fluxes are those of the energy `eps² (1 + nu cos k(t - ref))² r²/2`, also on the other side of the
interface and where the gradient is exactly along y. -/
theorem c63_polar_2d (eps nu : ℝ) (m : ℕ) (ref r t : ℝ) (hr : 0 < r) (h : cut < |r * Real.cos t| ∨ Real.cos t = 0) :
    let E := eps * (1 + nu * Real.cos ((2 * m : ℕ) * (t - ref)))
    let D := -(2 * m : ℕ) * eps * nu * Real.sin ((2 * m : ℕ) * (t - ref))
    flux0 eps nu (2 * m) ref (r * Real.cos t) (r * Real.sin t) = E ^ 2 * (r * Real.cos t) - E * D * (r * Real.sin t) ∧
    flux1 eps nu (2 * m) ref (r * Real.cos t) (r * Real.sin t) = E ^ 2 * (r * Real.sin t) + E * D * (r * Real.cos t) ∧
    energy2 eps nu (2 * m) ref (r * Real.cos t) (r * Real.sin t) = 1 / 2 * E ^ 2 * r ^ 2 := by
  intro E D
  have hth : ∃ z : ℤ, theta (r * Real.cos t) (r * Real.sin t) = t + z * Real.pi := by
    unfold theta
    rcases h with h | h
    · rw [if_pos h, mul_div_mul_left _ _ hr.ne', ← Real.tan_eq_sin_div_cos]
      have hcos : Real.cos t ≠ 0 := by
        intro h0; rw [h0, mul_zero, abs_zero] at h; exact absurd cut_pos (not_lt.mpr h.le)
      set a := Real.arctan (Real.tan t)
      have ha : Real.tan a = Real.tan t := Real.tan_arctan _
      have hca : Real.cos a ≠ 0 := (Real.cos_arctan_pos _).ne'
      have hs : Real.sin (a - t) = 0 := by
        rw [Real.tan_eq_sin_div_cos, Real.tan_eq_sin_div_cos, div_eq_div_iff hca hcos] at ha
        rw [Real.sin_sub]; linarith
      obtain ⟨z, hz⟩ := Real.sin_eq_zero_iff.mp hs
      exact ⟨z, by linarith⟩
    · rw [h, mul_zero, abs_zero, if_neg (not_lt.mpr cut_pos.le)]
      obtain ⟨z, hz⟩ := Real.cos_eq_zero_iff.mp h
      exact ⟨-z, by rw [hz]; push_cast; ring⟩
  obtain ⟨z, hz⟩ := hth
  have harg : ((2 * m : ℕ) : ℝ) * (t + z * Real.pi - ref) = (2 * m : ℕ) * (t - ref) + ((m : ℤ) * z : ℤ) * (2 * Real.pi) := by
    push_cast; ring
  have hE : epsTheta eps nu (2 * m) (t + z * Real.pi) ref = E := by
    simp only [epsTheta, E]; rw [harg, Real.cos_add_int_mul_two_pi]
  have hD : dEps eps nu (2 * m) (t + z * Real.pi) ref = D := by
    simp only [dEps, D]; rw [harg, Real.sin_add_int_mul_two_pi]
  refine ⟨?_, ?_, ?_⟩
  · simp only [flux0]; rw [hz, hE, hD]; ring
  · simp only [flux1]; rw [hz, hE, hD]; ring
  · simp only [energy2]; rw [hz, hE]
    have := Real.sin_sq_add_cos_sq t
    linear_combination 1 / 2 * E ^ 2 * r ^ 2 * this

/-- **C63**: the flux never points against the gradient: its component is `eps(theta)² |grad|²`, twice the energy density, and
at least `eps² (1 - |nu|)² |grad|²` for `|nu| ≤ 1`. -/
theorem c63_dissipative_2d (eps nu : ℝ) (k : ℕ) (ref px py : ℝ) :
    flux0 eps nu k ref px py * px + flux1 eps nu k ref px py * py = 2 * energy2 eps nu k ref px py ∧
    (|nu| ≤ 1 → eps ^ 2 * (1 - |nu|) ^ 2 * (px ^ 2 + py ^ 2) ≤ 2 * energy2 eps nu k ref px py) := by
  constructor
  · simp only [flux0, flux1, energy2]; ring
  · intro hnu
    simp only [energy2, epsTheta]
    set c := Real.cos (k * (theta px py - ref))
    have hc : |nu * c| ≤ |nu| := by
      rw [abs_mul]; nlinarith [abs_nonneg nu, Real.abs_cos_le_one (k * (theta px py - ref))]
    have h1 := (abs_le.mp hc).1
    have h2 : (1 - |nu|) ^ 2 ≤ (1 + nu * c) ^ 2 := by nlinarith
    have h3 : 0 ≤ eps ^ 2 * (px ^ 2 + py ^ 2) := by positivity
    nlinarith [mul_le_mul_of_nonneg_left h2 h3]

/-- **C63**: without anisotropy flux and energy are those of the isotropic model. -/
theorem c63_isotropic_2d (eps : ℝ) (k : ℕ) (ref px py : ℝ) :
    flux0 eps 0 k ref px py = eps ^ 2 * px ∧ flux1 eps 0 k ref px py = eps ^ 2 * py ∧
    energy2 eps 0 k ref px py = 1 / 2 * eps ^ 2 * (px ^ 2 + py ^ 2) := by
  simp only [flux0, flux1, energy2, epsTheta, dEps]
  refine ⟨by ring, by ring, by ring⟩

/-- **C63**: for an affine order parameter in a uniform crystal, every face flux is the derivative of the energy density that
the energy routine assigns to the cells. -/
theorem c63_grid_2d (h0 h1 eps nu a b c q0 : ℝ) (k qlen : ℕ) (hh0 : h0 ≠ 0) (hh1 : h1 ≠ 0) (ha : cut < |a|) (i j : ℤ) :
    let u : Field2 := fun i j => a * (i * h0) + b * (j * h1) + c
    let W := fun x y => energy2 eps nu k (refAngle qlen q0) x y
    cellEnergy2 h0 h1 eps nu k qlen u (fun _ _ => q0) i j = W a b ∧
    HasDerivAt (fun t => W (a + t) b) (fluxX h0 h1 eps nu k qlen u (fun _ _ => q0) i j) 0 ∧
    HasDerivAt (fun t => W a (b + t)) (fluxY h0 h1 eps nu k qlen u (fun _ _ => q0) i j) 0 := by
  intro u W
  have hq : 1 / 2 * (q0 + q0) = q0 := by ring
  have gx : gradX h0 h1 u i j = (a, b) := by
    simp only [gradX, u, Prod.mk.injEq]; push_cast
    constructor <;> field_simp <;> ring
  have gy : gradY h0 h1 u i j = (a, b) := by
    simp only [gradY, u, Prod.mk.injEq]; push_cast
    constructor <;> field_simp <;> ring
  have gc : gradC h0 h1 u i j = (a, b) := by
    simp only [gradC, u, Prod.mk.injEq]; push_cast
    constructor <;> field_simp <;> ring
  refine ⟨by simp only [cellEnergy2, gc, W], ?_, ?_⟩
  · have := c63_flux_is_gradient_2d eps nu k (refAngle qlen q0) a b 1 0 ha
    simp only [mul_one, mul_zero, add_zero] at this
    simpa only [fluxX, gx, hq, W] using this
  · have := c63_flux_is_gradient_2d eps nu k (refAngle qlen q0) a b 0 1 ha
    simp only [mul_one, mul_zero, add_zero, zero_add] at this
    simpa only [fluxY, gy, hq, W] using this

/-- **C63**: between differently oriented cells the flux is that of a crystal whose orientation is the mean of the two cells the
face separates, for any order parameter; it is the derivative of the energy density of that crystal. -/
theorem c63_face_orientation_2d (h0 h1 eps nu : ℝ) (k qlen : ℕ) (u q : Field2) (i j : ℤ) :
    (fluxX h0 h1 eps nu k qlen u q i j =
      fluxX h0 h1 eps nu k qlen u (fun _ _ => (q (i - 1) j + q i j) / 2) i j) ∧
    (fluxY h0 h1 eps nu k qlen u q i j =
      fluxY h0 h1 eps nu k qlen u (fun _ _ => (q i (j - 1) + q i j) / 2) i j) ∧
    (cut < |(gradX h0 h1 u i j).1| →
      HasDerivAt (fun t => energy2 eps nu k (refAngle qlen ((q (i - 1) j + q i j) / 2)) ((u i j - u (i - 1) j) / h0 + t) (gradX h0 h1 u i j).2)
        (fluxX h0 h1 eps nu k qlen u q i j) 0) ∧
    (cut < |(gradY h0 h1 u i j).1| →
      HasDerivAt (fun t => energy2 eps nu k (refAngle qlen ((q i (j - 1) + q i j) / 2)) (gradY h0 h1 u i j).1 ((u i j - u i (j - 1)) / h1 + t))
        (fluxY h0 h1 eps nu k qlen u q i j) 0) := by
  have hx : 1 / 2 * (q (i - 1) j + q i j) = (q (i - 1) j + q i j) / 2 := by ring
  have hy : 1 / 2 * (q i (j - 1) + q i j) = (q i (j - 1) + q i j) / 2 := by ring
  have hh : ∀ c : ℝ, 1 / 2 * (c + c) = c := by intro c; ring
  refine ⟨?_, ?_, fun ha => ?_, fun ha => ?_⟩
  · simp only [fluxX, hh, hx]
  · simp only [fluxY, hh, hy]
  · have := c63_flux_is_gradient_2d eps nu k (refAngle qlen ((q (i - 1) j + q i j) / 2)) (gradX h0 h1 u i j).1 (gradX h0 h1 u i j).2 1 0 ha
    simp only [mul_one, mul_zero, add_zero] at this
    have e : (u i j - u (i - 1) j) / h0 = (gradX h0 h1 u i j).1 := by simp only [gradX]; ring
    rw [e]
    simp only [fluxX, hx]
    exact this
  · have := c63_flux_is_gradient_2d eps nu k (refAngle qlen ((q i (j - 1) + q i j) / 2)) (gradY h0 h1 u i j).1 (gradY h0 h1 u i j).2 0 1 ha
    simp only [mul_one, mul_zero, add_zero, zero_add] at this
    have e : (u i j - u i (j - 1)) / h1 = (gradY h0 h1 u i j).2 := by simp only [gradY]; ring
    rw [e]
    simp only [fluxY, hy]
    exact this

/-! ## C63 in three dimensions -/

/-- Components of the rotated vector. -/
def r1 (q : Q4) (x y z : ℝ) : ℝ := (np q ⟨0, x, y, z⟩).q2
def r2 (q : Q4) (x y z : ℝ) : ℝ := (np q ⟨0, x, y, z⟩).q3
def r3 (q : Q4) (x y z : ℝ) : ℝ := (np q ⟨0, x, y, z⟩).q4

theorem r_lin (q : Q4) (x y z vx vy vz t : ℝ) :
    r1 q (x + t * vx) (y + t * vy) (z + t * vz) = r1 q x y z + t * r1 q vx vy vz ∧
    r2 q (x + t * vx) (y + t * vy) (z + t * vz) = r2 q x y z + t * r2 q vx vy vz ∧
    r3 q (x + t * vx) (y + t * vy) (z + t * vz) = r3 q x y z + t * r3 q vx vy vz := by
  simp only [r1, r2, r3, np, quatmult4, quatconj]
  refine ⟨by ring, by ring, by ring⟩

theorem r_smul (q : Q4) (x y z c : ℝ) :
    r1 q (x * c) (y * c) (z * c) = r1 q x y z * c ∧ r2 q (x * c) (y * c) (z * c) = r2 q x y z * c ∧
    r3 q (x * c) (y * c) (z * c) = r3 q x y z * c := by
  simp only [r1, r2, r3, np, quatmult4, quatconj]
  refine ⟨by ring, by ring, by ring⟩

theorem r_dot (q : Q4) (x y z vx vy vz : ℝ) :
    r1 q x y z * r1 q vx vy vz + r2 q x y z * r2 q vx vy vz + r3 q x y z * r3 q vx vy vz =
      lenSq q ^ 2 * (x * vx + y * vy + z * vz) := by
  simp only [r1, r2, r3, np, quatmult4, quatconj, lenSq]
  ring

theorem adjoint (q : Q4) (a b c vx vy vz : ℝ) :
    (quatmult4 (quatconj q) (quatmult4 ⟨0, a, b, c⟩ q)).q2 * vx
      + (quatmult4 (quatconj q) (quatmult4 ⟨0, a, b, c⟩ q)).q3 * vy
      + (quatmult4 (quatconj q) (quatmult4 ⟨0, a, b, c⟩ q)).q4 * vz =
      a * r1 q vx vy vz + b * r2 q vx vy vz + c * r3 q vx vy vz := by
  simp only [r1, r2, r3, np, quatmult4, quatconj]
  ring

theorem gam_eq (eps e4 n : ℝ) (h : e4 ≠ 1 / 3) : gam eps e4 n = eps * (1 - 3 * e4) + 4 * eps * e4 * n := by
  have : 1 - 3 * e4 ≠ 0 := by intro h'; exact h (by linarith)
  unfold gam; field_simp

/-- `n4` in terms of the unnormalised gradient. -/
theorem n4_eq (q : Q4) (px py pz : ℝ) (h : 0 < px * px + py * py + pz * pz) :
    n4 q (normal px py pz) =
      (r1 q px py pz ^ 4 + r2 q px py pz ^ 4 + r3 q px py pz ^ 4) / (px * px + py * py + pz * pz) ^ 2 := by
  set g := px * px + py * py + pz * pz
  have hs : Real.sqrt g ^ 2 = g := Real.sq_sqrt h.le
  have hp : 0 < Real.sqrt g := Real.sqrt_pos.mpr h
  have e := r_smul q px py pz (1 / Real.sqrt g)
  have : n4 q (normal px py pz) = r1 q (px * (1 / Real.sqrt g)) (py * (1 / Real.sqrt g)) (pz * (1 / Real.sqrt g)) ^ 4
      + r2 q (px * (1 / Real.sqrt g)) (py * (1 / Real.sqrt g)) (pz * (1 / Real.sqrt g)) ^ 4
      + r3 q (px * (1 / Real.sqrt g)) (py * (1 / Real.sqrt g)) (pz * (1 / Real.sqrt g)) ^ 4 := rfl
  rw [this, e.1, e.2.1, e.2.2]
  have h4 : (1 / Real.sqrt g) ^ 4 = 1 / g ^ 2 := by
    have : Real.sqrt g ^ 4 = g ^ 2 := by
      calc Real.sqrt g ^ 4 = (Real.sqrt g ^ 2) ^ 2 := by ring
        _ = g ^ 2 := by rw [hs]
    rw [div_pow, one_pow, this]
  rw [mul_pow, mul_pow, mul_pow, h4]
  ring

/-- The flux in direction `v`. -/
def fdot (f : ℝ × ℝ × ℝ) (vx vy vz : ℝ) : ℝ := f.1 * vx + f.2.1 * vy + f.2.2 * vz

/-- The flux in a direction, in terms of the rotated gradient. -/
theorem flux3_dot (eps e4 : ℝ) (q : Q4) (px py pz vx vy vz : ℝ) (h : cut < px * px + py * py + pz * pz) :
    let g2 := px * px + py * py + pz * pz
    let N := n4 q (normal px py pz)
    let G := gam eps e4 N
    fdot (flux3 eps e4 q px py pz) vx vy vz = G ^ 2 * (px * vx + py * vy + pz * vz) + 16 * eps * G * e4 *
      ((r1 q px py pz ^ 3 * r1 q vx vy vz + r2 q px py pz ^ 3 * r2 q vx vy vz + r3 q px py pz ^ 3 * r3 q vx vy vz) / g2
        - N * (lenSq q ^ 2 * (px * vx + py * vy + pz * vz))) := by
  intro g2 N G
  have hg : 0 < g2 := cut_pos.trans h
  have habs : |g2| > cut := by rw [abs_of_pos hg]; exact h
  have hs : Real.sqrt g2 ^ 2 = g2 := Real.sq_sqrt hg.le
  have hp : 0 < Real.sqrt g2 := Real.sqrt_pos.mpr hg
  have e := r_smul q px py pz (1 / Real.sqrt g2)
  have hd : (dgamma q (normal px py pz)).q2 * vx + (dgamma q (normal px py pz)).q3 * vy
      + (dgamma q (normal px py pz)).q4 * vz =
      (r1 q px py pz * (1 / Real.sqrt g2)) * ((r1 q px py pz * (1 / Real.sqrt g2)) * (r1 q px py pz * (1 / Real.sqrt g2)) - N) * r1 q vx vy vz
      + (r2 q px py pz * (1 / Real.sqrt g2)) * ((r2 q px py pz * (1 / Real.sqrt g2)) * (r2 q px py pz * (1 / Real.sqrt g2)) - N) * r2 q vx vy vz
      + (r3 q px py pz * (1 / Real.sqrt g2)) * ((r3 q px py pz * (1 / Real.sqrt g2)) * (r3 q px py pz * (1 / Real.sqrt g2)) - N) * r3 q vx vy vz := by
    rw [← e.1, ← e.2.1, ← e.2.2]
    exact adjoint q _ _ _ vx vy vz
  have hN : n4c q px py pz = N := by simp only [n4c]; rw [if_pos habs]
  have hdot := r_dot q px py pz vx vy vz
  simp only [fdot, flux3, hN]
  rw [if_pos habs]
  have expand : ∀ A B d1 d2 d3 : ℝ, (G * G * px + A * d1) * vx + (G * G * py + A * d2) * vy + (G * G * pz + A * d3) * vz
      = G ^ 2 * (px * vx + py * vy + pz * vz) + A * (d1 * vx + d2 * vy + d3 * vz) := by intros; ring
  have := expand (16 * eps * G * e4 * Real.sqrt g2) 0 (dgamma q (normal px py pz)).q2 (dgamma q (normal px py pz)).q3
    (dgamma q (normal px py pz)).q4
  refine this.trans ?_
  rw [hd, ← hdot]
  clear_value N G
  generalize r1 q px py pz = a1
  generalize r2 q px py pz = a2
  generalize r3 q px py pz = a3
  generalize r1 q vx vy vz = b1
  generalize r2 q vx vy vz = b2
  generalize r3 q vx vy vz = b3
  have hs' : g2 = Real.sqrt g2 ^ 2 := hs.symm
  congr 1
  rw [hs']
  rw [Real.sqrt_sq hp.le]
  generalize Real.sqrt g2 = s at hp
  have := hp.ne'
  field_simp
  ring

/-- **C63**: for a unit orientation and away from the cut-off the 3D flux is the derivative of the energy density with respect
to the gradient, in every direction `v`. -/
theorem c63_flux_is_gradient_3d (eps e4 : ℝ) (he : e4 ≠ 1 / 3) (q : Q4) (hq : lenSq q = 1) (px py pz vx vy vz : ℝ)
    (h : cut < px * px + py * py + pz * pz) :
    HasDerivAt (fun t => energy3 eps e4 q (px + t * vx) (py + t * vy) (pz + t * vz))
      (fdot (flux3 eps e4 q px py pz) vx vy vz) 0 := by
  have lin : ∀ a b : ℝ, HasDerivAt (fun t : ℝ => a + t * b) b 0 := by
    intro a b; simpa using ((hasDerivAt_id (0 : ℝ)).mul_const b).const_add a
  have e0 : ∀ a b : ℝ, a + 0 * b = a := by intros; ring
  have dG : HasDerivAt (fun t : ℝ => (px + t * vx) * (px + t * vx) + (py + t * vy) * (py + t * vy)
      + (pz + t * vz) * (pz + t * vz)) (2 * (px * vx + py * vy + pz * vz)) 0 := by
    refine ((((lin px vx).mul (lin px vx)).add ((lin py vy).mul (lin py vy))).add
      ((lin pz vz).mul (lin pz vz))).congr_deriv ?_
    simp only [e0]; ring
  have hg : 0 < px * px + py * py + pz * pz := cut_pos.trans h
  have hloc : (fun t => energy3 eps e4 q (px + t * vx) (py + t * vy) (pz + t * vz)) =ᶠ[nhds 0]
      fun t => 1 / 2 * (eps * (1 - 3 * e4) + 4 * eps * e4 *
        (((r1 q px py pz + t * r1 q vx vy vz) ^ 4 + (r2 q px py pz + t * r2 q vx vy vz) ^ 4
          + (r3 q px py pz + t * r3 q vx vy vz) ^ 4) / ((px + t * vx) * (px + t * vx) + (py + t * vy) * (py + t * vy)
      + (pz + t * vz) * (pz + t * vz)) ^ 2)) ^ 2 * ((px + t * vx) * (px + t * vx) + (py + t * vy) * (py + t * vy)
      + (pz + t * vz) * (pz + t * vz)) := by
    have hh : cut < (px + 0 * vx) * (px + 0 * vx) + (py + 0 * vy) * (py + 0 * vy) + (pz + 0 * vz) * (pz + 0 * vz) := by
      simp only [e0]; exact h
    filter_upwards [dG.continuousAt.eventually (lt_mem_nhds hh)] with t ht
    have hpos := cut_pos.trans ht
    simp only [energy3, n4c]
    rw [if_pos (by rw [abs_of_pos hpos]; exact ht), gam_eq _ _ _ he, n4_eq q _ _ _ hpos]
    obtain ⟨a, b, c⟩ := r_lin q px py pz vx vy vz t
    rw [a, b, c]
    ring
  have dA := (((lin (r1 q px py pz) (r1 q vx vy vz)).pow 4).add ((lin (r2 q px py pz) (r2 q vx vy vz)).pow 4)).add
    ((lin (r3 q px py pz) (r3 q vx vy vz)).pow 4)
  have dN := dA.div (dG.pow 2) (by simp only [Pi.pow_apply, e0]; exact pow_ne_zero 2 hg.ne')
  have dW := ((((dN.const_mul (4 * eps * e4)).const_add (eps * (1 - 3 * e4))).pow 2).const_mul (1 / 2)).mul dG
  refine (dW.congr_of_eventuallyEq hloc).congr_deriv ?_
  rw [flux3_dot eps e4 q px py pz vx vy vz h, gam_eq _ _ _ he, n4_eq q _ _ _ hg, hq]
  simp only [Pi.mul_apply, Pi.div_apply, Pi.pow_apply, Pi.add_apply, e0]
  generalize r1 q px py pz = a1
  generalize r2 q px py pz = a2
  generalize r3 q px py pz = a3
  generalize r1 q vx vy vz = b1
  generalize r2 q vx vy vz = b2
  generalize r3 q vx vy vz = b3
  generalize px * vx + py * vy + pz * vz = pv
  generalize px * px + py * py + pz * pz = g at hg
  have := hg.ne'
  push_cast
  field_simp
  ring

/-- **C63**: for a unit orientation the 3D flux has the component `gamma² |grad|²` along the gradient, twice the energy
density. -/
theorem c63_dissipative_3d (eps e4 : ℝ) (q : Q4) (hq : lenSq q = 1) (px py pz : ℝ) :
    fdot (flux3 eps e4 q px py pz) px py pz = 2 * energy3 eps e4 q px py pz := by
  by_cases h : |px * px + py * py + pz * pz| > cut
  · have hnn : 0 ≤ px * px + py * py + pz * pz := by
      nlinarith [mul_self_nonneg px, mul_self_nonneg py, mul_self_nonneg pz]
    rw [abs_of_nonneg hnn] at h
    have hg : 0 < px * px + py * py + pz * pz := cut_pos.trans h
    rw [flux3_dot eps e4 q px py pz px py pz h, hq]
    simp only [energy3, n4c]
    rw [if_pos (by rw [abs_of_pos hg]; exact h)]
    have hN := n4_eq q px py pz hg
    generalize n4 q (normal px py pz) = N at hN
    have : (r1 q px py pz ^ 3 * r1 q px py pz + r2 q px py pz ^ 3 * r2 q px py pz + r3 q px py pz ^ 3 * r3 q px py pz) /
        (px * px + py * py + pz * pz) = N * (px * px + py * py + pz * pz) := by
      rw [hN]; field_simp
    rw [this]
    ring
  · simp only [fdot, flux3, energy3, if_neg h]
    ring

/-- **C63 is violated** between two crystals: the mean of two different unit orientations is shorter than one, and the flux then
has along the gradient, besides `gamma² |grad|²`, the term `16 eps gamma e4 n4 |grad|² (1 - |q|⁴)`. -/
theorem c63_violation_shortened_3d (eps e4 : ℝ) (q : Q4) (px py pz : ℝ) (h : cut < px * px + py * py + pz * pz) :
    fdot (flux3 eps e4 q px py pz) px py pz = 2 * energy3 eps e4 q px py pz
      + 16 * eps * gam eps e4 (n4 q (normal px py pz)) * e4 * n4 q (normal px py pz)
        * (px * px + py * py + pz * pz) * (1 - lenSq q ^ 2) := by
  have hg : 0 < px * px + py * py + pz * pz := cut_pos.trans h
  rw [flux3_dot eps e4 q px py pz px py pz h]
  simp only [energy3, n4c]
  rw [if_pos (by rw [abs_of_pos hg]; exact h)]
  have hN := n4_eq q px py pz hg
  generalize n4 q (normal px py pz) = N at hN
  have : (r1 q px py pz ^ 3 * r1 q px py pz + r2 q px py pz ^ 3 * r2 q px py pz + r3 q px py pz ^ 3 * r3 q px py pz) /
      (px * px + py * py + pz * pz) = N * (px * px + py * py + pz * pz) := by
    rw [hN]; field_simp
  rw [this]
  ring

/-- The mean of two different unit orientations is shorter than one. -/
theorem faceQ_short (a b : Q4) (ha : lenSq a = 1) (hb : lenSq b = 1) (hab : a ≠ b) : lenSq (faceQ a b) < 1 := by
  have h : lenSq (faceQ a b) = 1 - ((a.q1 - b.q1) ^ 2 + (a.q2 - b.q2) ^ 2 + (a.q3 - b.q3) ^ 2 + (a.q4 - b.q4) ^ 2) / 4 := by
    simp only [lenSq, faceQ] at *
    linear_combination ha / 2 + hb / 2
  rw [h]
  by_contra hc
  have h0 : (a.q1 - b.q1) ^ 2 + (a.q2 - b.q2) ^ 2 + (a.q3 - b.q3) ^ 2 + (a.q4 - b.q4) ^ 2 ≤ 0 := by linarith
  have s1 := sq_nonneg (a.q1 - b.q1)
  have s2 := sq_nonneg (a.q2 - b.q2)
  have s3 := sq_nonneg (a.q3 - b.q3)
  have s4 := sq_nonneg (a.q4 - b.q4)
  apply hab
  ext
  · exact sub_eq_zero.mp (pow_eq_zero_iff two_ne_zero |>.mp (by linarith))
  · exact sub_eq_zero.mp (pow_eq_zero_iff two_ne_zero |>.mp (by linarith))
  · exact sub_eq_zero.mp (pow_eq_zero_iff two_ne_zero |>.mp (by linarith))
  · exact sub_eq_zero.mp (pow_eq_zero_iff two_ne_zero |>.mp (by linarith))

/-- **C63 is violated** on every face between differently oriented crystals (whose mean is not zero), for positive energies:
the flux along the gradient exceeds twice the energy density. -/
theorem c63_violation_grain_boundary_3d (eps e4 : ℝ) (heps : 0 < eps) (h4 : 0 < e4) (h4' : e4 < 1 / 3) (a b : Q4)
    (ha : lenSq a = 1) (hb : lenSq b = 1) (hab : a ≠ b) (hne : lenSq (faceQ a b) ≠ 0) (px py pz : ℝ)
    (h : cut < px * px + py * py + pz * pz) :
    2 * energy3 eps e4 (faceQ a b) px py pz < fdot (flux3 eps e4 (faceQ a b) px py pz) px py pz := by
  have hg : 0 < px * px + py * py + pz * pz := cut_pos.trans h
  rw [c63_violation_shortened_3d eps e4 _ px py pz h]
  have hs := faceQ_short a b ha hb hab
  set q := faceQ a b
  have hs0 : 0 ≤ lenSq q := by unfold lenSq; positivity
  have hN : 0 < n4 q (normal px py pz) := by
    rw [n4_eq q px py pz hg]
    refine div_pos ?_ (by positivity)
    by_contra hc
    have p1 : 0 ≤ r1 q px py pz ^ 4 := by positivity
    have p2 : 0 ≤ r2 q px py pz ^ 4 := by positivity
    have p3 : 0 ≤ r3 q px py pz ^ 4 := by positivity
    have z1 : r1 q px py pz = 0 := pow_eq_zero_iff (n := 4) (by norm_num) |>.mp (by linarith)
    have z2 : r2 q px py pz = 0 := pow_eq_zero_iff (n := 4) (by norm_num) |>.mp (by linarith)
    have z3 : r3 q px py pz = 0 := pow_eq_zero_iff (n := 4) (by norm_num) |>.mp (by linarith)
    have := r_dot q px py pz px py pz
    rw [z1, z2, z3] at this
    have : 0 < lenSq q ^ 2 * (px * px + py * py + pz * pz) := by positivity
    linarith
  have hG : 0 < gam eps e4 (n4 q (normal px py pz)) := by
    rw [gam_eq _ _ _ h4'.ne]
    have : 0 < eps * (1 - 3 * e4) := mul_pos heps (by linarith)
    positivity
  have h1 : 0 < 1 - lenSq q ^ 2 := by nlinarith
  have : 0 < 16 * eps * gam eps e4 (n4 q (normal px py pz)) * e4 * n4 q (normal px py pz)
        * (px * px + py * py + pz * pz) * (1 - lenSq q ^ 2) := by positivity
  linarith

/-! ## C64 in two dimensions -/

theorem clampQ_id {q : ℝ} (h1 : -1 ≤ q) (h2 : q ≤ 1) : clampQ q = q := by
  simp only [clampQ]
  rw [if_neg (not_lt.mpr h2), if_neg (not_lt.mpr h1)]

/-- The orientation of a crystal turned by the angle `alpha` in the plane, first component: `cos(alpha/2)` for quaternions,
`cos(alpha)` for two components, the angle itself for one. -/
noncomputable def turnedBy (qlen : ℕ) (alpha : ℝ) : ℝ :=
  if qlen = 4 then Real.cos (alpha / 2) else if qlen = 2 then Real.cos alpha else alpha

/-- What the interface energy of a crystal turned by `alpha` should be for a normal at angle `th`. -/
noncomputable def crystal (eps nu : ℝ) (k : ℕ) (th alpha : ℝ) : ℝ := eps * (1 + nu * Real.cos (k * (th - alpha)))

theorem refAngle_turnedBy (qlen : ℕ) (hq : qlen = 2 ∨ qlen = 4) (alpha : ℝ) (h : |alpha| ≤ Real.pi) :
    refAngle qlen (turnedBy qlen alpha) = |alpha| := by
  have hpi := Real.pi_pos
  rcases hq with rfl | rfl
  · simp only [refAngle, turnedBy]
    norm_num
    rw [clampQ_id (Real.neg_one_le_cos _) (Real.cos_le_one _), ← Real.cos_abs, Real.arccos_cos (abs_nonneg _) h]
  · simp only [refAngle, turnedBy, if_true]
    rw [clampQ_id (Real.neg_one_le_cos _) (Real.cos_le_one _), ← Real.cos_abs, Real.arccos_cos (abs_nonneg _)]
    · rw [abs_div, abs_of_pos (two_pos : (0 : ℝ) < 2)]; ring
    · rw [abs_div, abs_of_pos (two_pos : (0 : ℝ) < 2)]; linarith

/-- **C64** (partial): a crystal turned counter-clockwise by at most half a turn has the interface energy turned with it (two
and four components). -/
theorem c64_turned_2d_partial (qlen : ℕ) (hq : qlen = 2 ∨ qlen = 4) (eps nu : ℝ) (k : ℕ) (th alpha : ℝ)
    (h0 : 0 ≤ alpha) (h1 : alpha ≤ Real.pi) :
    epsTheta eps nu k th (refAngle qlen (turnedBy qlen alpha)) = crystal eps nu k th alpha := by
  rw [refAngle_turnedBy qlen hq alpha (by rw [abs_of_nonneg h0]; exact h1), abs_of_nonneg h0]
  rfl

/-- **C64 is violated** for crystals turned clockwise: they get the energy of the crystal turned by as much counter-clockwise,
which is right only for normals and angles with `sin(k th) sin(k alpha) = 0`. -/
theorem c64_violation_clockwise_2d (qlen : ℕ) (hq : qlen = 2 ∨ qlen = 4) (eps nu : ℝ) (heps : eps ≠ 0) (hnu : nu ≠ 0)
    (k : ℕ) (th alpha : ℝ) (h0 : alpha < 0) (h1 : -Real.pi ≤ alpha) :
    epsTheta eps nu k th (refAngle qlen (turnedBy qlen alpha)) = crystal eps nu k th (-alpha) ∧
    (epsTheta eps nu k th (refAngle qlen (turnedBy qlen alpha)) = crystal eps nu k th alpha ↔
      Real.sin (k * th) * Real.sin (k * alpha) = 0) := by
  have e : epsTheta eps nu k th (refAngle qlen (turnedBy qlen alpha)) = crystal eps nu k th (-alpha) := by
    rw [refAngle_turnedBy qlen hq alpha (by rw [abs_of_neg h0]; linarith), abs_of_neg h0]
    rfl
  refine ⟨e, ?_⟩
  rw [e]
  unfold crystal
  rw [mul_right_inj' heps, add_right_inj, mul_right_inj' hnu]
  have a1 : (k : ℝ) * (th - -alpha) = k * th + k * alpha := by ring
  have a2 : (k : ℝ) * (th - alpha) = k * th - k * alpha := by ring
  rw [a1, a2, Real.cos_add, Real.cos_sub]
  constructor <;> intro h <;> linarith

/-- **C64 is violated**: `q` and `-q` are the same rotation but get the energies of crystals turned in opposite directions. -/
theorem c64_violation_opposite_2d (eps nu : ℝ) (heps : eps ≠ 0) (hnu : nu ≠ 0) (k : ℕ) (th q : ℝ) (h0 : -1 ≤ q) (h1 : q ≤ 1) :
    epsTheta eps nu k th (refAngle 4 (-q)) = epsTheta eps nu k th (-refAngle 4 q) ∧
    (epsTheta eps nu k th (refAngle 4 (-q)) = epsTheta eps nu k th (refAngle 4 q) ↔
      Real.sin (k * th) * Real.sin (k * refAngle 4 q) = 0) := by
  have e : epsTheta eps nu k th (refAngle 4 (-q)) = epsTheta eps nu k th (-refAngle 4 q) := by
    simp only [refAngle, if_true, clampQ_id h0 h1, clampQ_id (show -1 ≤ -q by linarith) (show -q ≤ 1 by linarith),
      Real.arccos_neg, epsTheta]
    congr 3
    have : (k : ℝ) * (th - 2 * (Real.pi - Real.arccos q)) = k * (th - -(2 * Real.arccos q)) + (-(k : ℤ) : ℤ) * (2 * Real.pi) := by
      push_cast; ring
    rw [this, Real.cos_add_int_mul_two_pi]
  refine ⟨e, ?_⟩
  rw [e]
  unfold epsTheta
  rw [mul_right_inj' heps, add_right_inj, mul_right_inj' hnu]
  have a1 : (k : ℝ) * (th - -refAngle 4 q) = k * th + k * refAngle 4 q := by ring
  have a2 : (k : ℝ) * (th - refAngle 4 q) = k * th - k * refAngle 4 q := by ring
  rw [a1, a2, Real.cos_add, Real.cos_sub]
  constructor <;> intro h <;> linarith

/-- **C64 is violated** when the orientation is an angle: its arc cosine is taken, so all crystals turned by one radian or more
have the energy of the unturned one. -/
theorem c64_violation_angle_2d (eps nu : ℝ) (k : ℕ) (th alpha : ℝ) (h : 1 ≤ alpha) :
    epsTheta eps nu k th (refAngle 1 (turnedBy 1 alpha)) = crystal eps nu k th 0 := by
  have : clampQ alpha = 1 := by
    simp only [clampQ]
    rcases h.lt_or_eq with g | g
    · rw [if_pos g]; norm_num
    · subst g; norm_num
  simp [refAngle, turnedBy, this, Real.arccos_one, epsTheta, crystal]

/-- A crystal turned by three quarters of pi and the four-fold pattern: the anisotropy has the wrong sign. -/
example (eps nu th : ℝ) : epsTheta eps nu 4 th (refAngle 1 (turnedBy 1 (3 * Real.pi / 4))) =
    eps * (1 - nu * Real.cos ((4 : ℕ) * (th - 3 * Real.pi / 4))) := by
  rw [c64_violation_angle_2d eps nu 4 th _ (by linarith [Real.two_le_pi])]
  unfold crystal
  have : ((4 : ℕ) : ℝ) * (th - 3 * Real.pi / 4) = (4 : ℕ) * (th - 0) + Real.pi + ((-2 : ℤ) : ℝ) * (2 * Real.pi) := by push_cast; ring
  rw [this, Real.cos_add_int_mul_two_pi, Real.cos_add_pi]
  ring

/-! ## C64 in three dimensions -/

/-- **C64**: turning the sample, crystal and interface together, leaves the anisotropy unchanged; so does changing the sign of
the quaternion. -/
theorem c64_sample_turned_3d (q r : Q4) (hr : lenSq r = 1) (x y z : ℝ) :
    n4 (quatmult4 q (quatconj r)) (np r ⟨0, x, y, z⟩) = n4 q ⟨0, x, y, z⟩ ∧
    n4 ⟨-q.q1, -q.q2, -q.q3, -q.q4⟩ ⟨0, x, y, z⟩ = n4 q ⟨0, x, y, z⟩ := by
  have h1 : np (quatmult4 q (quatconj r)) (np r ⟨0, x, y, z⟩) =
      ⟨lenSq r ^ 2 * (np q ⟨0, x, y, z⟩).q1, lenSq r ^ 2 * (np q ⟨0, x, y, z⟩).q2, lenSq r ^ 2 * (np q ⟨0, x, y, z⟩).q3,
        lenSq r ^ 2 * (np q ⟨0, x, y, z⟩).q4⟩ := by
    ext <;> simp only [np, quatmult4, quatconj, lenSq] <;> ring
  constructor
  · simp only [n4]; rw [h1, hr]; simp only [one_pow, one_mul]
  · have hneg : np ⟨-q.q1, -q.q2, -q.q3, -q.q4⟩ ⟨0, x, y, z⟩ = np q ⟨0, x, y, z⟩ := by
      ext <;> simp only [np, quatmult4, quatconj] <;> ring
    simp only [n4]; rw [hneg]

theorem np_mul (p q : Q4) (x y z : ℝ) : np (quatmult4 p q) ⟨0, x, y, z⟩ = np p (np q ⟨0, x, y, z⟩) := by
  ext <;> simp only [np, quatmult4, quatconj] <;> ring

theorem np_pure (q : Q4) (x y z : ℝ) : np q ⟨0, x, y, z⟩ = ⟨0, r1 q x y z, r2 q x y z, r3 q x y z⟩ := by
  ext
  · simp only [np, quatmult4, quatconj]; ring
  · rfl
  · rfl
  · rfl

set_option maxRecDepth 4000 in
theorem n4_raw (x y z : ℝ) : ∀ v ∈ rawqr4,
    n4 (ofInt v) ⟨0, x, y, z⟩ = (inorm v : ℝ) ^ 4 * (x ^ 4 + y ^ 4 + z ^ 4) ∧
    n4 (quatconj (ofInt v)) ⟨0, x, y, z⟩ = (inorm v : ℝ) ^ 4 * (x ^ 4 + y ^ 4 + z ^ 4) := by
  simp only [rawqr4, List.forall_mem_cons, n4, np, quatmult4, quatconj, ofInt, inorm]
  push_cast
  refine ⟨?_, ?_, ?_, ?_, ?_, ?_, ?_, ?_, ?_, ?_, ?_, ?_, ?_, ?_, ?_, ?_, ?_, ?_, ?_, ?_, ?_, ?_, ?_, ?_, ?_, ?_, ?_, ?_,
    ?_, ?_, ?_, ?_, ?_, ?_, ?_, ?_, ?_, ?_, ?_, ?_, ?_, ?_, ?_, ?_, ?_, ?_, ?_, ?_, by simp⟩ <;> constructor <;> ring

/-- A listed rotation permutes the fourth powers. -/
theorem n4_table (k : ℤ) (h1 : 1 ≤ k) (h2 : k ≤ 48) (x y z : ℝ) :
    n4 (qr4 k) ⟨0, x, y, z⟩ = x ^ 4 + y ^ 4 + z ^ 4 ∧ n4 (quatconj (qr4 k)) ⟨0, x, y, z⟩ = x ^ 4 + y ^ 4 + z ^ 4 := by
  obtain ⟨v, hv, e, _⟩ := qr4_eq h1 h2
  have hn := raw_norm v hv
  have hge : (1:ℝ) ≤ quatmagsq4 (ofInt v) := by rw [magsq_ofInt]; exact_mod_cast hn
  have hpos : (0:ℝ) < (inorm v : ℝ) := by exact_mod_cast (by omega : 0 < inorm v)
  obtain ⟨a, b⟩ := n4_raw x y z v hv
  rw [e, norm4_of_ge hge, magsq_ofInt]
  have hs : (1 / Real.sqrt (inorm v : ℝ)) ^ 8 = 1 / (inorm v : ℝ) ^ 4 := by
    have : Real.sqrt (inorm v : ℝ) ^ 8 = (inorm v : ℝ) ^ 4 := by
      calc Real.sqrt (inorm v : ℝ) ^ 8 = (Real.sqrt (inorm v : ℝ) ^ 2) ^ 4 := by ring
        _ = _ := by rw [Real.sq_sqrt hpos.le]
    rw [div_pow, one_pow, this]
  have sc : ∀ (t : ℝ) (q : Q4), n4 (smul4 t q) ⟨0, x, y, z⟩ = t ^ 8 * n4 q ⟨0, x, y, z⟩ ∧
      n4 (quatconj (smul4 t q)) ⟨0, x, y, z⟩ = t ^ 8 * n4 (quatconj q) ⟨0, x, y, z⟩ := by
    have lin : ∀ (t : ℝ) (q : Q4), np (smul4 t q) ⟨0, x, y, z⟩ = smul4 (t ^ 2) (np q ⟨0, x, y, z⟩) := by
      intro t q
      ext <;> simp only [np, quatmult4, quatconj, smul4] <;> ring
    have cj : ∀ (t : ℝ) (q : Q4), quatconj (smul4 t q) = smul4 t (quatconj q) := by
      intro t q
      ext <;> simp only [quatconj, smul4] <;> ring
    intro t q
    rw [cj]
    simp only [n4, lin]
    simp only [smul4]
    constructor <;> ring
  rw [(sc _ _).1, (sc _ _).2, a, b, hs]
  have := pow_pos hpos 4
  constructor <;> field_simp

/-- **C64 is violated** in 3D: the equivalent orientations of a crystal are `q·s` with `s` one of the 48 rotations
(`quatsymmrotate`), but the anisotropy is unchanged when `s` multiplies from the other side; for `q·s` it is that of
another interface normal, the one turned by `s`. -/
theorem c64_violation_symmetry_3d (q : Q4) (k : ℤ) (h1 : 1 ≤ k) (h2 : k ≤ 48) (x y z : ℝ) :
    n4 (quatmult4 q (qr4 k)) ⟨0, x, y, z⟩ = n4 q (np (qr4 k) ⟨0, x, y, z⟩) ∧
    n4 (quatmult4 (qr4 k) q) ⟨0, x, y, z⟩ = n4 q ⟨0, x, y, z⟩ := by
  constructor
  · simp only [n4]; rw [np_mul]
  · have e : n4 (quatmult4 (qr4 k) q) ⟨0, x, y, z⟩ = n4 (qr4 k) (np q ⟨0, x, y, z⟩) := by simp only [n4]; rw [np_mul]
    rw [e, np_pure, (n4_table k h1 h2 _ _ _).1]
    rfl

/-- **C64** (partial): with the conjugate orientation the same formula does not depend on which of the equivalent orientations
is stored. -/
theorem c64_symmetry_conj_partial (q : Q4) (k : ℤ) (h1 : 1 ≤ k) (h2 : k ≤ 48) (x y z : ℝ) :
    n4 (quatconj (quatmult4 q (qr4 k))) ⟨0, x, y, z⟩ = n4 (quatconj q) ⟨0, x, y, z⟩ := by
  have hc : quatconj (quatmult4 q (qr4 k)) = quatmult4 (quatconj (qr4 k)) (quatconj q) := by
    ext <;> simp only [quatmult4, quatconj] <;> ring
  have e : n4 (quatconj (quatmult4 q (qr4 k))) ⟨0, x, y, z⟩ = n4 (quatconj (qr4 k)) (np (quatconj q) ⟨0, x, y, z⟩) := by
    rw [hc]; simp only [n4]; rw [np_mul]
  rw [e, np_pure, (n4_table k h1 h2 _ _ _).2]
  rfl

/-- **C64 is violated**: a unit orientation, one of its equivalents and a unit normal for which the two energies differ. -/
theorem c64_violation_symmetry_witness : ∃ (q : Q4) (k : ℤ) (x y z : ℝ), lenSq q = 1 ∧ 1 ≤ k ∧ k ≤ 48 ∧
    x ^ 2 + y ^ 2 + z ^ 2 = 1 ∧ n4 (quatmult4 q (qr4 k)) ⟨0, x, y, z⟩ ≠ n4 q ⟨0, x, y, z⟩ := by
  refine ⟨⟨3 / 5, 4 / 5, 0, 0⟩, 11, 0, 1, 0, by norm_num [lenSq], by norm_num, by norm_num, by norm_num, ?_⟩
  rw [(c64_violation_symmetry_3d _ 11 (by norm_num) (by norm_num) _ _ _).1]
  have hu : lenSq (qr4 11) = 1 := (c14_table_sound 11 (by norm_num) (by norm_num)).1
  have hq : (qr4 11).q2 = 0 ∧ (qr4 11).q3 = 0 ∧ (qr4 11).q4 = (qr4 11).q1 := by
    have : rawqr4.getD (11 - 1 : ℤ).toNat (0, 0, 0, 0) = (1, 0, 0, 1) := by decide
    simp only [qr4, this, quatnorm4]
    norm_num
  have h2 : 2 * (qr4 11).q1 ^ 2 = 1 := by
    simp only [lenSq, hq.1, hq.2.1, hq.2.2] at hu
    linarith
  have e : np (qr4 11) ⟨0, 0, 1, 0⟩ = ⟨0, -1, 0, 0⟩ := by
    ext <;> simp only [np, quatmult4, quatconj, hq.1, hq.2.1, hq.2.2] <;> linarith
  rw [e]
  norm_num [n4, np, quatmult4, quatconj]

/-! ## Non-vacuity -/

/-- A gradient along the diagonal is away from the cut-off. -/
example : HasDerivAt (fun t => energy2 1 (1 / 10) 4 0 (1 + t * 1) (1 + t * 0))
    (flux0 1 (1 / 10) 4 0 1 1 * 1 + flux1 1 (1 / 10) 4 0 1 1 * 0) 0 :=
  c63_flux_is_gradient_2d 1 (1 / 10) 4 0 1 1 1 0 (by unfold cut; norm_num)

/-- Two different crystals meeting the hypotheses of the grain-boundary violation. -/
example : ∃ a b : Q4, lenSq a = 1 ∧ lenSq b = 1 ∧ a ≠ b ∧ lenSq (faceQ a b) ≠ 0 :=
  ⟨⟨1, 0, 0, 0⟩, ⟨3 / 5, 4 / 5, 0, 0⟩, by norm_num [lenSq], by norm_num [lenSq], by norm_num [Q4.ext_iff],
    by norm_num [lenSq, faceQ]⟩

end AMPE.Anisotropy.Props
