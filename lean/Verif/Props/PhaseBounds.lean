import Verif.Model.PhaseBounds
import Verif.Model.Thermal
import Verif.Proofs.Invariance
import Mathlib.Analysis.SpecialFunctions.Trigonometric.DerivHyp
import Mathlib.Tactic.FieldSimp
import Mathlib.Tactic.Linarith
import Mathlib.Tactic.Positivity

/-!
# C131: the phase stays between zero and one
-/

namespace AMPE.PhaseBounds.Props

open AMPE.Functions AMPE.Flux AMPE.PhaseRHS AMPE.Alloy AMPE.PhaseBounds AMPE.Invariance Set

/-! ## Specification -/

/-- Boundary conditions that do not create values outside `[lo, hi]`: every value the stencils read next to a cell is the value of a cell
(periodic, symmetric, zero flux) or comes from a value of the range prescribed on the face (`2 v - phi`). -/
def Closed2 (lo hi : ℝ) (cells : Finset (ℤ × ℤ)) (phi : Field2) : Prop :=
  ∀ c ∈ cells, ∀ a b : ℤ, -1 ≤ a → a ≤ 1 → -1 ≤ b → b ≤ 1 →
    (∃ q ∈ cells, phi (c.1 + a) (c.2 + b) = phi q.1 q.2) ∨ ∃ v, lo ≤ v ∧ v ≤ hi ∧ phi (c.1 + a) (c.2 + b) = 2 * v - phi c.1 c.2

def Closed3 (lo hi : ℝ) (cells : Finset (ℤ × ℤ × ℤ)) (phi : Field3) : Prop :=
  ∀ p ∈ cells, ∀ a b c : ℤ, -1 ≤ a → a ≤ 1 → -1 ≤ b → b ≤ 1 → -1 ≤ c → c ≤ 1 →
    (∃ q ∈ cells, phi (p.1 + a) (p.2.1 + b) (p.2.2 + c) = phi q.1 q.2.1 q.2.2) ∨
      ∃ v, lo ≤ v ∧ v ≤ hi ∧ phi (p.1 + a) (p.2.1 + b) (p.2.2 + c) = 2 * v - phi p.1 p.2.1 p.2.2

/-- The phase equation holds in all cells from time 0 to `T`; all other fields, the forces and the frame may change in any way. -/
def Solves2 (S : Setting) (st : Stencil) (fr : ℝ → Frame) (eps dx dy : ℝ) (f : ℝ → ℤ → ℤ → Force) (mob temp ogm : ℝ → Field2)
    (cells : Finset (ℤ × ℤ)) (T : ℝ) (phi : ℝ → Field2) : Prop :=
  ∀ t ∈ Icc 0 T, ∀ c ∈ cells, ∃ r, rate2 S st (fr t) eps dx dy (f t) (mob t) (temp t) (ogm t) (phi t) c.1 c.2 = some r ∧
    HasDerivAt (fun s => phi s c.1 c.2) r t

def Solves3 (S : Setting) (st : Stencil) (fr : ℝ → Frame) (eps dx dy dz : ℝ) (f : ℝ → ℤ → ℤ → ℤ → Force) (mob temp ogm : ℝ → Field3)
    (cells : Finset (ℤ × ℤ × ℤ)) (T : ℝ) (phi : ℝ → Field3) : Prop :=
  ∀ t ∈ Icc 0 T, ∀ c ∈ cells, ∃ r, rate3 S st (fr t) eps dx dy dz (f t) (mob t) (temp t) (ogm t) (phi t) c.1 c.2.1 c.2.2 = some r ∧
    HasDerivAt (fun s => phi s c.1 c.2.1 c.2.2) r t

/-- Coefficient of `phi (1 - phi)` in the biased wells, zero for the other forces. -/
noncomputable def slant : Force → ℝ
  | .bias alpha gamma te temp => alpha / (4 * Real.arctan 1) * Real.arctan (gamma * (te - temp))
  | .biasBeckermann alpha te temp => alpha * (te - temp)
  | _ => 0

/-- The cell Péclet condition: in a cell the frame moves slower than diffusion of the phase. -/
def FrameOk (fr : Frame) (dx eps share mob : ℝ) : Prop :=
  match fr with
  | .fixed => True
  | .centred vel => |vel| * dx ≤ 2 * (mob * (eps * eps)) * share
  | .upwind _ _ _ => False

/-- Share of the direct neighbours along x in the stencil. -/
noncomputable def share (st : Stencil) (dx dy : ℝ) : ℝ :=
  match st with
  | .simple => 1
  | .isotropic => (10 - 2 * (dx * dx / (dy * dy))) / 12

/-- Settings that keep the bounds: the energies are interpolated with 'p' or 'h' and the orientation term, if there is one, with
anything but 'l'. -/
def Keeps (S : Setting) : Prop :=
  (S.interp = 'p' ∨ S.interp = 'h') ∧ 0 ≤ S.scale ∧ (S.orient = true → S.o1 ≠ 'l' ∧ S.o2 ≠ 'l')

/-! ## One cell -/

theorem clamp_neg {x : ℝ} (h : x ≤ 0) : clamp x = 0 := by
  unfold clamp; rw [min_eq_right (by linarith), max_eq_left h]

theorem clamp_big {x : ℝ} (h : 1 ≤ x) : clamp x = 1 := by
  unfold clamp; rw [min_eq_left h, max_eq_right zero_le_one]

theorem deriv_low {o : Char} (ho : o ≠ 'l') {phi x : ℝ} (hphi : phi ≤ 0) (h : derivInterpFunc o phi = some x) : x = 0 := by
  unfold derivInterpFunc at h
  have hp : pos phi = 0 := max_eq_left hphi
  split_ifs at h <;> simp only [Option.some.injEq, clamp_neg hphi, hp] at h <;> rw [← h] <;> simp

theorem deriv_high {o : Char} {phi x : ℝ} (hphi : 1 ≤ phi) (hphi' : phi ≤ 4 / 3) (h : derivInterpFunc o phi = some x) : 0 ≤ x := by
  unfold derivInterpFunc at h
  have hp : pos phi = phi := max_eq_right (by linarith)
  split_ifs at h <;> simp only [Option.some.injEq, clamp_big hphi, hp] at h <;> rw [← h]
  · linarith
  · norm_num
  · norm_num
  · exact mul_nonneg (by linarith) (by linarith)
  · norm_num
  · norm_num
  · nlinarith
  · unfold gamma
    refine div_nonneg (mul_nonneg (by norm_num) ?_) (Real.log_nonneg (Real.one_le_cosh _))
    rw [Real.tanh_eq_sinh_div_cosh]
    exact div_nonneg (Real.sinh_nonneg_iff.2 (by linarith)) (Real.cosh_pos _).le

theorem interp_zero {o : Char} (ho : o = 'p' ∨ o = 'h') {phi : ℝ} (hphi : phi ≤ 0 ∨ 1 ≤ phi) : derivInterpFunc o phi = some 0 := by
  rcases ho with rfl | rfl <;> rcases hphi with h | h <;> simp [derivInterpFunc, clamp_neg, clamp_big, h]

theorem addForce_out {o : Char} (ho : o = 'p' ∨ o = 'h') {phi : ℝ} (hphi : phi ≤ 0 ∨ 1 ≤ phi) (f : Force) (r : ℝ) :
    addForce o f phi r = some (r + slant f * phi * (1 - phi)) := by
  have e := interp_zero ho hphi
  cases f <;> simp [addForce, slant, fenergyCell, driveQuadratic, driveCalphad, driveTernary, e, biasWell, biasWellBeckermann]

theorem cell_value (S : Setting) (hS : Keeps S) (f : Force) (mob diff phi temp ogm r : ℝ) (hphi : phi ≤ 0 ∨ 1 ≤ phi)
    (h : cellRate S f mob diff phi temp ogm = some r) :
    ∃ p1 p2 : ℝ, (S.orient = true → derivInterpFunc S.o1 phi = some p1 ∧ derivInterpFunc S.o2 phi = some p2) ∧
      r = mob * (diff - S.scale * (32 * phi * (1 - phi) * (1 - 2 * phi)) + slant f * phi * (1 - phi)
        - if S.orient then S.misor * temp * p1 * ogm + p2 * (0.5 * S.epsq * S.epsq) * ogm * ogm else 0) := by
  obtain ⟨hi, -, -⟩ := hS
  unfold cellRate pbgCell at h
  cases hor : S.orient with
  | false =>
    rw [hor] at h
    simp only [derivWellFunc, if_true, Bool.false_eq_true, if_false, Option.bind_eq_bind, Option.bind_some, addForce_out hi hphi,
      Option.map_some, Option.some.injEq] at h
    exact ⟨0, 0, fun h => absurd h (by simp), by rw [← h]; simp⟩
  | true =>
    rw [hor] at h
    simp only [derivWellFunc, if_true, Bool.false_eq_true, if_false, Option.bind_eq_bind, Option.bind_some] at h
    cases h1 : derivInterpFunc S.o1 phi with
    | none => rw [h1] at h; simp at h
    | some p1 =>
      cases h2 : derivInterpFunc S.o2 phi with
      | none => rw [h1, h2] at h; simp at h
      | some p2 =>
        rw [h1, h2] at h
        simp only [Option.bind_some, addForce_out hi hphi, Option.map_some, Option.some.injEq] at h
        refine ⟨p1, p2, fun _ => ⟨rfl, rfl⟩, ?_⟩
        rw [← h, if_pos rfl]; ring

theorem cell_low (S : Setting) (hS : Keeps S) (f : Force) (mob diff phi temp ogm r B : ℝ) (hmob : 0 ≤ mob) (hB : |mob * slant f| ≤ B)
    (h1 : -(1 / 3) < phi) (h0 : phi < 0) (h : cellRate S f mob diff phi temp ogm = some r) : mob * diff + 4 / 3 * B * phi ≤ r := by
  obtain ⟨p1, p2, hp, rfl⟩ := cell_value S hS f mob diff phi temp ogm r (Or.inl h0.le) h
  have ho : (if S.orient then S.misor * temp * p1 * ogm + p2 * (0.5 * S.epsq * S.epsq) * ogm * ogm else 0) = 0 := by
    split_ifs with hor
    · have a1 := deriv_low (hS.2.2 hor).1 h0.le (hp hor).1
      have a2 := deriv_low (hS.2.2 hor).2 h0.le (hp hor).2
      rw [a1, a2]; ring
    · rfl
  rw [ho]
  have hw : 0 ≤ mob * (S.scale * (32 * (-phi) * (1 - phi) * (1 - 2 * phi))) :=
    mul_nonneg hmob (mul_nonneg hS.2.1 (mul_nonneg (mul_nonneg (mul_nonneg (by norm_num) (by linarith)) (by linarith)) (by linarith)))
  have hb : -(B * (-phi * (1 - phi))) ≤ mob * slant f * (phi * (1 - phi)) := by
    have h2 := (abs_le.1 hB).2
    have h3 : 0 ≤ -phi * (1 - phi) := mul_nonneg (by linarith) (by linarith)
    nlinarith
  have hB0 : 0 ≤ B := (abs_nonneg _).trans hB
  have hc : B * (-phi * (1 - phi)) ≤ B * (-phi * (4 / 3)) :=
    mul_le_mul_of_nonneg_left (mul_le_mul_of_nonneg_left (by linarith) (by linarith)) hB0
  nlinarith

theorem cell_high (S : Setting) (hS : Keeps S) (f : Force) (mob diff phi temp ogm r B : ℝ) (hmob : 0 ≤ mob) (hB : |mob * slant f| ≤ B)
    (hmis : 0 ≤ S.misor * temp) (hogm : 0 ≤ ogm)
    (h1 : phi < 4 / 3) (h0 : 1 < phi) (h : cellRate S f mob diff phi temp ogm = some r) : r ≤ mob * diff + 4 / 3 * B * (phi - 1) := by
  obtain ⟨p1, p2, hp, rfl⟩ := cell_value S hS f mob diff phi temp ogm r (Or.inr h0.le) h
  have ho : 0 ≤ (if S.orient then S.misor * temp * p1 * ogm + p2 * (0.5 * S.epsq * S.epsq) * ogm * ogm else 0) := by
    split_ifs with hor
    · have a1 := deriv_high h0.le h1.le (hp hor).1
      have a2 := deriv_high h0.le h1.le (hp hor).2
      have e : 0 ≤ 0.5 * S.epsq * S.epsq := by rw [mul_assoc]; exact mul_nonneg (by norm_num) (mul_self_nonneg _)
      exact add_nonneg (mul_nonneg (mul_nonneg hmis a1) hogm) (mul_nonneg (mul_nonneg (mul_nonneg a2 e) hogm) hogm)
    · exact le_rfl
  have ho' := mul_nonneg hmob ho
  have hw : 0 ≤ mob * (S.scale * (32 * phi * (phi - 1) * (2 * phi - 1))) :=
    mul_nonneg hmob (mul_nonneg hS.2.1 (mul_nonneg (mul_nonneg (mul_nonneg (by norm_num) (by linarith)) (by linarith)) (by linarith)))
  have hb : mob * slant f * (phi * (1 - phi)) ≤ B * (phi * (phi - 1)) := by
    have h2 := (abs_le.1 hB).1
    have h3 : 0 ≤ phi * (phi - 1) := mul_nonneg (by linarith) (by linarith)
    nlinarith
  have hB0 : 0 ≤ B := (abs_nonneg _).trans hB
  have hc : B * (phi * (phi - 1)) ≤ B * (4 / 3 * (phi - 1)) :=
    mul_le_mul_of_nonneg_left (mul_le_mul_of_nonneg_right (by linarith) (by linarith)) hB0
  nlinarith

/-! ## The stencils -/

theorem diff_simple (eps dx dy : ℝ) (u : Field2) (i j : ℤ) :
    diffTerm2 .simple eps dx dy u i j = eps * eps * (1 / (dx * dx) * ((u (i + 1) j - u i j) + (u (i + -1) j - u i j))
      + 1 / (dy * dy) * ((u i (j + 1) - u i j) + (u i (j + -1) - u i j))) := by
  simp only [diffTerm2, div2, gradFluxX, gradFluxY, add_sub_cancel_right, ← sub_eq_add_neg]
  ring

theorem diff_iso (eps dx dy : ℝ) (u : Field2) (i j : ℤ) :
    diffTerm2 .isotropic eps dx dy u i j = eps * eps / 12 * (
      (10 * (1 / (dx * dx)) - 2 * (1 / (dy * dy))) * ((u (i + 1) j - u i j) + (u (i + -1) j - u i j))
      + (10 * (1 / (dy * dy)) - 2 * (1 / (dx * dx))) * ((u i (j + 1) - u i j) + (u i (j + -1) - u i j))
      + (1 / (dx * dx) + 1 / (dy * dy)) * ((u (i + 1) (j + 1) - u i j) + (u (i + 1) (j + -1) - u i j)
        + (u (i + -1) (j + 1) - u i j) + (u (i + -1) (j + -1) - u i j))) := by
  simp only [diffTerm2, div2, isoFluxX, isoFluxY, add_sub_cancel_right, ← sub_eq_add_neg]
  ring

/-- Diffusion and frame pull a cell towards its neighbours. -/
theorem pull2 (st : Stencil) (fr : Frame) (eps dx dy mob : ℝ) (hdx : 0 < dx) (hdy : 0 < dy) (hmob : 0 ≤ mob)
    (hst : st = .isotropic → dx * dx ≤ 5 * (dy * dy) ∧ dy * dy ≤ 5 * (dx * dx)) (hfr : FrameOk fr dx eps (share st dx dy) mob)
    (u : Field2) (i j : ℤ) (hu : ∀ a b : ℤ, -1 ≤ a → a ≤ 1 → -1 ≤ b → b ≤ 1 → u i j ≤ u (i + a) (j + b)) :
    0 ≤ mob * diffTerm2 st eps dx dy u i j + frameTerm fr dx (fun a => u a j) i := by
  have hE := hu 1 0 (by norm_num) (by norm_num) (by norm_num) (by norm_num)
  have hW := hu (-1) 0 (by norm_num) (by norm_num) (by norm_num) (by norm_num)
  have hN := hu 0 1 (by norm_num) (by norm_num) (by norm_num) (by norm_num)
  have hS := hu 0 (-1) (by norm_num) (by norm_num) (by norm_num) (by norm_num)
  have hNE := hu 1 1 (by norm_num) (by norm_num) (by norm_num) (by norm_num)
  have hSE := hu 1 (-1) (by norm_num) (by norm_num) (by norm_num) (by norm_num)
  have hNW := hu (-1) 1 (by norm_num) (by norm_num) (by norm_num) (by norm_num)
  have hSW := hu (-1) (-1) (by norm_num) (by norm_num) (by norm_num) (by norm_num)
  simp only [add_zero] at hE hW hN hS
  set A := mob * (eps * eps) with hA
  have hA0 : 0 ≤ A := mul_nonneg hmob (mul_self_nonneg _)
  set X := 1 / (dx * dx) with hX
  set Y := 1 / (dy * dy) with hY
  have hX0 : 0 < X := by positivity
  have hY0 : 0 < Y := by positivity
  -- the frame term
  have hframe : ∃ w : ℝ, |w| ≤ A * X * share st dx dy ∧ frameTerm fr dx (fun a => u a j) i = w * ((u (i + 1) j - u i j) - (u (i + -1) j - u i j)) := by
    cases fr with
    | fixed =>
      refine ⟨0, ?_, by simp [frameTerm]⟩
      rw [abs_zero]
      refine mul_nonneg (mul_nonneg hA0 hX0.le) ?_
      cases st with
      | simple => simp [share]
      | isotropic =>
        have := (hst rfl).1
        have h5 : dx * dx / (dy * dy) ≤ 5 := by rw [div_le_iff₀ (by positivity)]; exact this
        simp only [share]; linarith
    | centred vel =>
      refine ⟨vel / (2 * dx), ?_, ?_⟩
      · have h1 : |vel| * dx ≤ 2 * A * share st dx dy := hfr
        rw [abs_div, abs_of_pos (show (0:ℝ) < 2 * dx by linarith), div_le_iff₀ (by linarith)]
        have h2 : A * X * share st dx dy * (2 * dx) = 2 * A * share st dx dy / dx := by
          rw [hX]; field_simp
        rw [h2, le_div_iff₀ hdx]; exact h1
      · simp only [frameTerm, convect, ← sub_eq_add_neg]
        field_simp
        ring
    | upwind vel b l => exact absurd hfr (by simp [FrameOk])
  obtain ⟨w, hw, ew⟩ := hframe
  obtain ⟨hw1, hw2⟩ := abs_le.1 hw
  rw [ew]
  cases st with
  | simple =>
    simp only [share, mul_one] at hw1 hw2
    rw [diff_simple]
    have e : mob * (eps * eps * (X * ((u (i + 1) j - u i j) + (u (i + -1) j - u i j)) + Y * ((u i (j + 1) - u i j) + (u i (j + -1) - u i j))))
        + w * ((u (i + 1) j - u i j) - (u (i + -1) j - u i j)) = (A * X + w) * (u (i + 1) j - u i j) + (A * X - w) * (u (i + -1) j - u i j)
        + A * Y * ((u i (j + 1) - u i j) + (u i (j + -1) - u i j)) := by rw [hA]; ring
    rw [e]
    have := mul_nonneg (show 0 ≤ A * X + w by linarith) (sub_nonneg.2 hE)
    have := mul_nonneg (show 0 ≤ A * X - w by linarith) (sub_nonneg.2 hW)
    have := mul_nonneg (mul_nonneg hA0 hY0.le) (show 0 ≤ (u i (j + 1) - u i j) + (u i (j + -1) - u i j) by linarith)
    linarith
  | isotropic =>
    have hsh : X * share .isotropic dx dy = (10 * X - 2 * Y) / 12 := by
      simp only [share, hX, hY]; field_simp
    have hw1' : -(A * ((10 * X - 2 * Y) / 12)) ≤ w := by rw [← hsh, ← mul_assoc]; exact hw1
    have hw2' : w ≤ A * ((10 * X - 2 * Y) / 12) := by rw [← hsh, ← mul_assoc]; exact hw2
    have hy : 0 ≤ 10 * Y - 2 * X := by
      have := (hst rfl).2
      have : X ≤ 5 * Y := by
        rw [hX, hY, one_div, one_div, ← one_div, ← div_eq_mul_inv, div_le_div_iff₀ (by positivity) (by positivity)]; linarith
      linarith
    rw [diff_iso]
    have e : mob * (eps * eps / 12 * (
      (10 * X - 2 * Y) * ((u (i + 1) j - u i j) + (u (i + -1) j - u i j))
      + (10 * Y - 2 * X) * ((u i (j + 1) - u i j) + (u i (j + -1) - u i j))
      + (X + Y) * ((u (i + 1) (j + 1) - u i j) + (u (i + 1) (j + -1) - u i j)
        + (u (i + -1) (j + 1) - u i j) + (u (i + -1) (j + -1) - u i j)))) + w * ((u (i + 1) j - u i j) - (u (i + -1) j - u i j)) =
      (A * ((10 * X - 2 * Y) / 12) + w) * (u (i + 1) j - u i j) + (A * ((10 * X - 2 * Y) / 12) - w) * (u (i + -1) j - u i j)
      + A * ((10 * Y - 2 * X) / 12) * ((u i (j + 1) - u i j) + (u i (j + -1) - u i j))
      + A * ((X + Y) / 12) * ((u (i + 1) (j + 1) - u i j) + (u (i + 1) (j + -1) - u i j)
        + (u (i + -1) (j + 1) - u i j) + (u (i + -1) (j + -1) - u i j)) := by rw [hA]; ring
    rw [e]
    have := mul_nonneg (show 0 ≤ A * ((10 * X - 2 * Y) / 12) + w by linarith) (sub_nonneg.2 hE)
    have := mul_nonneg (show 0 ≤ A * ((10 * X - 2 * Y) / 12) - w by linarith) (sub_nonneg.2 hW)
    have := mul_nonneg (mul_nonneg hA0 (show 0 ≤ (10 * Y - 2 * X) / 12 by linarith))
      (show 0 ≤ (u i (j + 1) - u i j) + (u i (j + -1) - u i j) by linarith)
    have := mul_nonneg (mul_nonneg hA0 (show 0 ≤ (X + Y) / 12 by linarith)) (show 0 ≤ (u (i + 1) (j + 1) - u i j) + (u (i + 1) (j + -1) - u i j)
        + (u (i + -1) (j + 1) - u i j) + (u (i + -1) (j + -1) - u i j) by linarith)
    linarith

theorem neg_diff2 (st : Stencil) (eps dx dy : ℝ) (u : Field2) (i j : ℤ) :
    diffTerm2 st eps dx dy (fun a b => 1 - u a b) i j = -diffTerm2 st eps dx dy u i j := by
  cases st with
  | simple => rw [diff_simple, diff_simple]; ring
  | isotropic => rw [diff_iso, diff_iso]; ring

theorem neg_frame (fr : Frame) (dx : ℝ) (row : ℤ → ℝ) (i : ℤ) : frameTerm fr dx (fun a => 1 - row a) i = -frameTerm fr dx row i := by
  cases fr with
  | fixed => simp [frameTerm]
  | centred v => simp only [frameTerm, convect]; ring
  | upwind v b l =>
    simp only [frameTerm, convectUpwind3]
    split_ifs <;> ring

/-! ## C131 -/

/-- **C131** (2D): a phase that starts between zero and one stays there, whatever the temperature, the compositions, the orientations, the
mobility and the driving forces do; both stencils, fixed or moving frame (centred differences, cell Péclet condition). -/
theorem c131_between_2d_partial (S : Setting) (hS : Keeps S) (st : Stencil) (fr : ℝ → Frame) (eps dx dy : ℝ) (hdx : 0 < dx) (hdy : 0 < dy)
    (hst : st = .isotropic → dx * dx ≤ 5 * (dy * dy) ∧ dy * dy ≤ 5 * (dx * dx))
    (f : ℝ → ℤ → ℤ → Force) (mob temp ogm : ℝ → Field2) (cells : Finset (ℤ × ℤ)) (T : ℝ) (phi : ℝ → Field2)
    (hmob : ∀ t ∈ Icc 0 T, ∀ c ∈ cells, 0 ≤ mob t c.1 c.2)
    (hmis : ∀ t ∈ Icc 0 T, ∀ c ∈ cells, 0 ≤ S.misor * temp t c.1 c.2) (hogm : ∀ t ∈ Icc 0 T, ∀ c ∈ cells, 0 ≤ ogm t c.1 c.2)
    (hfr : ∀ t ∈ Icc 0 T, ∀ c ∈ cells, FrameOk (fr t) dx eps (share st dx dy) (mob t c.1 c.2))
    (hB : ∃ B, ∀ t ∈ Icc 0 T, ∀ c ∈ cells, |mob t c.1 c.2 * slant (f t c.1 c.2)| ≤ B)
    (hcl : ∀ t ∈ Icc 0 T, Closed2 0 1 cells (phi t)) (hsol : Solves2 S st fr eps dx dy f mob temp ogm cells T phi)
    (h0 : ∀ c ∈ cells, 0 ≤ phi 0 c.1 c.2 ∧ phi 0 c.1 c.2 ≤ 1) :
    ∀ t ∈ Icc 0 T, ∀ c ∈ cells, 0 ≤ phi t c.1 c.2 ∧ phi t c.1 c.2 ≤ 1 := by
  obtain ⟨B, hB⟩ := hB
  choose! v hv hd using hsol
  have split : ∀ t ∈ Icc 0 T, ∀ c ∈ cells, ∃ r, cellRate S (f t c.1 c.2) (mob t c.1 c.2) (diffTerm2 st eps dx dy (phi t) c.1 c.2) (phi t c.1 c.2)
      (temp t c.1 c.2) (ogm t c.1 c.2) = some r ∧ v t c = r + frameTerm (fr t) dx (fun a => phi t a c.2) c.1 := fun t ht c hc => by
    obtain ⟨r, h1, h2⟩ := Option.map_eq_some_iff.1 (hv t ht c hc)
    exact ⟨r, h1, h2.symm⟩
  have low := stays_nonneg cells (fun t c => phi t c.1 c.2) v T (4 / 3 * B) (1 / 3) (by norm_num) hd (fun c hc => (h0 c hc).1)
    fun t ht c hc hmin h1 h2 => by
      obtain ⟨r, hr, e⟩ := split t ht c hc
      have := cell_low S hS _ _ _ _ _ _ _ B (hmob t ht c hc) (hB t ht c hc) h1 h2 hr
      have := pull2 st (fr t) eps dx dy (mob t c.1 c.2) hdx hdy (hmob t ht c hc) hst (hfr t ht c hc) (phi t) c.1 c.2 fun a b a1 a2 b1 b2 => by
        rcases hcl t ht c hc a b a1 a2 b1 b2 with ⟨q, hq, e⟩ | ⟨w, w1, w2, e⟩
        · rw [e]; exact hmin q hq
        · rw [e]; linarith
      rw [e]; linarith
  have high := stays_nonneg cells (fun t c => 1 - phi t c.1 c.2) (fun t c => -v t c) T (4 / 3 * B) (1 / 3) (by norm_num)
    (fun t ht c hc => (hd t ht c hc).const_sub 1) (fun c hc => sub_nonneg.2 (h0 c hc).2)
    fun t ht c hc hmin h1 h2 => by
      obtain ⟨r, hr, e⟩ := split t ht c hc
      have := cell_high S hS _ _ _ _ _ _ _ B (hmob t ht c hc) (hB t ht c hc) (hmis t ht c hc) (hogm t ht c hc) (by linarith) (by linarith) hr
      have := pull2 st (fr t) eps dx dy (mob t c.1 c.2) hdx hdy (hmob t ht c hc) hst (hfr t ht c hc) (fun a b => 1 - phi t a b) c.1 c.2
        fun a b a1 a2 b1 b2 => by
          rcases hcl t ht c hc a b a1 a2 b1 b2 with ⟨q, hq, e⟩ | ⟨w, w1, w2, e⟩
          · rw [e]; exact hmin q hq
          · rw [e]; linarith
      rw [neg_diff2, neg_frame (fr t) dx (fun a => phi t a c.2) c.1] at this
      rw [e]; linarith
  exact fun t ht c hc => ⟨low t ht c hc, sub_nonneg.1 (high t ht c hc)⟩

theorem pull3 (fr : Frame) (eps dx dy dz mob : ℝ) (hdx : 0 < dx) (hdy : 0 < dy) (hdz : 0 < dz) (hmob : 0 ≤ mob) (hfr : FrameOk fr dx eps 1 mob)
    (u : Field3) (i j k : ℤ) (hu : ∀ a b c : ℤ, -1 ≤ a → a ≤ 1 → -1 ≤ b → b ≤ 1 → -1 ≤ c → c ≤ 1 → u i j k ≤ u (i + a) (j + b) (k + c)) :
    0 ≤ mob * div3 dx dy dz (gradFlux3X eps dx u) (gradFlux3Y eps dy u) (gradFlux3Z eps dz u) i j k + frameTerm fr dx (fun a => u a j k) i := by
  have h1 := hu 0 0 1 (by norm_num) (by norm_num) (by norm_num) (by norm_num) (by norm_num) (by norm_num)
  have h2 := hu 0 0 (-1) (by norm_num) (by norm_num) (by norm_num) (by norm_num) (by norm_num) (by norm_num)
  have h3 := fun a b a1 a2 b1 b2 => hu a b 0 a1 a2 b1 b2 (by norm_num) (by norm_num)
  simp only [add_zero] at h1 h2 h3
  have key := pull2 .simple fr eps dx dy mob hdx hdy hmob (fun h => by cases h) hfr (fun a b => u a b k) i j h3
  have e : div3 dx dy dz (gradFlux3X eps dx u) (gradFlux3Y eps dy u) (gradFlux3Z eps dz u) i j k
      = diffTerm2 .simple eps dx dy (fun a b => u a b k) i j + eps * eps * (1 / (dz * dz)) * ((u i j (k + 1) - u i j k) + (u i j (k + -1) - u i j k)) := by
    rw [diff_simple]
    simp only [div3, gradFlux3X, gradFlux3Y, gradFlux3Z, add_sub_cancel_right, ← sub_eq_add_neg]
    ring
  rw [e]
  have : 0 ≤ mob * (eps * eps * (1 / (dz * dz)) * ((u i j (k + 1) - u i j k) + (u i j (k + -1) - u i j k))) :=
    mul_nonneg hmob (mul_nonneg (mul_nonneg (mul_self_nonneg _) (by positivity)) (by linarith))
  linarith

theorem neg_diff3 (eps dx dy dz : ℝ) (u : Field3) (i j k : ℤ) :
    div3 dx dy dz (gradFlux3X eps dx (fun a b c => 1 - u a b c)) (gradFlux3Y eps dy (fun a b c => 1 - u a b c))
      (gradFlux3Z eps dz (fun a b c => 1 - u a b c)) i j k
    = -div3 dx dy dz (gradFlux3X eps dx u) (gradFlux3Y eps dy u) (gradFlux3Z eps dz u) i j k := by
  simp only [div3, gradFlux3X, gradFlux3Y, gradFlux3Z]
  ring

/-- **C131** (3D). -/
theorem c131_between_3d_partial (S : Setting) (hS : Keeps S) (st : Stencil) (fr : ℝ → Frame) (eps dx dy dz : ℝ) (hdx : 0 < dx) (hdy : 0 < dy)
    (hdz : 0 < dz) (f : ℝ → ℤ → ℤ → ℤ → Force) (mob temp ogm : ℝ → Field3) (cells : Finset (ℤ × ℤ × ℤ)) (T : ℝ) (phi : ℝ → Field3)
    (hmob : ∀ t ∈ Icc 0 T, ∀ c ∈ cells, 0 ≤ mob t c.1 c.2.1 c.2.2)
    (hmis : ∀ t ∈ Icc 0 T, ∀ c ∈ cells, 0 ≤ S.misor * temp t c.1 c.2.1 c.2.2)
    (hogm : ∀ t ∈ Icc 0 T, ∀ c ∈ cells, 0 ≤ ogm t c.1 c.2.1 c.2.2)
    (hfr : ∀ t ∈ Icc 0 T, ∀ c ∈ cells, FrameOk (fr t) dx eps 1 (mob t c.1 c.2.1 c.2.2))
    (hB : ∃ B, ∀ t ∈ Icc 0 T, ∀ c ∈ cells, |mob t c.1 c.2.1 c.2.2 * slant (f t c.1 c.2.1 c.2.2)| ≤ B)
    (hcl : ∀ t ∈ Icc 0 T, Closed3 0 1 cells (phi t)) (hsol : Solves3 S st fr eps dx dy dz f mob temp ogm cells T phi)
    (h0 : ∀ c ∈ cells, 0 ≤ phi 0 c.1 c.2.1 c.2.2 ∧ phi 0 c.1 c.2.1 c.2.2 ≤ 1) :
    ∀ t ∈ Icc 0 T, ∀ c ∈ cells, 0 ≤ phi t c.1 c.2.1 c.2.2 ∧ phi t c.1 c.2.1 c.2.2 ≤ 1 := by
  obtain ⟨B, hB⟩ := hB
  choose! v hv hd using hsol
  have split : ∀ t ∈ Icc 0 T, ∀ c ∈ cells, ∃ r, cellRate S (f t c.1 c.2.1 c.2.2) (mob t c.1 c.2.1 c.2.2)
      (div3 dx dy dz (gradFlux3X eps dx (phi t)) (gradFlux3Y eps dy (phi t)) (gradFlux3Z eps dz (phi t)) c.1 c.2.1 c.2.2)
      (phi t c.1 c.2.1 c.2.2) (temp t c.1 c.2.1 c.2.2) (ogm t c.1 c.2.1 c.2.2) = some r ∧
      v t c = r + frameTerm (fr t) dx (fun a => phi t a c.2.1 c.2.2) c.1 := fun t ht c hc => by
    have h := hv t ht c hc
    cases st with
    | isotropic => exact absurd h (by simp [rate3])
    | simple =>
      obtain ⟨r, h1, h2⟩ := Option.map_eq_some_iff.1 h
      exact ⟨r, h1, h2.symm⟩
  have low := stays_nonneg cells (fun t c => phi t c.1 c.2.1 c.2.2) v T (4 / 3 * B) (1 / 3) (by norm_num) hd (fun c hc => (h0 c hc).1)
    fun t ht c hc hmin h1 h2 => by
      obtain ⟨r, hr, e⟩ := split t ht c hc
      have := cell_low S hS _ _ _ _ _ _ _ B (hmob t ht c hc) (hB t ht c hc) h1 h2 hr
      have := pull3 (fr t) eps dx dy dz (mob t c.1 c.2.1 c.2.2) hdx hdy hdz (hmob t ht c hc) (hfr t ht c hc) (phi t) c.1 c.2.1 c.2.2
        fun a b d a1 a2 b1 b2 d1 d2 => by
          rcases hcl t ht c hc a b d a1 a2 b1 b2 d1 d2 with ⟨q, hq, e⟩ | ⟨w, w1, w2, e⟩
          · rw [e]; exact hmin q hq
          · rw [e]; linarith
      rw [e]; linarith
  have high := stays_nonneg cells (fun t c => 1 - phi t c.1 c.2.1 c.2.2) (fun t c => -v t c) T (4 / 3 * B) (1 / 3) (by norm_num)
    (fun t ht c hc => (hd t ht c hc).const_sub 1) (fun c hc => sub_nonneg.2 (h0 c hc).2)
    fun t ht c hc hmin h1 h2 => by
      obtain ⟨r, hr, e⟩ := split t ht c hc
      have := cell_high S hS _ _ _ _ _ _ _ B (hmob t ht c hc) (hB t ht c hc) (hmis t ht c hc) (hogm t ht c hc) (by linarith) (by linarith) hr
      have := pull3 (fr t) eps dx dy dz (mob t c.1 c.2.1 c.2.2) hdx hdy hdz (hmob t ht c hc) (hfr t ht c hc) (fun a b d => 1 - phi t a b d)
        c.1 c.2.1 c.2.2 fun a b d a1 a2 b1 b2 d1 d2 => by
          rcases hcl t ht c hc a b d a1 a2 b1 b2 d1 d2 with ⟨q, hq, e⟩ | ⟨w, w1, w2, e⟩
          · rw [e]; exact hmin q hq
          · rw [e]; linarith
      rw [neg_diff3, neg_frame (fr t) dx (fun a => phi t a c.2.1 c.2.2) c.1] at this
      rw [e]; linarith
  exact fun t ht c hc => ⟨low t ht c hc, sub_nonneg.1 (high t ht c hc)⟩

open AMPE.Thermal in
/-- **C131**, heat equation: without phase change the temperature stays within its initial range (and the range of prescribed boundary
temperatures), 2D. -/
theorem c131_heat_2d (lo hi dx dy diff L : ℝ) (hdiff : 0 ≤ diff) (cp phiRhs : ℝ → Field2) (cells : Finset (ℤ × ℤ))
    (T : ℝ) (u : ℝ → Field2) (hcl : ∀ t ∈ Icc 0 T, Closed2 lo hi cells (u t))
    (hsol : ∀ t ∈ Icc 0 T, ∀ c ∈ cells, HasDerivAt (fun s => u s c.1 c.2) (rhsTemp2 dx dy diff L false (u t) (cp t) (phiRhs t) c.1 c.2) t)
    (h0 : ∀ c ∈ cells, lo ≤ u 0 c.1 c.2 ∧ u 0 c.1 c.2 ≤ hi) :
    ∀ t ∈ Icc 0 T, ∀ c ∈ cells, lo ≤ u t c.1 c.2 ∧ u t c.1 c.2 ≤ hi := by
  have X : 0 ≤ 1 / (dx * dx) := div_nonneg zero_le_one (mul_self_nonneg _)
  have Y : 0 ≤ 1 / (dy * dy) := div_nonneg zero_le_one (mul_self_nonneg _)
  have low := stays_nonneg cells (fun t c => u t c.1 c.2 - lo) _ T 0 1 one_pos (fun t ht c hc => (hsol t ht c hc).sub_const lo)
    (fun c hc => sub_nonneg.2 (h0 c hc).1) fun t ht c hc hmin _ h2 => by
      have nb : ∀ a b : ℤ, -1 ≤ a → a ≤ 1 → -1 ≤ b → b ≤ 1 → u t c.1 c.2 ≤ u t (c.1 + a) (c.2 + b) := fun a b a1 a2 b1 b2 => by
        rcases hcl t ht c hc a b a1 a2 b1 b2 with ⟨q, hq, e⟩ | ⟨w, w1, w2, e⟩
        · rw [e]; linarith [hmin q hq]
        · rw [e]; linarith
      have h1 := nb 1 0 (by norm_num) (by norm_num) (by norm_num) (by norm_num)
      have h2 := nb (-1) 0 (by norm_num) (by norm_num) (by norm_num) (by norm_num)
      have h3 := nb 0 1 (by norm_num) (by norm_num) (by norm_num) (by norm_num)
      have h4 := nb 0 (-1) (by norm_num) (by norm_num) (by norm_num) (by norm_num)
      simp only [add_zero, ← sub_eq_add_neg] at h1 h2 h3 h4
      simp only [rhsTemp2, laplacian2, Bool.false_eq_true, if_false, zero_mul]
      exact mul_nonneg hdiff (add_nonneg (mul_nonneg (by linarith) X) (mul_nonneg (by linarith) Y))
  have high := stays_nonneg cells (fun t c => hi - u t c.1 c.2) _ T 0 1 one_pos (fun t ht c hc => (hsol t ht c hc).const_sub hi)
    (fun c hc => sub_nonneg.2 (h0 c hc).2) fun t ht c hc hmin _ h2 => by
      have nb : ∀ a b : ℤ, -1 ≤ a → a ≤ 1 → -1 ≤ b → b ≤ 1 → u t (c.1 + a) (c.2 + b) ≤ u t c.1 c.2 := fun a b a1 a2 b1 b2 => by
        rcases hcl t ht c hc a b a1 a2 b1 b2 with ⟨q, hq, e⟩ | ⟨w, w1, w2, e⟩
        · rw [e]; linarith [hmin q hq]
        · rw [e]; linarith
      have h1 := nb 1 0 (by norm_num) (by norm_num) (by norm_num) (by norm_num)
      have h2 := nb (-1) 0 (by norm_num) (by norm_num) (by norm_num) (by norm_num)
      have h3 := nb 0 1 (by norm_num) (by norm_num) (by norm_num) (by norm_num)
      have h4 := nb 0 (-1) (by norm_num) (by norm_num) (by norm_num) (by norm_num)
      simp only [add_zero, ← sub_eq_add_neg] at h1 h2 h3 h4
      simp only [rhsTemp2, laplacian2, Bool.false_eq_true, if_false, zero_mul]
      refine neg_nonneg.2 (mul_nonpos_of_nonneg_of_nonpos hdiff (add_nonpos (mul_nonpos_of_nonpos_of_nonneg (by linarith) X)
        (mul_nonpos_of_nonpos_of_nonneg (by linarith) Y)))
  exact fun t ht c hc => ⟨sub_nonneg.1 (low t ht c hc), sub_nonneg.1 (high t ht c hc)⟩

open AMPE.Thermal in
/-- **C131**, heat equation, 3D. -/
theorem c131_heat_3d (lo hi dx dy dz diff L : ℝ) (hdiff : 0 ≤ diff) (cp phiRhs : ℝ → Field3) (cells : Finset (ℤ × ℤ × ℤ))
    (T : ℝ) (u : ℝ → Field3) (hcl : ∀ t ∈ Icc 0 T, Closed3 lo hi cells (u t))
    (hsol : ∀ t ∈ Icc 0 T, ∀ c ∈ cells, HasDerivAt (fun s => u s c.1 c.2.1 c.2.2)
      (rhsTemp3 dx dy dz diff L false (u t) (cp t) (phiRhs t) c.1 c.2.1 c.2.2) t)
    (h0 : ∀ c ∈ cells, lo ≤ u 0 c.1 c.2.1 c.2.2 ∧ u 0 c.1 c.2.1 c.2.2 ≤ hi) :
    ∀ t ∈ Icc 0 T, ∀ c ∈ cells, lo ≤ u t c.1 c.2.1 c.2.2 ∧ u t c.1 c.2.1 c.2.2 ≤ hi := by
  have X : 0 ≤ 1 / (dx * dx) := div_nonneg zero_le_one (mul_self_nonneg _)
  have Y : 0 ≤ 1 / (dy * dy) := div_nonneg zero_le_one (mul_self_nonneg _)
  have Z : 0 ≤ 1 / (dz * dz) := div_nonneg zero_le_one (mul_self_nonneg _)
  have low := stays_nonneg cells (fun t c => u t c.1 c.2.1 c.2.2 - lo) _ T 0 1 one_pos (fun t ht c hc => (hsol t ht c hc).sub_const lo)
    (fun c hc => sub_nonneg.2 (h0 c hc).1) fun t ht c hc hmin _ h2 => by
      have nb : ∀ a b d : ℤ, -1 ≤ a → a ≤ 1 → -1 ≤ b → b ≤ 1 → -1 ≤ d → d ≤ 1 → u t c.1 c.2.1 c.2.2 ≤ u t (c.1 + a) (c.2.1 + b) (c.2.2 + d) :=
        fun a b d a1 a2 b1 b2 d1 d2 => by
          rcases hcl t ht c hc a b d a1 a2 b1 b2 d1 d2 with ⟨q, hq, e⟩ | ⟨w, w1, w2, e⟩
          · rw [e]; linarith [hmin q hq]
          · rw [e]; linarith
      have h1 := nb 1 0 0 (by norm_num) (by norm_num) (by norm_num) (by norm_num) (by norm_num) (by norm_num)
      have h2 := nb (-1) 0 0 (by norm_num) (by norm_num) (by norm_num) (by norm_num) (by norm_num) (by norm_num)
      have h3 := nb 0 1 0 (by norm_num) (by norm_num) (by norm_num) (by norm_num) (by norm_num) (by norm_num)
      have h4 := nb 0 (-1) 0 (by norm_num) (by norm_num) (by norm_num) (by norm_num) (by norm_num) (by norm_num)
      have h5 := nb 0 0 1 (by norm_num) (by norm_num) (by norm_num) (by norm_num) (by norm_num) (by norm_num)
      have h6 := nb 0 0 (-1) (by norm_num) (by norm_num) (by norm_num) (by norm_num) (by norm_num) (by norm_num)
      simp only [add_zero, ← sub_eq_add_neg] at h1 h2 h3 h4 h5 h6
      simp only [rhsTemp3, laplacian3, Bool.false_eq_true, if_false, zero_mul]
      exact mul_nonneg hdiff (add_nonneg (add_nonneg (mul_nonneg (by linarith) X) (mul_nonneg (by linarith) Y)) (mul_nonneg (by linarith) Z))
  have high := stays_nonneg cells (fun t c => hi - u t c.1 c.2.1 c.2.2) _ T 0 1 one_pos (fun t ht c hc => (hsol t ht c hc).const_sub hi)
    (fun c hc => sub_nonneg.2 (h0 c hc).2) fun t ht c hc hmin _ h2 => by
      have nb : ∀ a b d : ℤ, -1 ≤ a → a ≤ 1 → -1 ≤ b → b ≤ 1 → -1 ≤ d → d ≤ 1 → u t (c.1 + a) (c.2.1 + b) (c.2.2 + d) ≤ u t c.1 c.2.1 c.2.2 :=
        fun a b d a1 a2 b1 b2 d1 d2 => by
          rcases hcl t ht c hc a b d a1 a2 b1 b2 d1 d2 with ⟨q, hq, e⟩ | ⟨w, w1, w2, e⟩
          · rw [e]; linarith [hmin q hq]
          · rw [e]; linarith
      have h1 := nb 1 0 0 (by norm_num) (by norm_num) (by norm_num) (by norm_num) (by norm_num) (by norm_num)
      have h2 := nb (-1) 0 0 (by norm_num) (by norm_num) (by norm_num) (by norm_num) (by norm_num) (by norm_num)
      have h3 := nb 0 1 0 (by norm_num) (by norm_num) (by norm_num) (by norm_num) (by norm_num) (by norm_num)
      have h4 := nb 0 (-1) 0 (by norm_num) (by norm_num) (by norm_num) (by norm_num) (by norm_num) (by norm_num)
      have h5 := nb 0 0 1 (by norm_num) (by norm_num) (by norm_num) (by norm_num) (by norm_num) (by norm_num)
      have h6 := nb 0 0 (-1) (by norm_num) (by norm_num) (by norm_num) (by norm_num) (by norm_num) (by norm_num)
      simp only [add_zero, ← sub_eq_add_neg] at h1 h2 h3 h4 h5 h6
      simp only [rhsTemp3, laplacian3, Bool.false_eq_true, if_false, zero_mul]
      exact neg_nonneg.2 (mul_nonpos_of_nonneg_of_nonpos hdiff (add_nonpos (add_nonpos (mul_nonpos_of_nonpos_of_nonneg (by linarith) X)
        (mul_nonpos_of_nonpos_of_nonneg (by linarith) Y)) (mul_nonpos_of_nonpos_of_nonneg (by linarith) Z)))
  exact fun t ht c hc => ⟨sub_nonneg.1 (low t ht c hc), sub_nonneg.1 (high t ht c hc)⟩

/-! ## Where the bounds are lost -/

theorem diff_uniform (st : Stencil) (eps dx dy w : ℝ) (u : Field2) (hu : ∀ a b, u a b = w) (i j : ℤ) : diffTerm2 st eps dx dy u i j = 0 := by
  cases st with
  | simple => rw [diff_simple]; simp [hu]
  | isotropic => rw [diff_iso]; simp [hu]

theorem frame_uniform (fr : Frame) (dx w : ℝ) (row : ℤ → ℝ) (hu : ∀ a, row a = w) (i : ℤ) : frameTerm fr dx row i = 0 := by
  cases fr with
  | fixed => rfl
  | centred v => simp [frameTerm, convect, hu]
  | upwind v b l => simp only [frameTerm, convectUpwind3, hu]; split_ifs <;> ring

/-- Violation: with the linear interpolation of the energies the melt does not stay at zero.  A melt without any solid (phase zero everywhere)
whose energy is below that of the solid, hence stable, gets a negative phase at once; in the same way a solid of lower energy than the melt
gets a phase above one (`deriv_interp_func` tests `phi > 0 or phi < 1`, which is always true). -/
theorem c131_violation_linear (S : Setting) (hl : S.interp = 'l') (ho : S.orient = false) (st : Stencil) (fr : ℝ → Frame) (eps dx dy : ℝ)
    (f : ℝ → ℤ → ℤ → Force) (mob temp ogm : ℝ → Field2) (cells : Finset (ℤ × ℤ)) (T : ℝ) (hT : 0 ≤ T) (phi : ℝ → Field2)
    (hsol : Solves2 S st fr eps dx dy f mob temp ogm cells T phi) (c : ℤ × ℤ) (hc : c ∈ cells) (fl fa : ℝ)
    (hf : f 0 c.1 c.2 = .energies fl fa) (hmob : 0 < mob 0 c.1 c.2) :
    ((∀ a b, phi 0 a b = 0) → fl < fa → ∃ τ > 0, ∀ t ∈ Ioo 0 τ, phi t c.1 c.2 < 0) ∧
      ((∀ a b, phi 0 a b = 1) → fa < fl → ∃ τ > 0, ∀ t ∈ Ioo 0 τ, 1 < phi t c.1 c.2) := by
  obtain ⟨r, hr, hd⟩ := hsol 0 ⟨le_rfl, hT⟩ c hc
  have key : ∀ w : ℝ, (w = 0 ∨ w = 1) → (∀ a b, phi 0 a b = w) → r = mob 0 c.1 c.2 * (fl - fa) := fun w hw hu => by
    unfold rate2 cellRate pbgCell at hr
    have hl' : derivInterpFunc 'l' w = some 1 := by
      rcases hw with rfl | rfl <;> simp [derivInterpFunc]
    rw [diff_uniform st eps dx dy w _ hu, frame_uniform _ dx w _ (fun a => hu a c.2), ho, hf, hl, hu] at hr
    simp [derivWellFunc, addForce, fenergyCell, hl'] at hr
    rcases hw with rfl | rfl
    · simp at hr; rw [← hr]
    · simp at hr; rw [← hr]
  refine ⟨fun hu hlt => ?_, fun hu hlt => ?_⟩
  · refine eventually_neg hd (hu _ _) ?_
    rw [key 0 (Or.inl rfl) hu]
    exact mul_neg_of_pos_of_neg hmob (by linarith)
  · obtain ⟨τ, h1, h2⟩ := eventually_neg (hd.const_sub 1) (by simp [hu]) (by
      rw [key 1 (Or.inr rfl) hu]; exact neg_neg_of_pos (mul_pos hmob (by linarith)))
    exact ⟨τ, h1, fun t ht => by linarith [h2 t ht]⟩

/-- Violation: with the linear interpolation of the orientation term, grain boundaries of the orientation in a region without solid make the
phase negative. -/
theorem c131_violation_orient_linear (S : Setting) (hi : S.interp = 'p' ∨ S.interp = 'h') (ho : S.orient = true) (hl : S.o1 = 'l') (st : Stencil)
    (fr : ℝ → Frame) (eps dx dy : ℝ)
    (f : ℝ → ℤ → ℤ → Force) (mob temp ogm : ℝ → Field2) (cells : Finset (ℤ × ℤ)) (T : ℝ) (hT : 0 ≤ T) (phi : ℝ → Field2)
    (hsol : Solves2 S st fr eps dx dy f mob temp ogm cells T phi) (c : ℤ × ℤ) (hc : c ∈ cells)
    (hmob : 0 < mob 0 c.1 c.2) (hmis : 0 < S.misor * temp 0 c.1 c.2) (hogm : 0 < ogm 0 c.1 c.2) (hu : ∀ a b, phi 0 a b = 0) :
    ∃ τ > 0, ∀ t ∈ Ioo 0 τ, phi t c.1 c.2 < 0 := by
  obtain ⟨r, hr, hd⟩ := hsol 0 ⟨le_rfl, hT⟩ c hc
  refine eventually_neg hd (hu _ _) ?_
  unfold rate2 cellRate pbgCell at hr
  rw [diff_uniform st eps dx dy 0 _ hu, frame_uniform _ dx 0 _ (fun a => hu a c.2), ho, hl, hu] at hr
  have hl' : derivInterpFunc 'l' 0 = some 1 := by simp [derivInterpFunc]
  cases h2 : derivInterpFunc S.o2 0 with
  | none => rw [h2, hl'] at hr; simp [derivWellFunc] at hr
  | some p2 =>
    have hp2 : 0 ≤ p2 := by
      by_cases h : S.o2 = 'l'
      · rw [h, hl'] at h2; rw [← Option.some.inj h2]; norm_num
      · exact (deriv_low h le_rfl h2).ge
    rw [h2, hl'] at hr
    simp only [derivWellFunc, if_true, Bool.false_eq_true, if_false, Option.bind_eq_bind, Option.bind_some, addForce_out hi (Or.inl le_rfl),
      Option.map_some, Option.some.injEq] at hr
    rw [← hr]
    have e : 0 ≤ p2 * (0.5 * S.epsq * S.epsq) * ogm 0 c.1 c.2 * ogm 0 c.1 c.2 := by
      rw [mul_assoc]
      exact mul_nonneg (mul_nonneg hp2 (by rw [mul_assoc]; exact mul_nonneg (by norm_num) (mul_self_nonneg _))) (mul_self_nonneg _)
    have := mul_pos hmis hogm
    have : mob 0 c.1 c.2 * (0 - S.scale * (32 * 0 * (1 - 0) * (1 - 2 * 0)) - S.misor * temp 0 c.1 c.2 * 1 * ogm 0 c.1 c.2
        - p2 * (0.5 * S.epsq * S.epsq) * ogm 0 c.1 c.2 * ogm 0 c.1 c.2 + slant (f 0 c.1 c.2) * 0 * (1 - 0)) < 0 :=
      mul_neg_of_pos_of_neg hmob (by nlinarith)
    linarith

/-- Rate in a cell of the melt: diffusion and frame only. -/
theorem rate_zero (S : Setting) (hS : Keeps S) (st : Stencil) (fr : Frame) (eps dx dy : ℝ) (f : ℤ → ℤ → Force) (mob temp ogm phi : Field2)
    (i j : ℤ) (r : ℝ) (h : rate2 S st fr eps dx dy f mob temp ogm phi i j = some r) (h0 : phi i j = 0) :
    r = mob i j * diffTerm2 st eps dx dy phi i j + frameTerm fr dx (fun a => phi a j) i := by
  obtain ⟨r', h1, rfl⟩ := Option.map_eq_some_iff.1 h
  rw [h0] at h1
  obtain ⟨p1, p2, hp, rfl⟩ := cell_value S hS _ _ _ _ _ _ _ (Or.inl le_rfl) h1
  have ho : (if S.orient then S.misor * temp i j * p1 * ogm i j + p2 * (0.5 * S.epsq * S.epsq) * ogm i j * ogm i j else 0) = 0 := by
    split_ifs with hor
    · have a1 := deriv_low (hS.2.2 hor).1 le_rfl (hp hor).1
      have a2 := deriv_low (hS.2.2 hor).2 le_rfl (hp hor).2
      rw [a1, a2]; ring
    · rfl
  rw [ho]; ring

/-- Violation: a frame moving too fast for the mesh (`v dx > 2 M epsilon^2`) makes the phase negative in the melt in front of a solid. -/
theorem c131_violation_frame (S : Setting) (hS : Keeps S) (fr : ℝ → Frame) (vel eps dx dy : ℝ) (hdx : 0 < dx) (hfr : fr 0 = .centred vel)
    (f : ℝ → ℤ → ℤ → Force) (mob temp ogm : ℝ → Field2) (cells : Finset (ℤ × ℤ)) (T : ℝ) (hT : 0 ≤ T) (phi : ℝ → Field2)
    (hsol : Solves2 S .simple fr eps dx dy f mob temp ogm cells T phi) (c : ℤ × ℤ) (hc : c ∈ cells)
    (hvel : 2 * (mob 0 c.1 c.2 * (eps * eps)) < vel * dx) (hw : 0 < phi 0 (c.1 - 1) c.2) (h0 : phi 0 c.1 c.2 = 0) (hE : phi 0 (c.1 + 1) c.2 = 0)
    (hN : phi 0 c.1 (c.2 + 1) = 0) (hS' : phi 0 c.1 (c.2 - 1) = 0) :
    ∃ τ > 0, ∀ t ∈ Ioo 0 τ, phi t c.1 c.2 < 0 := by
  obtain ⟨r, hr, hd⟩ := hsol 0 ⟨le_rfl, hT⟩ c hc
  refine eventually_neg hd h0 ?_
  rw [rate_zero S hS _ _ _ _ _ _ _ _ _ _ _ _ _ hr h0, diff_simple, hfr]
  simp only [frameTerm, convect, ← sub_eq_add_neg, h0, hE, hN, hS']
  have e : mob 0 c.1 c.2 * (eps * eps * (1 / (dx * dx) * (0 - 0 + (phi 0 (c.1 - 1) c.2 - 0)) + 1 / (dy * dy) * (0 - 0 + (0 - 0))))
      + 0.5 * vel / dx * (0 - phi 0 (c.1 - 1) c.2) = (2 * (mob 0 c.1 c.2 * (eps * eps)) - vel * dx) * (phi 0 (c.1 - 1) c.2 / (2 * (dx * dx))) := by
    field_simp; ring
  rw [e]
  exact mul_neg_of_neg_of_pos (by linarith) (by positivity)

/-- Violation: the third order upwind formula makes the phase negative in the second cell before a solid, at any speed. -/
theorem c131_violation_upwind (S : Setting) (hS : Keeps S) (fr : ℝ → Frame) (vel eps dx dy : ℝ) (hdx : 0 < dx) (physb : Bool) (ilast : ℤ)
    (hfr : fr 0 = .upwind vel physb ilast) (hvel : 0 < vel)
    (f : ℝ → ℤ → ℤ → Force) (mob temp ogm : ℝ → Field2) (cells : Finset (ℤ × ℤ)) (T : ℝ) (hT : 0 ≤ T) (phi : ℝ → Field2)
    (hsol : Solves2 S .simple fr eps dx dy f mob temp ogm cells T phi) (c : ℤ × ℤ) (hc : c ∈ cells) (hlast : c.1 ≠ ilast)
    (h0 : phi 0 c.1 c.2 = 0) (hE : phi 0 (c.1 + 1) c.2 = 0) (hW : phi 0 (c.1 - 1) c.2 = 0)
    (hN : phi 0 c.1 (c.2 + 1) = 0) (hS' : phi 0 c.1 (c.2 - 1) = 0) (hw : 0 < phi 0 (c.1 + 2) c.2) :
    ∃ τ > 0, ∀ t ∈ Ioo 0 τ, phi t c.1 c.2 < 0 := by
  obtain ⟨r, hr, hd⟩ := hsol 0 ⟨le_rfl, hT⟩ c hc
  refine eventually_neg hd h0 ?_
  rw [rate_zero S hS _ _ _ _ _ _ _ _ _ _ _ _ _ hr h0, diff_simple, hfr]
  simp only [frameTerm, convectUpwind3, ← sub_eq_add_neg, h0, hE, hN, hS', hW, if_neg (fun h : physb = true ∧ c.1 = ilast => hlast h.2)]
  have : 0 < vel / (6 * dx) * phi 0 (c.1 + 2) c.2 := by positivity
  linarith

/-- Violation: on cells of aspect ratio above `√5` the isotropic stencil makes the phase negative next to a solid. -/
theorem c131_violation_aspect (S : Setting) (hS : Keeps S) (fr : ℝ → Frame) (eps dx dy : ℝ) (hdx : 0 < dx) (hdy : 0 < dy) (heps : eps ≠ 0)
    (hfr : fr 0 = .fixed) (f : ℝ → ℤ → ℤ → Force) (mob temp ogm : ℝ → Field2) (cells : Finset (ℤ × ℤ)) (T : ℝ) (hT : 0 ≤ T) (phi : ℝ → Field2)
    (hsol : Solves2 S .isotropic fr eps dx dy f mob temp ogm cells T phi) (c : ℤ × ℤ) (hc : c ∈ cells) (hmob : 0 < mob 0 c.1 c.2)
    (w : ℝ) (hw : 0 < w) :
    (5 * (dx * dx) < dy * dy → (∀ a b, phi 0 a b = if a = c.1 ∧ b = c.2 + 1 then w else 0) → ∃ τ > 0, ∀ t ∈ Ioo 0 τ, phi t c.1 c.2 < 0) ∧
    (5 * (dy * dy) < dx * dx → (∀ a b, phi 0 a b = if a = c.1 + 1 ∧ b = c.2 then w else 0) → ∃ τ > 0, ∀ t ∈ Ioo 0 τ, phi t c.1 c.2 < 0) := by
  obtain ⟨r, hr, hd⟩ := hsol 0 ⟨le_rfl, hT⟩ c hc
  have hee : 0 < eps * eps := mul_self_pos.2 heps
  have key : ∀ p q : ℝ, 0 < p → 0 < q → 5 * p < q → mob 0 c.1 c.2 * (eps * eps / 12 * ((10 * (1 / q) - 2 * (1 / p)) * w)) < 0 := fun p q hp hq h => by
    have : 10 * (1 / q) - 2 * (1 / p) < 0 := by
      rw [mul_one_div, mul_one_div, sub_neg, div_lt_div_iff₀ hq hp]; linarith
    exact mul_neg_of_pos_of_neg hmob (mul_neg_of_pos_of_neg (by positivity) (mul_neg_of_neg_of_pos this hw))
  refine ⟨fun h5 hu => ?_, fun h5 hu => ?_⟩
  · have h0 : phi 0 c.1 c.2 = 0 := by rw [hu]; simp
    refine eventually_neg hd h0 ?_
    rw [rate_zero S hS _ _ _ _ _ _ _ _ _ _ _ _ _ hr h0, diff_iso, hfr]
    simp only [frameTerm, hu]
    have := key (dx * dx) (dy * dy) (by positivity) (by positivity) h5
    simpa using this
  · have h0 : phi 0 c.1 c.2 = 0 := by rw [hu]; simp
    refine eventually_neg hd h0 ?_
    rw [rate_zero S hS _ _ _ _ _ _ _ _ _ _ _ _ _ hr h0, diff_iso, hfr]
    simp only [frameTerm, hu]
    have := key (dy * dy) (dx * dx) (by positivity) (by positivity) h5
    simpa using this

/-! ## The hypotheses are met -/

/-- Periodic fields satisfy the boundary condition. -/
theorem closed_of_periodic (lo hi : ℝ) (nx ny : ℤ) (hx : 0 < nx) (hy : 0 < ny) (u : Field2) (px : ∀ a b, u (a + nx) b = u a b)
    (py : ∀ a b, u a (b + ny) = u a b) : Closed2 lo hi (Finset.Ico 0 nx ×ˢ Finset.Ico 0 ny) u := by
  intro c hc a b a1 a2 b1 b2
  rw [Finset.mem_product, Finset.mem_Ico, Finset.mem_Ico] at hc
  obtain ⟨⟨x1, x2⟩, y1, y2⟩ := hc
  have wrap : ∀ n x : ℤ, 0 < n → -1 ≤ x → x ≤ n → ∃ y, 0 ≤ y ∧ y < n ∧ (y = x ∨ y = x + n ∨ x = y + n) := fun n x hn h1 h2 => by
    by_cases h : x < 0
    · exact ⟨x + n, by omega, by omega, by omega⟩
    · by_cases h' : x < n
      · exact ⟨x, by omega, h', by omega⟩
      · exact ⟨x - n, by omega, by omega, by omega⟩
  obtain ⟨p, p1, p2, p3⟩ := wrap nx (c.1 + a) hx (by omega) (by omega)
  obtain ⟨q, q1, q2, q3⟩ := wrap ny (c.2 + b) hy (by omega) (by omega)
  refine Or.inl ⟨(p, q), by rw [Finset.mem_product, Finset.mem_Ico, Finset.mem_Ico]; exact ⟨⟨p1, p2⟩, q1, q2⟩, ?_⟩
  have e1 : ∀ y, u (c.1 + a) y = u p y := fun y => by
    rcases p3 with h | h | h
    · rw [h]
    · rw [h, px]
    · rw [h, px]
  rw [e1]
  rcases q3 with h | h | h
  · rw [h]
  · rw [h, py]
  · rw [h, py]

/-- A field reflected at the walls (zero flux) satisfies the boundary condition. -/
example : Closed2 0 1 {(0, 0)} (fun _ _ => 1 / 2) := fun _ _ _ _ _ _ _ _ => Or.inl ⟨(0, 0), by simp, rfl⟩

/-- A face value prescribed between zero and one as well. -/
example : Closed2 0 1 {(0, 0)} (fun a _ => if a = 0 then 1 / 4 else 7 / 4) := fun c hc a b a1 a2 b1 b2 => by
  rw [Finset.mem_singleton] at hc; subst hc
  by_cases h : a = 0
  · exact Or.inl ⟨(0, 0), by simp, by simp [h]⟩
  · exact Or.inr ⟨1, by norm_num, le_rfl, by simp [h]; norm_num⟩

/-- A run with orientations, a moving frame and a driving force: the phase decreases linearly from 1/2 on a periodic mesh.  All hypotheses
of `c131_between_2d_partial` hold. -/
example : let S : Setting := ⟨'p', 'q', 'q', 1, 0, 1, true⟩
    let phi : ℝ → Field2 := fun t _ _ => 1 / 2 - t / 8
    let fr : ℝ → Frame := fun _ => .centred 1
    ∃ f : ℝ → ℤ → ℤ → Force, Keeps S ∧ Solves2 S .isotropic fr 1 1 1 f (fun _ _ _ => 1) (fun _ _ _ => 1) (fun _ _ _ => 0)
      (Finset.Ico 0 4 ×ˢ Finset.Ico 0 4) 1 phi ∧ (∀ t, Closed2 0 1 (Finset.Ico 0 4 ×ˢ Finset.Ico 0 4) (phi t)) ∧
      ∀ t, FrameOk (fr t) 1 1 (share .isotropic 1 1) 1 := by
  intro S phi fr
  refine ⟨fun t _ _ => .energies ((32 * (1 / 2 - t / 8) * (1 - (1 / 2 - t / 8)) * (1 - 2 * (1 / 2 - t / 8)) - 1 / 8)
      / (30 * (1 / 2 - t / 8) * (1 / 2 - t / 8) * (1 - (1 / 2 - t / 8)) * (1 - (1 / 2 - t / 8)))) 0,
    ⟨Or.inl rfl, by norm_num, fun _ => ⟨by decide, by decide⟩⟩, fun t ht c _ => ⟨-(1 / 8), ?_, ?_⟩,
    fun t => closed_of_periodic 0 1 4 4 (by norm_num) (by norm_num) _ (fun _ _ => rfl) fun _ _ => rfl, fun t => ?_⟩
  · have hc : clamp (1 / 2 - t / 8) = 1 / 2 - t / 8 := by
      unfold clamp; rw [min_eq_right (by linarith [ht.1]), max_eq_right (by linarith [ht.2])]
    have h1 : 0 < 1 / 2 - t / 8 := by linarith [ht.2]
    have h2 : 0 < 1 - (1 / 2 - t / 8) := by linarith [ht.1]
    unfold rate2 cellRate pbgCell
    rw [diff_uniform _ _ _ _ (1 / 2 - t / 8) _ (fun _ _ => rfl), frame_uniform _ _ (1 / 2 - t / 8) _ (fun _ => rfl)]
    simp only [S, phi, derivWellFunc, derivInterpFunc, addForce, fenergyCell, hc]
    simp only [Char.reduceEq, if_true, if_false, Bool.false_eq_true, Option.bind_eq_bind, Option.bind_some, Option.map_some, Option.some.injEq]
    have e : ∀ x y : ℝ, x ≠ 0 → x * (y / x - 0) = y := fun x y h => by field_simp; ring
    rw [e _ _ (by positivity)]
    ring
  · exact (((hasDerivAt_id t).div_const 8).const_sub (1 / 2)).congr_deriv (by norm_num)
  · norm_num [FrameOk, share, fr]

/-- A run of `c131_violation_linear` (wells on, scale 1): the phase is `-t`. -/
example : Solves2 ⟨'l', 'q', 'q', 1, 0, 0, false⟩ .simple (fun _ => .fixed) 1 1 1
    (fun t _ _ => .energies (32 * (-t) * (1 + t) * (1 + 2 * t)) 1) (fun _ _ _ => 1) (fun _ _ _ => 1) (fun _ _ _ => 0) {(0, 0)} 1 (fun t _ _ => -t) := by
  intro t ht c _
  refine ⟨-1, ?_, (hasDerivAt_id t).neg⟩
  unfold rate2 cellRate pbgCell
  rw [diff_uniform _ _ _ _ (-t) _ (fun _ _ => rfl), frame_uniform _ _ (-t) _ (fun _ => rfl)]
  have hl : derivInterpFunc 'l' (-t) = some 1 := by
    unfold derivInterpFunc; simp; intro h; linarith [ht.1]
  simp [derivWellFunc, addForce, fenergyCell, hl]
  ring

/-- A run of `c131_violation_frame`: one cell in front of a solid, `M epsilon^2 = 1`, `v = 4`, unit cells. -/
example : Solves2 ⟨'p', 'q', 'q', 0, 0, 0, false⟩ .simple (fun _ => .centred 4) 1 1 1
    (fun _ _ _ => .none) (fun _ _ _ => 1) (fun _ _ _ => 1) (fun _ _ _ => 0) {(0, 0)} 1
    (fun t a b => if a = 0 ∧ b = 0 then -(1 - Real.exp (-4 * t)) / 4 else if a = -1 ∧ b = 0 then 1 else 0) := by
  intro t ht c hc
  rw [Finset.mem_singleton] at hc; subst hc
  refine ⟨-Real.exp (-4 * t), ?_, ?_⟩
  · unfold rate2 cellRate pbgCell
    rw [diff_simple]
    simp [derivWellFunc, addForce, frameTerm, convect]
    ring
  · have h := (((hasDerivAt_id t).const_mul (-4 : ℝ)).exp.const_sub 1).neg.div_const 4
    simp only [and_self, if_true]
    exact h.congr_deriv (by simp; ring)

/-- **C131**: inside the interface the melting driving force lets the solid grow exactly below the melting temperature and is zero
at it. -/
theorem c131_melting_sign {o : Char} (ho : o = 'p' ∨ o = 'h') {tm latent : ℝ} (htm : 0 < tm) (hl : 0 < latent) {phi : ℝ} (h0 : 0 < phi)
    (h1 : phi < 1) (w rhs : ℝ) :
    ∃ r, addForce o (.melting tm latent w) phi rhs = some r ∧ (rhs < r ↔ w < tm) ∧ (r = rhs ↔ w = tm) := by
  have hd : ∃ hp, derivInterpFunc o phi = some hp ∧ 0 < hp := by
    have h2 : 0 < 1 - phi := by linarith
    have hc : clamp phi = phi := by simp [clamp, h0.le, h1.le]
    rcases ho with rfl | rfl
    · exact ⟨30 * phi * phi * (1 - phi) * (1 - phi), by simp [derivInterpFunc, hc], by positivity⟩
    · exact ⟨6 * phi * (1 - phi), by simp [derivInterpFunc, hc], by positivity⟩
  obtain ⟨hp, he, hpos⟩ := hd
  have hk : 0 < latent / tm * hp := by positivity
  refine ⟨rhs + latent / tm * (tm - w) * hp, by simp [addForce, he], ?_, ?_⟩
  · rw [show latent / tm * (tm - w) * hp = latent / tm * hp * (tm - w) by ring, lt_add_iff_pos_right, mul_pos_iff_of_pos_left hk, sub_pos]
  · rw [show latent / tm * (tm - w) * hp = latent / tm * hp * (tm - w) by ring, add_eq_left, mul_eq_zero, or_iff_right hk.ne', sub_eq_zero,
      eq_comm]

end AMPE.PhaseBounds.Props
