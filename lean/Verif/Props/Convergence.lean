import Verif.Model.HeatOrder
import Verif.Model.MultiBounds
import Verif.Props.PhaseBounds
import Verif.Props.HeatOrder
import Verif.Proofs.Converge
import Verif.Proofs.Functions
import Mathlib.Analysis.Calculus.ContDiff.Operations
import Mathlib.Analysis.SpecialFunctions.Trigonometric.Deriv

/-!
# C140: refining the mesh leads to the solution of the field equations
-/

namespace AMPE.Convergence.Props

open AMPE.Functions AMPE.Flux AMPE.PhaseRHS AMPE.Alloy AMPE.PhaseBounds AMPE.PhaseBounds.Props AMPE.HeatOrder AMPE.HeatOrder.Props AMPE.Converge Set
open AMPE.Thermal (laplacian2 laplacian3)

/-! ## The equations -/

/-- Laplacian of a function of the plane. -/
noncomputable def lap2 (u : ℝ → ℝ → ℝ) (x y : ℝ) : ℝ :=
  iteratedDeriv 2 (fun s => u s y) x + iteratedDeriv 2 (fun s => u x s) y

/-- Laplacian of a function of space. -/
noncomputable def lap3 (u : ℝ → ℝ → ℝ → ℝ) (x y z : ℝ) : ℝ :=
  iteratedDeriv 2 (fun s => u s y z) x + iteratedDeriv 2 (fun s => u x s z) y + iteratedDeriv 2 (fun s => u x y s) z

/-- Four times differentiable along both axes; `B3`, `B4` bound the third derivative along x and the fourth derivatives, `Bm` the
derivative `u_xxyy`. -/
structure Smooth2 (u : ℝ → ℝ → ℝ) (B3 B4 Bm : ℝ) : Prop where
  x : ∀ y, ContDiff ℝ 4 (fun s => u s y)
  y : ∀ x, ContDiff ℝ 4 (fun s => u x s)
  m : ∀ x, ContDiff ℝ 2 (fun r => iteratedDeriv 2 (fun s => u s r) x)
  x3 : ∀ x y, |iteratedDeriv 3 (fun s => u s y) x| ≤ B3
  x4 : ∀ x y, |iteratedDeriv 4 (fun s => u s y) x| ≤ B4
  y4 : ∀ x y, |iteratedDeriv 4 (fun s => u x s) y| ≤ B4
  m4 : ∀ x y, |iteratedDeriv 2 (fun r => iteratedDeriv 2 (fun s => u s r) x) y| ≤ Bm

structure Smooth3 (u : ℝ → ℝ → ℝ → ℝ) (B3 B4 : ℝ) : Prop where
  x : ∀ y z, ContDiff ℝ 4 (fun s => u s y z)
  y : ∀ x z, ContDiff ℝ 4 (fun s => u x s z)
  z : ∀ x y, ContDiff ℝ 4 (fun s => u x y s)
  x3 : ∀ x y z, |iteratedDeriv 3 (fun s => u s y z) x| ≤ B3
  x4 : ∀ x y z, |iteratedDeriv 4 (fun s => u s y z) x| ≤ B4
  y4 : ∀ x y z, |iteratedDeriv 4 (fun s => u x s z) y| ≤ B4
  z4 : ∀ x y z, |iteratedDeriv 4 (fun s => u x y s) z| ≤ B4

/-- Speed of the frame. -/
def speed : Frame → ℝ
  | .fixed => 0
  | .centred v => v
  | .upwind v _ _ => v

/-- The exact solution in the centres of the cells. -/
def sample2 (x0 y0 dx dy : ℝ) (u : ℝ → ℝ → ℝ) : Field2 := fun i j => u (x0 + i * dx) (y0 + j * dy)

def sample3 (x0 y0 z0 dx dy dz : ℝ) (u : ℝ → ℝ → ℝ → ℝ) : Field3 := fun i j k => u (x0 + i * dx) (y0 + j * dy) (z0 + k * dz)

/-- Period of `nx` by `ny` cells. -/
def Per2 (nx ny : ℤ) (u : Field2) : Prop := (∀ i j, u (i + nx) j = u i j) ∧ ∀ i j, u i (j + ny) = u i j

def Per3 (nx ny nz : ℤ) (u : Field3) : Prop :=
  (∀ i j k, u (i + nx) j k = u i j k) ∧ (∀ i j k, u i (j + ny) k = u i j k) ∧ ∀ i j k, u i j (k + nz) = u i j k

/-- The cells of a periodic box. -/
noncomputable def box2 (nx ny : ℤ) : Finset (ℤ × ℤ) := Finset.Ico 0 nx ×ˢ Finset.Ico 0 ny

noncomputable def box3 (nx ny nz : ℤ) : Finset (ℤ × ℤ × ℤ) := Finset.Ico 0 nx ×ˢ Finset.Ico 0 ny ×ˢ Finset.Ico 0 nz

/-! ## Consistency -/

/-- Error of the two stencils. -/
noncomputable def stencilError (st : Stencil) (dx dy B4 Bm : ℝ) : ℝ :=
  match st with
  | .simple => B4 * (dx ^ 2 + dy ^ 2) / 12
  | .isotropic => (B4 + Bm) * (dx ^ 2 + dy ^ 2) / 12

theorem quot {d f h B : ℝ} (hh : 0 < h) (hd : |d - h ^ 2 * f| ≤ B * h ^ 4 / 12) : |1 / (h * h) * d - f| ≤ B * h ^ 2 / 12 := by
  have e : 1 / (h * h) * d - f = (d - h ^ 2 * f) / h ^ 2 := by field_simp
  rw [e, abs_div, abs_of_pos (by positivity : (0:ℝ) < h ^ 2), div_le_iff₀ (by positivity)]
  exact hd.trans (le_of_eq (by ring))

theorem step_x (x0 dx : ℝ) (i : ℤ) : x0 + ((i + 1 : ℤ) : ℝ) * dx = x0 + i * dx + dx ∧ x0 + ((i + -1 : ℤ) : ℝ) * dx = x0 + i * dx - dx := by
  push_cast; constructor <;> ring

theorem consistent2 (st : Stencil) {eps dx dy B3 B4 Bm x0 y0 : ℝ} (hdx : 0 < dx) (hdy : 0 < dy) {u : ℝ → ℝ → ℝ} (hu : Smooth2 u B3 B4 Bm)
    (i j : ℤ) : |diffTerm2 st eps dx dy (sample2 x0 y0 dx dy u) i j - eps ^ 2 * lap2 u (x0 + i * dx) (y0 + j * dy)|
      ≤ eps ^ 2 * stencilError st dx dy B4 Bm := by
  set x := x0 + i * dx with hx
  set y := y0 + j * dy with hy
  have kx := quot hdx (second_diff (hu.x y) (fun s => hu.x4 s y) x hdx.le)
  have ky := quot hdy (second_diff (hu.y x) (fun s => hu.y4 x s) y hdy.le)
  obtain ⟨s1, s2⟩ := step_x x0 dx i
  obtain ⟨r1, r2⟩ := step_x y0 dy j
  rw [← hx] at s1 s2; rw [← hy] at r1 r2
  have h2 : (0:ℝ) ≤ eps ^ 2 := sq_nonneg _
  have simple_eq : diffTerm2 .simple eps dx dy (sample2 x0 y0 dx dy u) i j
      = eps ^ 2 * (1 / (dx * dx) * diff2 (fun s => u s y) x dx + 1 / (dy * dy) * diff2 (fun s => u x s) y dy) := by
    rw [diff_simple]
    simp only [sample2, s1, s2, r1, r2, diff2, ← hx, ← hy]
    ring
  have base : |1 / (dx * dx) * diff2 (fun s => u s y) x dx + 1 / (dy * dy) * diff2 (fun s => u x s) y dy - lap2 u x y|
      ≤ B4 * (dx ^ 2 + dy ^ 2) / 12 := by
    have e : 1 / (dx * dx) * diff2 (fun s => u s y) x dx + 1 / (dy * dy) * diff2 (fun s => u x s) y dy - lap2 u x y
        = (1 / (dx * dx) * diff2 (fun s => u s y) x dx - iteratedDeriv 2 (fun s => u s y) x)
          + (1 / (dy * dy) * diff2 (fun s => u x s) y dy - iteratedDeriv 2 (fun s => u x s) y) := by
      rw [lap2]; ring
    rw [e]
    refine (abs_add_le _ _).trans ?_
    linarith
  cases st with
  | simple =>
    rw [simple_eq, ← mul_sub, abs_mul, abs_of_nonneg h2]
    exact mul_le_mul_of_nonneg_left base h2
  | isotropic =>
    have iso_eq : diffTerm2 .isotropic eps dx dy (sample2 x0 y0 dx dy u) i j
        = eps ^ 2 * (1 / (dx * dx) * diff2 (fun s => u s y) x dx + 1 / (dy * dy) * diff2 (fun s => u x s) y dy
          + (1 / (dx * dx) + 1 / (dy * dy)) / 12 * diff2 (fun s => diff2 (fun r => u s r) y dy) x dx) := by
      rw [diff_iso]
      simp only [sample2, s1, s2, r1, r2, diff2, ← hx, ← hy]
      ring
    have km := mixed_diff hu.x hu.m hu.m4 x y hdx.le hdy.le
    have km' : |(1 / (dx * dx) + 1 / (dy * dy)) / 12 * diff2 (fun s => diff2 (fun r => u s r) y dy) x dx| ≤ Bm * (dx ^ 2 + dy ^ 2) / 12 := by
      rw [abs_mul, abs_of_pos (by positivity)]
      refine (mul_le_mul_of_nonneg_left km (by positivity)).trans (le_of_eq ?_)
      field_simp; ring
    rw [iso_eq, ← mul_sub, abs_mul, abs_of_nonneg h2]
    refine mul_le_mul_of_nonneg_left ?_ h2
    rw [add_sub_right_comm]
    refine (abs_add_le _ _).trans ?_
    simp only [stencilError]
    linarith

theorem consistent3 {eps dx dy dz B3 B4 x0 y0 z0 : ℝ} (hdx : 0 < dx) (hdy : 0 < dy) (hdz : 0 < dz) {u : ℝ → ℝ → ℝ → ℝ} (hu : Smooth3 u B3 B4)
    (i j k : ℤ) : |div3 dx dy dz (gradFlux3X eps dx (sample3 x0 y0 z0 dx dy dz u)) (gradFlux3Y eps dy (sample3 x0 y0 z0 dx dy dz u))
        (gradFlux3Z eps dz (sample3 x0 y0 z0 dx dy dz u)) i j k - eps ^ 2 * lap3 u (x0 + i * dx) (y0 + j * dy) (z0 + k * dz)|
      ≤ eps ^ 2 * (B4 * (dx ^ 2 + dy ^ 2 + dz ^ 2) / 12) := by
  set x := x0 + i * dx with hx
  set y := y0 + j * dy with hy
  set z := z0 + k * dz with hz
  have kx := quot hdx (second_diff (hu.x y z) (fun s => hu.x4 s y z) x hdx.le)
  have ky := quot hdy (second_diff (hu.y x z) (fun s => hu.y4 x s z) y hdy.le)
  have kz := quot hdz (second_diff (hu.z x y) (fun s => hu.z4 x y s) z hdz.le)
  obtain ⟨s1, s2⟩ := step_x x0 dx i
  obtain ⟨r1, r2⟩ := step_x y0 dy j
  obtain ⟨q1, q2⟩ := step_x z0 dz k
  rw [← hx] at s1 s2; rw [← hy] at r1 r2; rw [← hz] at q1 q2
  have h2 : (0:ℝ) ≤ eps ^ 2 := sq_nonneg _
  have eq : div3 dx dy dz (gradFlux3X eps dx (sample3 x0 y0 z0 dx dy dz u)) (gradFlux3Y eps dy (sample3 x0 y0 z0 dx dy dz u))
        (gradFlux3Z eps dz (sample3 x0 y0 z0 dx dy dz u)) i j k
      = eps ^ 2 * (1 / (dx * dx) * diff2 (fun s => u s y z) x dx + 1 / (dy * dy) * diff2 (fun s => u x s z) y dy
        + 1 / (dz * dz) * diff2 (fun s => u x y s) z dz) := by
    simp only [div3, gradFlux3X, gradFlux3Y, gradFlux3Z, add_sub_cancel_right]
    simp only [sub_eq_add_neg (b := (1:ℤ)), sample3, s1, s2, r1, r2, q1, q2, diff2, ← hx, ← hy, ← hz]
    ring
  rw [eq, ← mul_sub, abs_mul, abs_of_nonneg h2]
  refine mul_le_mul_of_nonneg_left ?_ h2
  have e : 1 / (dx * dx) * diff2 (fun s => u s y z) x dx + 1 / (dy * dy) * diff2 (fun s => u x s z) y dy
        + 1 / (dz * dz) * diff2 (fun s => u x y s) z dz - lap3 u x y z
      = (1 / (dx * dx) * diff2 (fun s => u s y z) x dx - iteratedDeriv 2 (fun s => u s y z) x)
        + (1 / (dy * dy) * diff2 (fun s => u x s z) y dy - iteratedDeriv 2 (fun s => u x s z) y)
        + (1 / (dz * dz) * diff2 (fun s => u x y s) z dz - iteratedDeriv 2 (fun s => u x y s) z) := by
    rw [lap3]; ring
  rw [e]
  refine (abs_add_le _ _).trans ?_
  have := abs_add_le (1 / (dx * dx) * diff2 (fun s => u s y z) x dx - iteratedDeriv 2 (fun s => u s y z) x)
    (1 / (dy * dy) * diff2 (fun s => u x s z) y dy - iteratedDeriv 2 (fun s => u x s z) y)
  linarith

/-- The centred moving frame. -/
theorem consistent_frame (fr : Frame) (hfr : ∀ v b l, fr ≠ .upwind v b l) {dx B3 x0 : ℝ} (hdx : 0 < dx) {g : ℝ → ℝ} (hg : ContDiff ℝ 4 g)
    (h3 : ∀ x, |iteratedDeriv 3 g x| ≤ B3) (i : ℤ) :
    |frameTerm fr dx (fun a => g (x0 + a * dx)) i - speed fr * iteratedDeriv 1 g (x0 + i * dx)| ≤ |speed fr| * (B3 * dx ^ 2 / 6) := by
  cases fr with
  | fixed => simp [frameTerm, speed]
  | upwind v b l => exact absurd rfl (hfr v b l)
  | centred v =>
    have k := first_diff hg h3 (x0 + i * dx) hdx.le
    obtain ⟨s1, s2⟩ := step_x x0 dx i
    simp only [frameTerm, convect, speed, sub_eq_add_neg (b := (1:ℤ)), s1, s2]
    have e : 0.5 * v / dx * (g (x0 + i * dx + dx) - g (x0 + i * dx - dx)) - v * iteratedDeriv 1 g (x0 + i * dx)
        = v * ((g (x0 + i * dx + dx) - g (x0 + i * dx - dx) - 2 * dx * iteratedDeriv 1 g (x0 + i * dx)) / (2 * dx)) := by
      field_simp; ring
    rw [e, abs_mul]
    refine mul_le_mul_of_nonneg_left ?_ (abs_nonneg _)
    rw [abs_div, abs_of_pos (by linarith : (0:ℝ) < 2 * dx), div_le_iff₀ (by linarith)]
    exact k.trans (le_of_eq (by ring))

/-! ## Stability -/

theorem diff_sub (st : Stencil) (eps dx dy : ℝ) (u w : Field2) (i j : ℤ) :
    diffTerm2 st eps dx dy (fun a b => u a b - w a b) i j = diffTerm2 st eps dx dy u i j - diffTerm2 st eps dx dy w i j := by
  cases st with
  | simple => rw [diff_simple, diff_simple, diff_simple]; ring
  | isotropic => rw [diff_iso, diff_iso, diff_iso]; ring

theorem frame_sub (fr : Frame) (dx : ℝ) (r s : ℤ → ℝ) (i : ℤ) :
    frameTerm fr dx (fun a => r a - s a) i = frameTerm fr dx r i - frameTerm fr dx s i := by
  cases fr with
  | fixed => simp [frameTerm]
  | centred v => simp only [frameTerm, convect]; ring
  | upwind v b l => simp only [frameTerm, convectUpwind3]; split_ifs <;> ring

theorem not_upwind {fr : Frame} {dx eps sh mob : ℝ} (h : FrameOk fr dx eps sh mob) : ∀ v b l, fr ≠ .upwind v b l := by
  rintro v b l rfl; exact h

/-- Two fields driven by the same cell equation up to `τ` stay close. -/
theorem close2 (st : Stencil) (fr : ℝ → Frame) (eps dx dy : ℝ) (hdx : 0 < dx) (hdy : 0 < dy)
    (hst : st = .isotropic → dx * dx ≤ 5 * (dy * dy) ∧ dy * dy ≤ 5 * (dx * dx)) (mob : ℝ → Field2) (cells : Finset (ℤ × ℤ)) (T Λ τ E : ℝ)
    (hΛ : 0 ≤ Λ) (hτ : 0 ≤ τ) (hE : 0 ≤ E) (w p : ℝ → Field2) (gw gp : ℝ → Field2)
    (hmob : ∀ t ∈ Icc 0 T, ∀ c ∈ cells, 0 ≤ mob t c.1 c.2)
    (hfr : ∀ t ∈ Icc 0 T, ∀ c ∈ cells, FrameOk (fr t) dx eps (share st dx dy) (mob t c.1 c.2))
    (hcl : ∀ t ∈ Icc 0 T, ∀ c ∈ cells, ∀ a b : ℤ, -1 ≤ a → a ≤ 1 → -1 ≤ b → b ≤ 1 →
      ∃ q ∈ cells, w t (c.1 + a) (c.2 + b) - p t (c.1 + a) (c.2 + b) = w t q.1 q.2 - p t q.1 q.2)
    (hw : ∀ t ∈ Icc 0 T, ∀ c ∈ cells, HasDerivAt (fun s => w s c.1 c.2) (gw t c.1 c.2) t)
    (hp : ∀ t ∈ Icc 0 T, ∀ c ∈ cells, HasDerivAt (fun s => p s c.1 c.2) (gp t c.1 c.2) t)
    (hg : ∀ t ∈ Icc 0 T, ∀ c ∈ cells,
      |(gw t c.1 c.2 - gp t c.1 c.2) - (mob t c.1 c.2 * (diffTerm2 st eps dx dy (w t) c.1 c.2 - diffTerm2 st eps dx dy (p t) c.1 c.2)
        + (frameTerm (fr t) dx (fun a => w t a c.2) c.1 - frameTerm (fr t) dx (fun a => p t a c.2) c.1))|
      ≤ Λ * |w t c.1 c.2 - p t c.1 c.2| + τ)
    (h0 : ∀ c ∈ cells, |w 0 c.1 c.2 - p 0 c.1 c.2| ≤ E) :
    ∀ t ∈ Icc 0 T, ∀ c ∈ cells, |w t c.1 c.2 - p t c.1 c.2| ≤ (E + τ * t) * Real.exp (Λ * t) := by
  refine error_le cells (fun t c => w t c.1 c.2 - p t c.1 c.2) (fun t c => gw t c.1 c.2 - gp t c.1 c.2) T Λ τ E hΛ hτ hE
    (fun t ht c hc => (hw t ht c hc).sub (hp t ht c hc)) h0 (fun t ht c hc hpos hmax => ?_) (fun t ht c hc hneg hmax => ?_)
  · have pull := pull2 st (fr t) eps dx dy (mob t c.1 c.2) hdx hdy (hmob t ht c hc) hst (hfr t ht c hc) (fun a b => p t a b - w t a b) c.1 c.2
      (fun a b a1 a2 b1 b2 => by
        obtain ⟨q, hq, e⟩ := hcl t ht c hc a b a1 a2 b1 b2
        have h := hmax q hq
        show p t c.1 c.2 - w t c.1 c.2 ≤ p t (c.1 + a) (c.2 + b) - w t (c.1 + a) (c.2 + b)
        have := le_abs_self (w t q.1 q.2 - p t q.1 q.2)
        linarith)
    rw [diff_sub, frame_sub (fr t) dx (fun a => p t a c.2) (fun a => w t a c.2)] at pull
    have h := (abs_le.1 (hg t ht c hc)).2
    rw [abs_of_nonneg hpos] at h
    linarith
  · have pull := pull2 st (fr t) eps dx dy (mob t c.1 c.2) hdx hdy (hmob t ht c hc) hst (hfr t ht c hc) (fun a b => w t a b - p t a b) c.1 c.2
      (fun a b a1 a2 b1 b2 => by
        obtain ⟨q, hq, e⟩ := hcl t ht c hc a b a1 a2 b1 b2
        have h := hmax q hq
        show w t c.1 c.2 - p t c.1 c.2 ≤ w t (c.1 + a) (c.2 + b) - p t (c.1 + a) (c.2 + b)
        have := neg_le_abs (w t q.1 q.2 - p t q.1 q.2)
        linarith)
    rw [diff_sub, frame_sub (fr t) dx (fun a => w t a c.2) (fun a => p t a c.2)] at pull
    have h := (abs_le.1 (hg t ht c hc)).1
    rw [abs_of_nonpos hneg] at h
    linarith

theorem box_wrap2 {nx ny : ℤ} (hx : 0 < nx) (hy : 0 < ny) {u : Field2} (hu : Per2 nx ny u) :
    ∀ c ∈ box2 nx ny, ∀ a b : ℤ, -1 ≤ a → a ≤ 1 → -1 ≤ b → b ≤ 1 → ∃ q ∈ box2 nx ny, u (c.1 + a) (c.2 + b) = u q.1 q.2 := by
  intro c hc a b a1 a2 b1 b2
  simp only [box2, Finset.mem_product, Finset.mem_Ico] at hc ⊢
  obtain ⟨⟨x1, x2⟩, y1, y2⟩ := hc
  have wrap : ∀ n x : ℤ, 0 < n → -1 ≤ x → x ≤ n → ∃ y, 0 ≤ y ∧ y < n ∧ (y = x ∨ y = x + n ∨ x = y + n) := fun n x hn h1 h2 => by
    by_cases h : x < 0
    · exact ⟨x + n, by omega, by omega, by omega⟩
    · by_cases h' : x < n
      · exact ⟨x, by omega, h', by omega⟩
      · exact ⟨x - n, by omega, by omega, by omega⟩
  obtain ⟨p, p1, p2, p3⟩ := wrap nx (c.1 + a) hx (by omega) (by omega)
  obtain ⟨q, q1, q2, q3⟩ := wrap ny (c.2 + b) hy (by omega) (by omega)
  refine ⟨(p, q), ⟨⟨p1, p2⟩, q1, q2⟩, ?_⟩
  have e1 : ∀ y, u (c.1 + a) y = u p y := fun y => by
    rcases p3 with h | h | h
    · rw [h]
    · rw [h, hu.1]
    · rw [h, hu.1]
  rw [e1]
  rcases q3 with h | h | h
  · rw [h]
  · rw [h, hu.2]
  · rw [h, hu.2]

theorem per_sub {nx ny : ℤ} {u w : Field2} (hu : Per2 nx ny u) (hw : Per2 nx ny w) : Per2 nx ny (fun a b => u a b - w a b) :=
  ⟨fun i j => by show u _ _ - w _ _ = _; rw [hu.1, hw.1], fun i j => by show u _ _ - w _ _ = _; rw [hu.2, hw.2]⟩

/-! ## The phase -/

/-- Derivative of the interpolation of the energies: `phi^3 (10 - 15 phi + 6 phi^2)` or `phi^2 (3 - 2 phi)`. -/
noncomputable def slopeH (interp : Char) (y : ℝ) : ℝ := if interp = 'p' then 30 * y ^ 2 * (1 - y) ^ 2 else 6 * y * (1 - y)

/-- Allen–Cahn equation with a well of height `scale` and the difference of the energies as driving force, without diffusion. -/
noncomputable def reaction (interp : Char) (scale drop y : ℝ) : ℝ := -scale * (32 * y * (1 - y) * (1 - 2 * y)) + slopeH interp y * drop

theorem cellRate_eq (S : Setting) (hi : S.interp = 'p' ∨ S.interp = 'h') (ho : S.orient = false) (fl fa mob d y temp ogm : ℝ) (h0 : 0 ≤ y) (h1 : y ≤ 1) :
    cellRate S (.energies fl fa) mob d y temp ogm = some (mob * (d + reaction S.interp S.scale (fl - fa) y)) := by
  unfold cellRate pbgCell reaction slopeH
  rcases hi with hi | hi <;>
  · simp [hi, ho, derivWellFunc, addForce, fenergyCell, derivInterpFunc, clamp_of_mem h0 h1]
    ring_nf; simp

theorem reaction_lip (interp : Char) {scale drop D : ℝ} (hs : 0 ≤ scale) (hD : |drop| ≤ D) {a b : ℝ} (a0 : 0 ≤ a) (a1 : a ≤ 1) (b0 : 0 ≤ b) (b1 : b ≤ 1) :
    |reaction interp scale drop a - reaction interp scale drop b| ≤ (32 * scale + 15 * D) * |a - b| := by
  have hwell : |32 * a * (1 - a) * (1 - 2 * a) - 32 * b * (1 - b) * (1 - 2 * b)| ≤ 32 * |a - b| := by
    have e : 32 * a * (1 - a) * (1 - 2 * a) - 32 * b * (1 - b) * (1 - 2 * b)
        = 32 * ((1 - 3 * (a + b) + 2 * (a * a + a * b + b * b)) * (a - b)) := by ring
    rw [e, abs_mul, abs_mul, abs_of_pos (by norm_num : (0:ℝ) < 32)]
    have : |1 - 3 * (a + b) + 2 * (a * a + a * b + b * b)| ≤ 1 := by
      rw [abs_le]; constructor
      · nlinarith [sq_nonneg (a - b), sq_nonneg (a + b - 1)]
      · nlinarith [mul_nonneg a0 (sub_nonneg.2 a1), mul_nonneg b0 (sub_nonneg.2 b1), mul_nonneg a0 (sub_nonneg.2 b1), mul_nonneg b0 (sub_nonneg.2 a1)]
    nlinarith [mul_le_mul_of_nonneg_right this (abs_nonneg (a - b))]
  have hslope : |slopeH interp a - slopeH interp b| ≤ 15 * |a - b| := by
    have hs1 : |1 - a - b| ≤ 1 := by rw [abs_le]; constructor <;> linarith
    unfold slopeH
    split_ifs
    · have e : 30 * a ^ 2 * (1 - a) ^ 2 - 30 * b ^ 2 * (1 - b) ^ 2 = 30 * (a * (1 - a) + b * (1 - b)) * (1 - a - b) * (a - b) := by ring
      have q0 : 0 ≤ 30 * (a * (1 - a) + b * (1 - b)) := by
        have := mul_nonneg a0 (sub_nonneg.2 a1); have := mul_nonneg b0 (sub_nonneg.2 b1); linarith
      have q1 : 30 * (a * (1 - a) + b * (1 - b)) ≤ 15 := by nlinarith [sq_nonneg (2 * a - 1), sq_nonneg (2 * b - 1)]
      rw [e, abs_mul, abs_mul, abs_of_nonneg q0]
      refine mul_le_mul_of_nonneg_right ?_ (abs_nonneg _)
      calc _ ≤ 15 * 1 := mul_le_mul q1 hs1 (abs_nonneg _) (by norm_num)
        _ = 15 := by norm_num
    · have e : 6 * a * (1 - a) - 6 * b * (1 - b) = 6 * ((1 - a - b) * (a - b)) := by ring
      rw [e, abs_mul, abs_mul, abs_of_pos (by norm_num : (0:ℝ) < 6)]
      nlinarith [mul_le_mul_of_nonneg_right hs1 (abs_nonneg (a - b)), abs_nonneg (a - b)]
  have e : reaction interp scale drop a - reaction interp scale drop b
      = -scale * (32 * a * (1 - a) * (1 - 2 * a) - 32 * b * (1 - b) * (1 - 2 * b)) + (slopeH interp a - slopeH interp b) * drop := by
    unfold reaction; ring
  rw [e]
  refine (abs_add_le _ _).trans ?_
  rw [abs_mul, abs_mul, abs_neg, abs_of_nonneg hs]
  have h1 := mul_le_mul_of_nonneg_left hwell hs
  have h2 : |slopeH interp a - slopeH interp b| * |drop| ≤ 15 * |a - b| * D := mul_le_mul hslope hD (abs_nonneg _) (by positivity)
  linarith

/-- What the equation demands of the exact solution `u` (2D): `phi_t = M (epsilon^2 lap phi - s W'(phi) + h'(phi) (fL - fS)) + v phi_x`. -/
def PhaseEq2 (S : Setting) (fr : ℝ → Frame) (eps x0 y0 dx dy : ℝ) (drop mob : ℝ → Field2) (cells : Finset (ℤ × ℤ)) (T : ℝ) (u : ℝ → ℝ → ℝ → ℝ) : Prop :=
  ∀ t ∈ Icc 0 T, ∀ c ∈ cells, HasDerivAt (fun s => sample2 x0 y0 dx dy (u s) c.1 c.2)
    (mob t c.1 c.2 * (eps ^ 2 * lap2 (u t) (x0 + c.1 * dx) (y0 + c.2 * dy)
        + reaction S.interp S.scale (drop t c.1 c.2) (u t (x0 + c.1 * dx) (y0 + c.2 * dy)))
      + speed (fr t) * iteratedDeriv 1 (fun s => u t s (y0 + c.2 * dy)) (x0 + c.1 * dx)) t

/-- **C140** (2D): the computed phase differs from the exact solution by at most the initial difference plus an error of second order
in the size of the cells, growing no faster than `exp (M (32 s + 15 D) t)`; both stencils, fixed or moving frame. -/
theorem c140_phase_2d (S : Setting) (hi : S.interp = 'p' ∨ S.interp = 'h') (ho : S.orient = false) (hsc : 0 ≤ S.scale) (st : Stencil) (fr : ℝ → Frame)
    (eps x0 y0 dx dy : ℝ) (hdx : 0 < dx) (hdy : 0 < dy) (hst : st = .isotropic → dx * dx ≤ 5 * (dy * dy) ∧ dy * dy ≤ 5 * (dx * dx))
    (fl fa mob temp ogm : ℝ → Field2) (nx ny : ℤ) (hx : 0 < nx) (hy : 0 < ny) (T M D V B3 B4 Bm E : ℝ) (hE : 0 ≤ E)
    (hmob : ∀ t ∈ Icc 0 T, ∀ c ∈ box2 nx ny, 0 ≤ mob t c.1 c.2 ∧ mob t c.1 c.2 ≤ M)
    (hD : ∀ t ∈ Icc 0 T, ∀ c ∈ box2 nx ny, |fl t c.1 c.2 - fa t c.1 c.2| ≤ D)
    (hV : ∀ t ∈ Icc 0 T, |speed (fr t)| ≤ V)
    (hfr : ∀ t ∈ Icc 0 T, ∀ c ∈ box2 nx ny, FrameOk (fr t) dx eps (share st dx dy) (mob t c.1 c.2))
    (phi : ℝ → Field2) (hper : ∀ t, Per2 nx ny (phi t))
    (hsol : Solves2 S st fr eps dx dy (fun t i j => .energies (fl t i j) (fa t i j)) mob temp ogm (box2 nx ny) T phi)
    (hph0 : ∀ c ∈ box2 nx ny, 0 ≤ phi 0 c.1 c.2 ∧ phi 0 c.1 c.2 ≤ 1)
    (u : ℝ → ℝ → ℝ → ℝ) (hu : ∀ t ∈ Icc 0 T, Smooth2 (u t) B3 B4 Bm) (hup : ∀ t, Per2 nx ny (sample2 x0 y0 dx dy (u t)))
    (hu01 : ∀ t ∈ Icc 0 T, ∀ x y, 0 ≤ u t x y ∧ u t x y ≤ 1)
    (heq : PhaseEq2 S fr eps x0 y0 dx dy (fun t i j => fl t i j - fa t i j) mob (box2 nx ny) T u)
    (h0 : ∀ c ∈ box2 nx ny, |phi 0 c.1 c.2 - u 0 (x0 + c.1 * dx) (y0 + c.2 * dy)| ≤ E) :
    ∀ t ∈ Icc 0 T, ∀ c ∈ box2 nx ny, |phi t c.1 c.2 - u t (x0 + c.1 * dx) (y0 + c.2 * dy)|
      ≤ (E + (M * (eps ^ 2 * stencilError st dx dy B4 Bm) + V * (B3 * dx ^ 2 / 6)) * t) * Real.exp (M * (32 * S.scale + 15 * D) * t) := by
  by_cases hT : 0 ≤ T
  swap
  · intro t ht; exact absurd (ht.1.trans ht.2) hT
  have hc0 : ((0:ℤ), (0:ℤ)) ∈ box2 nx ny := by simp [box2, hx, hy]
  have h0T : (0:ℝ) ∈ Icc 0 T := ⟨le_rfl, hT⟩
  have hM : 0 ≤ M := (hmob 0 h0T _ hc0).1.trans (hmob 0 h0T _ hc0).2
  have hD0 : 0 ≤ D := (abs_nonneg _).trans (hD 0 h0T _ hc0)
  have hV0 : 0 ≤ V := (abs_nonneg _).trans (hV 0 h0T)
  have hB3 : 0 ≤ B3 := (abs_nonneg _).trans ((hu 0 h0T).x3 0 0)
  have hB4 : 0 ≤ B4 := (abs_nonneg _).trans ((hu 0 h0T).x4 0 0)
  have hBm : 0 ≤ Bm := (abs_nonneg _).trans ((hu 0 h0T).m4 0 0)
  have hse : 0 ≤ stencilError st dx dy B4 Bm := by cases st <;> simp only [stencilError] <;> positivity
  -- the phase stays between zero and one
  have hcl2 : ∀ t, Closed2 0 1 (box2 nx ny) (phi t) := fun t c hc a b a1 a2 b1 b2 => Or.inl (box_wrap2 hx hy (hper t) c hc a b a1 a2 b1 b2)
  have hin := c131_between_2d_partial { S with misor := 0 } ⟨hi, hsc, fun h => by rw [ho] at h; cases h⟩ st fr eps dx dy hdx hdy hst
    (fun t i j => .energies (fl t i j) (fa t i j)) mob temp (fun _ _ _ => 0) (box2 nx ny) T phi (fun t ht c hc => (hmob t ht c hc).1)
    (fun t ht c hc => by simp) (fun t ht c hc => le_rfl) hfr ⟨0, fun t ht c hc => by simp [slant]⟩ (fun t _ => hcl2 t)
    (fun t ht c hc => by
      obtain ⟨r, hr, hd⟩ := hsol t ht c hc
      refine ⟨r, ?_, hd⟩
      rw [← hr]
      simp [rate2, cellRate, pbgCell, ho]) hph0
  -- the rates
  choose! r hr hd using hsol
  have hrate : ∀ t ∈ Icc 0 T, ∀ c ∈ box2 nx ny, r t c = mob t c.1 c.2 * (diffTerm2 st eps dx dy (phi t) c.1 c.2
      + reaction S.interp S.scale (fl t c.1 c.2 - fa t c.1 c.2) (phi t c.1 c.2)) + frameTerm (fr t) dx (fun a => phi t a c.2) c.1 := fun t ht c hc => by
    have h := hr t ht c hc
    obtain ⟨i1, i2⟩ := hin t ht c hc
    unfold rate2 at h
    rw [cellRate_eq S hi ho _ _ _ _ _ _ _ i1 i2, Option.map_some, Option.some.injEq] at h
    exact h.symm
  refine close2 st fr eps dx dy hdx hdy hst mob (box2 nx ny) T (M * (32 * S.scale + 15 * D)) _ E (by positivity) (by positivity) hE phi
    (fun t => sample2 x0 y0 dx dy (u t)) (fun t i j => r t (i, j)) (hmob := fun t ht c hc => (hmob t ht c hc).1) (hfr := hfr)
    (hcl := fun t ht c hc a b a1 a2 b1 b2 => box_wrap2 hx hy (per_sub (hper t) (hup t)) c hc a b a1 a2 b1 b2) (hw := fun t ht c hc => hd t ht c hc)
    (gp := fun t i j => mob t i j * (eps ^ 2 * lap2 (u t) (x0 + i * dx) (y0 + j * dy)
        + reaction S.interp S.scale (fl t i j - fa t i j) (u t (x0 + i * dx) (y0 + j * dy)))
      + speed (fr t) * iteratedDeriv 1 (fun s => u t s (y0 + j * dy)) (x0 + i * dx)) (hp := fun t ht c hc => heq t ht c hc)
    (hg := fun t ht c hc => ?_) (h0 := h0)
  obtain ⟨m0, m1⟩ := hmob t ht c hc
  obtain ⟨i1, i2⟩ := hin t ht c hc
  obtain ⟨j1, j2⟩ := hu01 t ht (x0 + c.1 * dx) (y0 + c.2 * dy)
  have lip := reaction_lip S.interp hsc (hD t ht c hc) i1 i2 j1 j2
  have cons := consistent2 st (eps := eps) (x0 := x0) (y0 := y0) hdx hdy (hu t ht) c.1 c.2
  have consf := consistent_frame (fr t) (not_upwind (hfr t ht c hc)) (x0 := x0) hdx ((hu t ht).x (y0 + c.2 * dy)) (fun x => (hu t ht).x3 x _) c.1
  rw [hrate t ht c hc]
  set A := diffTerm2 st eps dx dy (phi t) c.1 c.2
  set P := diffTerm2 st eps dx dy (sample2 x0 y0 dx dy (u t)) c.1 c.2
  set L := lap2 (u t) (x0 + c.1 * dx) (y0 + c.2 * dy)
  set R1 := reaction S.interp S.scale (fl t c.1 c.2 - fa t c.1 c.2) (phi t c.1 c.2)
  set R2 := reaction S.interp S.scale (fl t c.1 c.2 - fa t c.1 c.2) (u t (x0 + c.1 * dx) (y0 + c.2 * dy))
  set F1 := frameTerm (fr t) dx (fun a => phi t a c.2) c.1
  have hF2 : frameTerm (fr t) dx (fun a => sample2 x0 y0 dx dy (u t) a c.2) c.1
    = frameTerm (fr t) dx (fun a => u t (x0 + a * dx) (y0 + c.2 * dy)) c.1 := rfl
  rw [hF2]
  set F2 := frameTerm (fr t) dx (fun a => u t (x0 + a * dx) (y0 + c.2 * dy)) c.1
  set G := speed (fr t) * iteratedDeriv 1 (fun s => u t s (y0 + c.2 * dy)) (x0 + c.1 * dx)
  have e : mob t c.1 c.2 * (A + R1) + F1 - (mob t c.1 c.2 * (eps ^ 2 * L + R2) + G) - (mob t c.1 c.2 * (A - P) + (F1 - F2))
      = mob t c.1 c.2 * (R1 - R2) + mob t c.1 c.2 * (P - eps ^ 2 * L) + (F2 - G) := by ring
  rw [e]
  have b1 : |mob t c.1 c.2 * (R1 - R2)| ≤ M * (32 * S.scale + 15 * D) * |phi t c.1 c.2 - sample2 x0 y0 dx dy (u t) c.1 c.2| := by
    rw [abs_mul, abs_of_nonneg m0, mul_assoc]
    exact mul_le_mul m1 lip (abs_nonneg _) hM
  have b2 : |mob t c.1 c.2 * (P - eps ^ 2 * L)| ≤ M * (eps ^ 2 * stencilError st dx dy B4 Bm) := by
    rw [abs_mul, abs_of_nonneg m0]
    exact mul_le_mul m1 cons (abs_nonneg _) hM
  have b3 : |F2 - G| ≤ V * (B3 * dx ^ 2 / 6) :=
    consf.trans (mul_le_mul_of_nonneg_right (hV t ht) (by positivity))
  have t1 := abs_add_le (mob t c.1 c.2 * (R1 - R2) + mob t c.1 c.2 * (P - eps ^ 2 * L)) (F2 - G)
  have t2 := abs_add_le (mob t c.1 c.2 * (R1 - R2)) (mob t c.1 c.2 * (P - eps ^ 2 * L))
  linarith

/-- The equation in all points of the plane; mobility and difference of the energies are functions of place and time. -/
def PhasePDE2 (S : Setting) (fr : ℝ → Frame) (eps : ℝ) (drop mob : ℝ → ℝ → ℝ → ℝ) (T : ℝ) (u : ℝ → ℝ → ℝ → ℝ) : Prop :=
  ∀ t ∈ Icc 0 T, ∀ x y, HasDerivAt (fun s => u s x y)
    (mob t x y * (eps ^ 2 * lap2 (u t) x y + reaction S.interp S.scale (drop t x y) (u t x y))
      + speed (fr t) * iteratedDeriv 1 (fun s => u t s y) x) t

/-- **C140**: one constant for all meshes and all runs that start from the exact solution: the error is at most `C (dx^2 + dy^2)` at all
times up to `T`. -/
theorem c140_second_order (S : Setting) (hi : S.interp = 'p' ∨ S.interp = 'h') (ho : S.orient = false) (hsc : 0 ≤ S.scale) (fr : ℝ → Frame)
    (eps T M D V B3 B4 Bm : ℝ) (hV : ∀ t ∈ Icc 0 T, |speed (fr t)| ≤ V) (fl fa mob : ℝ → ℝ → ℝ → ℝ)
    (hmob : ∀ t ∈ Icc 0 T, ∀ x y, 0 ≤ mob t x y ∧ mob t x y ≤ M) (hD : ∀ t ∈ Icc 0 T, ∀ x y, |fl t x y - fa t x y| ≤ D)
    (u : ℝ → ℝ → ℝ → ℝ) (hu : ∀ t ∈ Icc 0 T, Smooth2 (u t) B3 B4 Bm) (hu01 : ∀ t ∈ Icc 0 T, ∀ x y, 0 ≤ u t x y ∧ u t x y ≤ 1)
    (heq : PhasePDE2 S fr eps (fun t x y => fl t x y - fa t x y) mob T u) :
    ∃ C, ∀ (st : Stencil) (x0 y0 dx dy : ℝ) (nx ny : ℤ) (temp ogm phi : ℝ → Field2), 0 < dx → 0 < dy → 0 < nx → 0 < ny →
      (st = .isotropic → dx * dx ≤ 5 * (dy * dy) ∧ dy * dy ≤ 5 * (dx * dx)) →
      (∀ t ∈ Icc 0 T, ∀ c ∈ box2 nx ny, FrameOk (fr t) dx eps (share st dx dy) (sample2 x0 y0 dx dy (mob t) c.1 c.2)) →
      (∀ t, Per2 nx ny (sample2 x0 y0 dx dy (u t))) → (∀ t, Per2 nx ny (phi t)) →
      Solves2 S st fr eps dx dy (fun t i j => .energies (sample2 x0 y0 dx dy (fl t) i j) (sample2 x0 y0 dx dy (fa t) i j))
        (fun t => sample2 x0 y0 dx dy (mob t)) temp ogm (box2 nx ny) T phi →
      (∀ c ∈ box2 nx ny, phi 0 c.1 c.2 = sample2 x0 y0 dx dy (u 0) c.1 c.2) →
      ∀ t ∈ Icc 0 T, ∀ c ∈ box2 nx ny, |phi t c.1 c.2 - sample2 x0 y0 dx dy (u t) c.1 c.2| ≤ C * (dx ^ 2 + dy ^ 2) := by
  by_cases hT : 0 ≤ T
  swap
  · refine ⟨0, ?_⟩
    intro st x0 y0 dx dy nx ny temp ogm phi _ _ _ _ _ _ _ _ _ _ t ht
    exact absurd (ht.1.trans ht.2) hT
  have h0T : (0:ℝ) ∈ Icc 0 T := ⟨le_rfl, hT⟩
  have hM : 0 ≤ M := (hmob 0 h0T 0 0).1.trans (hmob 0 h0T 0 0).2
  have hD0 : 0 ≤ D := (abs_nonneg _).trans (hD 0 h0T 0 0)
  have hV0 : 0 ≤ V := (abs_nonneg _).trans (hV 0 h0T)
  have hB3 : 0 ≤ B3 := (abs_nonneg _).trans ((hu 0 h0T).x3 0 0)
  have hB4 : 0 ≤ B4 := (abs_nonneg _).trans ((hu 0 h0T).x4 0 0)
  have hBm : 0 ≤ Bm := (abs_nonneg _).trans ((hu 0 h0T).m4 0 0)
  refine ⟨(M * (eps ^ 2 * ((B4 + Bm) / 12)) + V * (B3 / 6)) * T * Real.exp (M * (32 * S.scale + 15 * D) * T), ?_⟩
  intro st x0 y0 dx dy nx ny temp ogm phi hdx hdy hx hy hst hfr hup hper hsol h0 t ht c hc
  have key := c140_phase_2d S hi ho hsc st fr eps x0 y0 dx dy hdx hdy hst (fun t => sample2 x0 y0 dx dy (fl t)) (fun t => sample2 x0 y0 dx dy (fa t))
    (fun t => sample2 x0 y0 dx dy (mob t)) temp ogm nx ny hx hy T M D V B3 B4 Bm 0 le_rfl (fun t ht c _ => hmob t ht _ _)
    (fun t ht c _ => hD t ht _ _) hV hfr phi hper hsol (fun c hc => by rw [h0 c hc]; exact hu01 0 h0T _ _) u hu hup hu01
    (fun t ht c _ => heq t ht _ _) (fun c hc => by rw [h0 c hc]; simp [sample2]) t ht c hc
  refine key.trans ?_
  have hse : stencilError st dx dy B4 Bm ≤ (B4 + Bm) / 12 * (dx ^ 2 + dy ^ 2) := by
    have := mul_nonneg hBm (add_nonneg (sq_nonneg dx) (sq_nonneg dy))
    cases st <;> simp only [stencilError] <;> linarith
  have hse0 : 0 ≤ stencilError st dx dy B4 Bm := by cases st <;> simp only [stencilError] <;> positivity
  have a1 : M * (eps ^ 2 * stencilError st dx dy B4 Bm) + V * (B3 * dx ^ 2 / 6)
      ≤ (M * (eps ^ 2 * ((B4 + Bm) / 12)) + V * (B3 / 6)) * (dx ^ 2 + dy ^ 2) := by
    have b1 := mul_le_mul_of_nonneg_left hse (mul_nonneg hM (sq_nonneg eps))
    have b2 : V * (B3 * dx ^ 2 / 6) ≤ V * (B3 / 6) * (dx ^ 2 + dy ^ 2) := by
      have : 0 ≤ V * (B3 / 6) * dy ^ 2 := by positivity
      linarith
    linarith
  have a2 : Real.exp (M * (32 * S.scale + 15 * D) * t) ≤ Real.exp (M * (32 * S.scale + 15 * D) * T) :=
    Real.exp_le_exp.2 (mul_le_mul_of_nonneg_left ht.2 (by positivity))
  have a3 : 0 ≤ M * (eps ^ 2 * stencilError st dx dy B4 Bm) + V * (B3 * dx ^ 2 / 6) := by positivity
  calc _ = (M * (eps ^ 2 * stencilError st dx dy B4 Bm) + V * (B3 * dx ^ 2 / 6)) * t * Real.exp (M * (32 * S.scale + 15 * D) * t) := by ring
    _ ≤ (M * (eps ^ 2 * ((B4 + Bm) / 12)) + V * (B3 / 6)) * (dx ^ 2 + dy ^ 2) * T * Real.exp (M * (32 * S.scale + 15 * D) * T) := by
      refine mul_le_mul (mul_le_mul a1 ht.2 ht.1 (a3.trans a1)) a2 (Real.exp_pos _).le (mul_nonneg (a3.trans a1) hT)
    _ = _ := by ring

/-! ## The temperature -/

theorem heat_split2 (fr : Frame) (dx dy diff L : ℝ) (b : Bool) (w cp ph : Field2) (i j : ℤ) :
    heatRate2 fr dx dy diff L b w cp ph i j = diff * diffTerm2 .simple 1 dx dy w i j + frameTerm fr dx (fun a => w a j) i
      + released L b (cp i j) (ph i j) := by
  rw [rate2_eq, diff_simple]
  simp only [laplacian2, ← sub_eq_add_neg]
  ring

theorem slow_ok {fr : Frame} {dx diff : ℝ} (h : Slow fr dx diff) : FrameOk fr dx 1 (share .simple dx 1) diff := by
  cases fr with
  | fixed => exact trivial
  | centred v => simp only [FrameOk, share]; simp only [Slow] at h; linarith
  | upwind v b l => exact h

/-- **C140** (heat, 2D): the computed temperature differs from the solution of `T_t = D lap T + v T_x + q` by at most the initial difference
plus `t` times the error of the released heat and a term of second order in the size of the cells. -/
theorem c140_heat_2d (fr : ℝ → Frame) (x0 y0 dx dy diff L : ℝ) (hdx : 0 < dx) (hdy : 0 < dy) (hdiff : 0 ≤ diff) (withPhase : Bool)
    (cp phiRhs : ℝ → Field2) (nx ny : ℤ) (hx : 0 < nx) (hy : 0 < ny) (T V B3 B4 Bm E δ : ℝ) (hE : 0 ≤ E)
    (hV : ∀ t ∈ Icc 0 T, |speed (fr t)| ≤ V) (hfr : ∀ t ∈ Icc 0 T, Slow (fr t) dx diff)
    (w : ℝ → Field2) (hper : ∀ t, Per2 nx ny (w t))
    (hsol : ∀ t ∈ Icc 0 T, ∀ c ∈ box2 nx ny, HasDerivAt (fun s => w s c.1 c.2)
      (heatRate2 (fr t) dx dy diff L withPhase (w t) (cp t) (phiRhs t) c.1 c.2) t)
    (u q : ℝ → ℝ → ℝ → ℝ) (hu : ∀ t ∈ Icc 0 T, Smooth2 (u t) B3 B4 Bm) (hup : ∀ t, Per2 nx ny (sample2 x0 y0 dx dy (u t)))
    (heq : ∀ t ∈ Icc 0 T, ∀ x y, HasDerivAt (fun s => u s x y)
      (diff * lap2 (u t) x y + speed (fr t) * iteratedDeriv 1 (fun s => u t s y) x + q t x y) t)
    (hq : ∀ t ∈ Icc 0 T, ∀ c ∈ box2 nx ny, |released L withPhase (cp t c.1 c.2) (phiRhs t c.1 c.2) - sample2 x0 y0 dx dy (q t) c.1 c.2| ≤ δ)
    (h0 : ∀ c ∈ box2 nx ny, |w 0 c.1 c.2 - sample2 x0 y0 dx dy (u 0) c.1 c.2| ≤ E) :
    ∀ t ∈ Icc 0 T, ∀ c ∈ box2 nx ny, |w t c.1 c.2 - sample2 x0 y0 dx dy (u t) c.1 c.2|
      ≤ E + (diff * (B4 * (dx ^ 2 + dy ^ 2) / 12) + V * (B3 * dx ^ 2 / 6) + δ) * t := by
  by_cases hT : 0 ≤ T
  swap
  · intro t ht; exact absurd (ht.1.trans ht.2) hT
  have hc0 : ((0:ℤ), (0:ℤ)) ∈ box2 nx ny := by simp [box2, hx, hy]
  have h0T : (0:ℝ) ∈ Icc 0 T := ⟨le_rfl, hT⟩
  have hV0 : 0 ≤ V := (abs_nonneg _).trans (hV 0 h0T)
  have hB3 : 0 ≤ B3 := (abs_nonneg _).trans ((hu 0 h0T).x3 0 0)
  have hB4 : 0 ≤ B4 := (abs_nonneg _).trans ((hu 0 h0T).x4 0 0)
  have hδ : 0 ≤ δ := (abs_nonneg _).trans (hq 0 h0T _ hc0)
  have hok : ∀ t ∈ Icc 0 T, FrameOk (fr t) dx 1 (share .simple dx dy) diff := fun t ht => slow_ok (hfr t ht)
  have key := close2 .simple fr 1 dx dy hdx hdy (fun h => by cases h) (fun _ _ _ => diff) (box2 nx ny) T 0
    (diff * (B4 * (dx ^ 2 + dy ^ 2) / 12) + V * (B3 * dx ^ 2 / 6) + δ) E le_rfl (by positivity) hE w
    (fun t => sample2 x0 y0 dx dy (u t)) (fun t i j => heatRate2 (fr t) dx dy diff L withPhase (w t) (cp t) (phiRhs t) i j)
    (fun t i j => diff * lap2 (u t) (x0 + i * dx) (y0 + j * dy)
      + speed (fr t) * iteratedDeriv 1 (fun s => u t s (y0 + j * dy)) (x0 + i * dx) + q t (x0 + i * dx) (y0 + j * dy))
    (fun t ht c hc => hdiff) (fun t ht c hc => hok t ht)
    (fun t ht c hc a b a1 a2 b1 b2 => box_wrap2 hx hy (per_sub (hper t) (hup t)) c hc a b a1 a2 b1 b2) hsol (fun t ht c hc => heq t ht _ _)
    (fun t ht c hc => ?_) h0
  · intro t ht c hc
    have := key t ht c hc
    rwa [zero_mul, Real.exp_zero, mul_one] at this
  · have cons := consistent2 .simple (eps := 1) (x0 := x0) (y0 := y0) hdx hdy (hu t ht) c.1 c.2
    have consf := consistent_frame (fr t) (not_upwind (hok t ht)) (x0 := x0) hdx ((hu t ht).x (y0 + c.2 * dy)) (fun x => (hu t ht).x3 x _) c.1
    have hqc := hq t ht c hc
    rw [heat_split2]
    simp only [sample2] at hqc ⊢
    simp only [stencilError, one_pow, one_mul] at cons
    set A := diffTerm2 .simple 1 dx dy (w t) c.1 c.2
    set P := diffTerm2 .simple 1 dx dy (sample2 x0 y0 dx dy (u t)) c.1 c.2
    set Lp := lap2 (u t) (x0 + c.1 * dx) (y0 + c.2 * dy)
    set F1 := frameTerm (fr t) dx (fun a => w t a c.2) c.1
    set F2 := frameTerm (fr t) dx (fun a => u t (x0 + a * dx) (y0 + c.2 * dy)) c.1
    set G := speed (fr t) * iteratedDeriv 1 (fun s => u t s (y0 + c.2 * dy)) (x0 + c.1 * dx)
    set r := released L withPhase (cp t c.1 c.2) (phiRhs t c.1 c.2)
    set Q := q t (x0 + c.1 * dx) (y0 + c.2 * dy)
    have e : diff * A + F1 + r - (diff * Lp + G + Q) - (diff * (A - P) + (F1 - F2)) = diff * (P - Lp) + (F2 - G) + (r - Q) := by ring
    rw [e]
    have b1 : |diff * (P - Lp)| ≤ diff * (B4 * (dx ^ 2 + dy ^ 2) / 12) := by
      rw [abs_mul, abs_of_nonneg hdiff]
      exact mul_le_mul_of_nonneg_left cons hdiff
    have b3 : |F2 - G| ≤ V * (B3 * dx ^ 2 / 6) :=
      consf.trans (mul_le_mul_of_nonneg_right (hV t ht) (by positivity))
    have t1 := abs_add_le (diff * (P - Lp) + (F2 - G)) (r - Q)
    have t2 := abs_add_le (diff * (P - Lp)) (F2 - G)
    linarith

/-! ## Three dimensions -/

/-- Divergence of the phase flux in 3D. -/
noncomputable def diffTerm3 (eps dx dy dz : ℝ) (u : Field3) (i j k : ℤ) : ℝ :=
  div3 dx dy dz (gradFlux3X eps dx u) (gradFlux3Y eps dy u) (gradFlux3Z eps dz u) i j k

theorem diff3_sub (eps dx dy dz : ℝ) (u w : Field3) (i j k : ℤ) :
    diffTerm3 eps dx dy dz (fun a b c => u a b c - w a b c) i j k = diffTerm3 eps dx dy dz u i j k - diffTerm3 eps dx dy dz w i j k := by
  simp only [diffTerm3, div3, gradFlux3X, gradFlux3Y, gradFlux3Z]
  ring

theorem close3 (fr : ℝ → Frame) (eps dx dy dz : ℝ) (hdx : 0 < dx) (hdy : 0 < dy) (hdz : 0 < dz) (mob : ℝ → Field3) (cells : Finset (ℤ × ℤ × ℤ))
    (T Λ τ E : ℝ) (hΛ : 0 ≤ Λ) (hτ : 0 ≤ τ) (hE : 0 ≤ E) (w p : ℝ → Field3) (gw gp : ℝ → Field3)
    (hmob : ∀ t ∈ Icc 0 T, ∀ c ∈ cells, 0 ≤ mob t c.1 c.2.1 c.2.2)
    (hfr : ∀ t ∈ Icc 0 T, ∀ c ∈ cells, FrameOk (fr t) dx eps 1 (mob t c.1 c.2.1 c.2.2))
    (hcl : ∀ t ∈ Icc 0 T, ∀ p' ∈ cells, ∀ a b c : ℤ, -1 ≤ a → a ≤ 1 → -1 ≤ b → b ≤ 1 → -1 ≤ c → c ≤ 1 →
      ∃ q ∈ cells, w t (p'.1 + a) (p'.2.1 + b) (p'.2.2 + c) - p t (p'.1 + a) (p'.2.1 + b) (p'.2.2 + c) = w t q.1 q.2.1 q.2.2 - p t q.1 q.2.1 q.2.2)
    (hw : ∀ t ∈ Icc 0 T, ∀ c ∈ cells, HasDerivAt (fun s => w s c.1 c.2.1 c.2.2) (gw t c.1 c.2.1 c.2.2) t)
    (hp : ∀ t ∈ Icc 0 T, ∀ c ∈ cells, HasDerivAt (fun s => p s c.1 c.2.1 c.2.2) (gp t c.1 c.2.1 c.2.2) t)
    (hg : ∀ t ∈ Icc 0 T, ∀ c ∈ cells,
      |(gw t c.1 c.2.1 c.2.2 - gp t c.1 c.2.1 c.2.2)
        - (mob t c.1 c.2.1 c.2.2 * (diffTerm3 eps dx dy dz (w t) c.1 c.2.1 c.2.2 - diffTerm3 eps dx dy dz (p t) c.1 c.2.1 c.2.2)
        + (frameTerm (fr t) dx (fun a => w t a c.2.1 c.2.2) c.1 - frameTerm (fr t) dx (fun a => p t a c.2.1 c.2.2) c.1))|
      ≤ Λ * |w t c.1 c.2.1 c.2.2 - p t c.1 c.2.1 c.2.2| + τ)
    (h0 : ∀ c ∈ cells, |w 0 c.1 c.2.1 c.2.2 - p 0 c.1 c.2.1 c.2.2| ≤ E) :
    ∀ t ∈ Icc 0 T, ∀ c ∈ cells, |w t c.1 c.2.1 c.2.2 - p t c.1 c.2.1 c.2.2| ≤ (E + τ * t) * Real.exp (Λ * t) := by
  refine error_le cells (fun t c => w t c.1 c.2.1 c.2.2 - p t c.1 c.2.1 c.2.2) (fun t c => gw t c.1 c.2.1 c.2.2 - gp t c.1 c.2.1 c.2.2) T Λ τ E
    hΛ hτ hE (fun t ht c hc => (hw t ht c hc).sub (hp t ht c hc)) h0 (fun t ht c hc hpos hmax => ?_) (fun t ht c hc hneg hmax => ?_)
  · have pull := pull3 (fr t) eps dx dy dz (mob t c.1 c.2.1 c.2.2) hdx hdy hdz (hmob t ht c hc) (hfr t ht c hc)
      (fun a b d => p t a b d - w t a b d) c.1 c.2.1 c.2.2
      (fun a b d a1 a2 b1 b2 d1 d2 => by
        obtain ⟨q, hq, e⟩ := hcl t ht c hc a b d a1 a2 b1 b2 d1 d2
        have h := hmax q hq
        show p t c.1 c.2.1 c.2.2 - w t c.1 c.2.1 c.2.2 ≤ p t (c.1 + a) (c.2.1 + b) (c.2.2 + d) - w t (c.1 + a) (c.2.1 + b) (c.2.2 + d)
        have := le_abs_self (w t q.1 q.2.1 q.2.2 - p t q.1 q.2.1 q.2.2)
        linarith)
    rw [show div3 dx dy dz _ _ _ c.1 c.2.1 c.2.2 = _ from diff3_sub eps dx dy dz (p t) (w t) c.1 c.2.1 c.2.2,
      frame_sub (fr t) dx (fun a => p t a c.2.1 c.2.2) (fun a => w t a c.2.1 c.2.2)] at pull
    have h := (abs_le.1 (hg t ht c hc)).2
    rw [abs_of_nonneg hpos] at h
    linarith
  · have pull := pull3 (fr t) eps dx dy dz (mob t c.1 c.2.1 c.2.2) hdx hdy hdz (hmob t ht c hc) (hfr t ht c hc)
      (fun a b d => w t a b d - p t a b d) c.1 c.2.1 c.2.2
      (fun a b d a1 a2 b1 b2 d1 d2 => by
        obtain ⟨q, hq, e⟩ := hcl t ht c hc a b d a1 a2 b1 b2 d1 d2
        have h := hmax q hq
        show w t c.1 c.2.1 c.2.2 - p t c.1 c.2.1 c.2.2 ≤ w t (c.1 + a) (c.2.1 + b) (c.2.2 + d) - p t (c.1 + a) (c.2.1 + b) (c.2.2 + d)
        have := neg_le_abs (w t q.1 q.2.1 q.2.2 - p t q.1 q.2.1 q.2.2)
        linarith)
    rw [show div3 dx dy dz _ _ _ c.1 c.2.1 c.2.2 = _ from diff3_sub eps dx dy dz (w t) (p t) c.1 c.2.1 c.2.2,
      frame_sub (fr t) dx (fun a => w t a c.2.1 c.2.2) (fun a => p t a c.2.1 c.2.2)] at pull
    have h := (abs_le.1 (hg t ht c hc)).1
    rw [abs_of_nonpos hneg] at h
    linarith

theorem box_wrap3 {nx ny nz : ℤ} (hx : 0 < nx) (hy : 0 < ny) (hz : 0 < nz) {u : Field3} (hu : Per3 nx ny nz u) :
    ∀ p ∈ box3 nx ny nz, ∀ a b c : ℤ, -1 ≤ a → a ≤ 1 → -1 ≤ b → b ≤ 1 → -1 ≤ c → c ≤ 1 →
      ∃ q ∈ box3 nx ny nz, u (p.1 + a) (p.2.1 + b) (p.2.2 + c) = u q.1 q.2.1 q.2.2 := by
  intro c hc a b d a1 a2 b1 b2 d1 d2
  simp only [box3, Finset.mem_product, Finset.mem_Ico] at hc ⊢
  obtain ⟨⟨x1, x2⟩, ⟨y1, y2⟩, z1, z2⟩ := hc
  have wrap : ∀ n x : ℤ, 0 < n → -1 ≤ x → x ≤ n → ∃ y, 0 ≤ y ∧ y < n ∧ (y = x ∨ y = x + n ∨ x = y + n) := fun n x hn h1 h2 => by
    by_cases h : x < 0
    · exact ⟨x + n, by omega, by omega, by omega⟩
    · by_cases h' : x < n
      · exact ⟨x, by omega, h', by omega⟩
      · exact ⟨x - n, by omega, by omega, by omega⟩
  obtain ⟨p, p1, p2, p3⟩ := wrap nx (c.1 + a) hx (by omega) (by omega)
  obtain ⟨q, q1, q2, q3⟩ := wrap ny (c.2.1 + b) hy (by omega) (by omega)
  obtain ⟨r, r1, r2, r3⟩ := wrap nz (c.2.2 + d) hz (by omega) (by omega)
  refine ⟨(p, q, r), ⟨⟨p1, p2⟩, ⟨q1, q2⟩, r1, r2⟩, ?_⟩
  have e1 : ∀ y z, u (c.1 + a) y z = u p y z := fun y z => by
    rcases p3 with h | h | h
    · rw [h]
    · rw [h, hu.1]
    · rw [h, hu.1]
  have e2 : ∀ x z, u x (c.2.1 + b) z = u x q z := fun x z => by
    rcases q3 with h | h | h
    · rw [h]
    · rw [h, hu.2.1]
    · rw [h, hu.2.1]
  rw [e1, e2]
  rcases r3 with h | h | h
  · rw [h]
  · rw [h, hu.2.2]
  · rw [h, hu.2.2]

theorem per_sub3 {nx ny nz : ℤ} {u w : Field3} (hu : Per3 nx ny nz u) (hw : Per3 nx ny nz w) : Per3 nx ny nz (fun a b c => u a b c - w a b c) :=
  ⟨fun i j k => by show u _ _ _ - w _ _ _ = _; rw [hu.1, hw.1], fun i j k => by show u _ _ _ - w _ _ _ = _; rw [hu.2.1, hw.2.1],
    fun i j k => by show u _ _ _ - w _ _ _ = _; rw [hu.2.2, hw.2.2]⟩

/-- The phase equation in all points of space. -/
def PhasePDE3 (S : Setting) (fr : ℝ → Frame) (eps : ℝ) (drop mob : ℝ → ℝ → ℝ → ℝ → ℝ) (T : ℝ) (u : ℝ → ℝ → ℝ → ℝ → ℝ) : Prop :=
  ∀ t ∈ Icc 0 T, ∀ x y z, HasDerivAt (fun s => u s x y z)
    (mob t x y z * (eps ^ 2 * lap3 (u t) x y z + reaction S.interp S.scale (drop t x y z) (u t x y z))
      + speed (fr t) * iteratedDeriv 1 (fun s => u t s y z) x) t

/-- **C140** (3D). -/
theorem c140_phase_3d (S : Setting) (hi : S.interp = 'p' ∨ S.interp = 'h') (ho : S.orient = false) (hsc : 0 ≤ S.scale) (st : Stencil) (fr : ℝ → Frame)
    (eps x0 y0 z0 dx dy dz : ℝ) (hdx : 0 < dx) (hdy : 0 < dy) (hdz : 0 < dz)
    (fl fa mob : ℝ → ℝ → ℝ → ℝ → ℝ) (temp ogm : ℝ → Field3) (nx ny nz : ℤ) (hx : 0 < nx) (hy : 0 < ny) (hz : 0 < nz) (T M D V B3 B4 E : ℝ) (hE : 0 ≤ E)
    (hmob : ∀ t ∈ Icc 0 T, ∀ x y z, 0 ≤ mob t x y z ∧ mob t x y z ≤ M)
    (hD : ∀ t ∈ Icc 0 T, ∀ x y z, |fl t x y z - fa t x y z| ≤ D)
    (hV : ∀ t ∈ Icc 0 T, |speed (fr t)| ≤ V)
    (hfr : ∀ t ∈ Icc 0 T, ∀ c ∈ box3 nx ny nz, FrameOk (fr t) dx eps 1 (sample3 x0 y0 z0 dx dy dz (mob t) c.1 c.2.1 c.2.2))
    (phi : ℝ → Field3) (hper : ∀ t, Per3 nx ny nz (phi t))
    (hsol : Solves3 S st fr eps dx dy dz (fun t i j k => .energies (sample3 x0 y0 z0 dx dy dz (fl t) i j k) (sample3 x0 y0 z0 dx dy dz (fa t) i j k))
      (fun t => sample3 x0 y0 z0 dx dy dz (mob t)) temp ogm (box3 nx ny nz) T phi)
    (hph0 : ∀ c ∈ box3 nx ny nz, 0 ≤ phi 0 c.1 c.2.1 c.2.2 ∧ phi 0 c.1 c.2.1 c.2.2 ≤ 1)
    (u : ℝ → ℝ → ℝ → ℝ → ℝ) (hu : ∀ t ∈ Icc 0 T, Smooth3 (u t) B3 B4) (hup : ∀ t, Per3 nx ny nz (sample3 x0 y0 z0 dx dy dz (u t)))
    (hu01 : ∀ t ∈ Icc 0 T, ∀ x y z, 0 ≤ u t x y z ∧ u t x y z ≤ 1)
    (heq : PhasePDE3 S fr eps (fun t x y z => fl t x y z - fa t x y z) mob T u)
    (h0 : ∀ c ∈ box3 nx ny nz, |phi 0 c.1 c.2.1 c.2.2 - sample3 x0 y0 z0 dx dy dz (u 0) c.1 c.2.1 c.2.2| ≤ E) :
    ∀ t ∈ Icc 0 T, ∀ c ∈ box3 nx ny nz, |phi t c.1 c.2.1 c.2.2 - sample3 x0 y0 z0 dx dy dz (u t) c.1 c.2.1 c.2.2|
      ≤ (E + (M * (eps ^ 2 * (B4 * (dx ^ 2 + dy ^ 2 + dz ^ 2) / 12)) + V * (B3 * dx ^ 2 / 6)) * t) * Real.exp (M * (32 * S.scale + 15 * D) * t) := by
  by_cases hT : 0 ≤ T
  swap
  · intro t ht; exact absurd (ht.1.trans ht.2) hT
  have h0T : (0:ℝ) ∈ Icc 0 T := ⟨le_rfl, hT⟩
  have hM : 0 ≤ M := (hmob 0 h0T 0 0 0).1.trans (hmob 0 h0T 0 0 0).2
  have hD0 : 0 ≤ D := (abs_nonneg _).trans (hD 0 h0T 0 0 0)
  have hV0 : 0 ≤ V := (abs_nonneg _).trans (hV 0 h0T)
  have hB3 : 0 ≤ B3 := (abs_nonneg _).trans ((hu 0 h0T).x3 0 0 0)
  have hB4 : 0 ≤ B4 := (abs_nonneg _).trans ((hu 0 h0T).x4 0 0 0)
  have hcl3 : ∀ t, Closed3 0 1 (box3 nx ny nz) (phi t) := fun t p hp a b c a1 a2 b1 b2 c1 c2 =>
    Or.inl (box_wrap3 hx hy hz (hper t) p hp a b c a1 a2 b1 b2 c1 c2)
  have hin := c131_between_3d_partial { S with misor := 0 } ⟨hi, hsc, fun h => by rw [ho] at h; cases h⟩ st fr eps dx dy dz hdx hdy hdz
    (fun t i j k => .energies (sample3 x0 y0 z0 dx dy dz (fl t) i j k) (sample3 x0 y0 z0 dx dy dz (fa t) i j k))
    (fun t => sample3 x0 y0 z0 dx dy dz (mob t)) temp (fun _ _ _ _ => 0) (box3 nx ny nz) T phi (fun t ht c hc => (hmob t ht _ _ _).1)
    (fun t ht c hc => by simp) (fun t ht c hc => le_rfl) hfr ⟨0, fun t ht c hc => by simp [slant]⟩ (fun t _ => hcl3 t)
    (fun t ht c hc => by
      obtain ⟨r, hr, hd⟩ := hsol t ht c hc
      refine ⟨r, ?_, hd⟩
      rw [← hr]
      cases st <;> simp [rate3, cellRate, pbgCell, ho]) hph0
  choose! r hr hd using hsol
  have hrate : ∀ t ∈ Icc 0 T, ∀ c ∈ box3 nx ny nz, r t c = sample3 x0 y0 z0 dx dy dz (mob t) c.1 c.2.1 c.2.2
      * (diffTerm3 eps dx dy dz (phi t) c.1 c.2.1 c.2.2
        + reaction S.interp S.scale (sample3 x0 y0 z0 dx dy dz (fl t) c.1 c.2.1 c.2.2 - sample3 x0 y0 z0 dx dy dz (fa t) c.1 c.2.1 c.2.2)
          (phi t c.1 c.2.1 c.2.2)) + frameTerm (fr t) dx (fun a => phi t a c.2.1 c.2.2) c.1 := fun t ht c hc => by
    have h := hr t ht c hc
    obtain ⟨i1, i2⟩ := hin t ht c hc
    cases st with
    | isotropic => simp [rate3] at h
    | simple =>
      simp only [rate3] at h
      rw [cellRate_eq S hi ho _ _ _ _ _ _ _ i1 i2, Option.map_some, Option.some.injEq] at h
      exact h.symm
  refine close3 fr eps dx dy dz hdx hdy hdz (fun t => sample3 x0 y0 z0 dx dy dz (mob t)) (box3 nx ny nz) T (M * (32 * S.scale + 15 * D)) _ E
    (by positivity) (by positivity) hE phi
    (fun t => sample3 x0 y0 z0 dx dy dz (u t)) (fun t i j k => r t (i, j, k)) (hmob := fun t ht c hc => (hmob t ht _ _ _).1) (hfr := hfr)
    (hcl := fun t ht p hp a b c a1 a2 b1 b2 c1 c2 => box_wrap3 hx hy hz (per_sub3 (hper t) (hup t)) p hp a b c a1 a2 b1 b2 c1 c2)
    (hw := fun t ht c hc => hd t ht c hc)
    (gp := fun t i j k => mob t (x0 + i * dx) (y0 + j * dy) (z0 + k * dz) * (eps ^ 2 * lap3 (u t) (x0 + i * dx) (y0 + j * dy) (z0 + k * dz)
        + reaction S.interp S.scale (fl t (x0 + i * dx) (y0 + j * dy) (z0 + k * dz) - fa t (x0 + i * dx) (y0 + j * dy) (z0 + k * dz))
          (u t (x0 + i * dx) (y0 + j * dy) (z0 + k * dz)))
      + speed (fr t) * iteratedDeriv 1 (fun s => u t s (y0 + j * dy) (z0 + k * dz)) (x0 + i * dx)) (hp := fun t ht c hc => heq t ht _ _ _)
    (hg := fun t ht c hc => ?_) (h0 := h0)
  set x := x0 + c.1 * dx with hxdef
  set y := y0 + c.2.1 * dy with hydef
  set z := z0 + c.2.2 * dz with hzdef
  obtain ⟨m0, m1⟩ := hmob t ht x y z
  obtain ⟨i1, i2⟩ := hin t ht c hc
  obtain ⟨j1, j2⟩ := hu01 t ht x y z
  have lip := reaction_lip S.interp hsc (hD t ht x y z) i1 i2 j1 j2
  have cons : |diffTerm3 eps dx dy dz (sample3 x0 y0 z0 dx dy dz (u t)) c.1 c.2.1 c.2.2 - eps ^ 2 * lap3 (u t) x y z| ≤ _ :=
    consistent3 (eps := eps) (x0 := x0) (y0 := y0) (z0 := z0) hdx hdy hdz (hu t ht) c.1 c.2.1 c.2.2
  have consf := consistent_frame (fr t) (not_upwind (hfr t ht c hc)) (x0 := x0) hdx ((hu t ht).x y z) (fun s => (hu t ht).x3 s _ _) c.1
  rw [hrate t ht c hc]
  simp only [sample3, ← hxdef, ← hydef, ← hzdef]
  change |_| ≤ M * (32 * S.scale + 15 * D) * |phi t c.1 c.2.1 c.2.2 - u t x y z| + _
  set A := diffTerm3 eps dx dy dz (phi t) c.1 c.2.1 c.2.2
  change |_ - (mob t x y z * (A - diffTerm3 eps dx dy dz (sample3 x0 y0 z0 dx dy dz (u t)) c.1 c.2.1 c.2.2) + _)| ≤ _
  set P := diffTerm3 eps dx dy dz (sample3 x0 y0 z0 dx dy dz (u t)) c.1 c.2.1 c.2.2
  set L := lap3 (u t) x y z
  set R1 := reaction S.interp S.scale (fl t x y z - fa t x y z) (phi t c.1 c.2.1 c.2.2)
  set R2 := reaction S.interp S.scale (fl t x y z - fa t x y z) (u t x y z)
  set F1 := frameTerm (fr t) dx (fun a => phi t a c.2.1 c.2.2) c.1
  set F2 := frameTerm (fr t) dx (fun a => u t (x0 + a * dx) y z) c.1
  set G := speed (fr t) * iteratedDeriv 1 (fun s => u t s y z) x
  have e : mob t x y z * (A + R1) + F1 - (mob t x y z * (eps ^ 2 * L + R2) + G) - (mob t x y z * (A - P) + (F1 - F2))
      = mob t x y z * (R1 - R2) + mob t x y z * (P - eps ^ 2 * L) + (F2 - G) := by ring
  rw [e]
  have b1 : |mob t x y z * (R1 - R2)| ≤ M * (32 * S.scale + 15 * D) * |phi t c.1 c.2.1 c.2.2 - u t x y z| := by
    rw [abs_mul, abs_of_nonneg m0, mul_assoc]
    exact mul_le_mul m1 lip (abs_nonneg _) hM
  have b2 : |mob t x y z * (P - eps ^ 2 * L)| ≤ M * (eps ^ 2 * (B4 * (dx ^ 2 + dy ^ 2 + dz ^ 2) / 12)) := by
    rw [abs_mul, abs_of_nonneg m0]
    exact mul_le_mul m1 cons (abs_nonneg _) hM
  have b3 : |F2 - G| ≤ V * (B3 * dx ^ 2 / 6) :=
    consf.trans (mul_le_mul_of_nonneg_right (hV t ht) (by positivity))
  have t1 := abs_add_le (mob t x y z * (R1 - R2) + mob t x y z * (P - eps ^ 2 * L)) (F2 - G)
  have t2 := abs_add_le (mob t x y z * (R1 - R2)) (mob t x y z * (P - eps ^ 2 * L))
  linarith

theorem heat_split3 (fr : Frame) (dx dy dz diff L : ℝ) (b : Bool) (w cp ph : Field3) (i j k : ℤ) :
    heatRate3 fr dx dy dz diff L b w cp ph i j k = diff * diffTerm3 1 dx dy dz w i j k + frameTerm fr dx (fun a => w a j k) i
      + released L b (cp i j k) (ph i j k) := by
  rw [rate3_eq]
  simp only [laplacian3, diffTerm3, div3, gradFlux3X, gradFlux3Y, gradFlux3Z, add_sub_cancel_right]
  ring

/-- **C140** (heat, 3D). -/
theorem c140_heat_3d (fr : ℝ → Frame) (x0 y0 z0 dx dy dz diff L : ℝ) (hdx : 0 < dx) (hdy : 0 < dy) (hdz : 0 < dz) (hdiff : 0 ≤ diff) (withPhase : Bool)
    (cp phiRhs : ℝ → Field3) (nx ny nz : ℤ) (hx : 0 < nx) (hy : 0 < ny) (hz : 0 < nz) (T V B3 B4 E δ : ℝ) (hE : 0 ≤ E)
    (hV : ∀ t ∈ Icc 0 T, |speed (fr t)| ≤ V) (hfr : ∀ t ∈ Icc 0 T, Slow (fr t) dx diff)
    (w : ℝ → Field3) (hper : ∀ t, Per3 nx ny nz (w t))
    (hsol : ∀ t ∈ Icc 0 T, ∀ c ∈ box3 nx ny nz, HasDerivAt (fun s => w s c.1 c.2.1 c.2.2)
      (heatRate3 (fr t) dx dy dz diff L withPhase (w t) (cp t) (phiRhs t) c.1 c.2.1 c.2.2) t)
    (u q : ℝ → ℝ → ℝ → ℝ → ℝ) (hu : ∀ t ∈ Icc 0 T, Smooth3 (u t) B3 B4) (hup : ∀ t, Per3 nx ny nz (sample3 x0 y0 z0 dx dy dz (u t)))
    (heq : ∀ t ∈ Icc 0 T, ∀ x y z, HasDerivAt (fun s => u s x y z)
      (diff * lap3 (u t) x y z + speed (fr t) * iteratedDeriv 1 (fun s => u t s y z) x + q t x y z) t)
    (hq : ∀ t ∈ Icc 0 T, ∀ c ∈ box3 nx ny nz,
      |released L withPhase (cp t c.1 c.2.1 c.2.2) (phiRhs t c.1 c.2.1 c.2.2) - sample3 x0 y0 z0 dx dy dz (q t) c.1 c.2.1 c.2.2| ≤ δ)
    (h0 : ∀ c ∈ box3 nx ny nz, |w 0 c.1 c.2.1 c.2.2 - sample3 x0 y0 z0 dx dy dz (u 0) c.1 c.2.1 c.2.2| ≤ E) :
    ∀ t ∈ Icc 0 T, ∀ c ∈ box3 nx ny nz, |w t c.1 c.2.1 c.2.2 - sample3 x0 y0 z0 dx dy dz (u t) c.1 c.2.1 c.2.2|
      ≤ E + (diff * (B4 * (dx ^ 2 + dy ^ 2 + dz ^ 2) / 12) + V * (B3 * dx ^ 2 / 6) + δ) * t := by
  by_cases hT : 0 ≤ T
  swap
  · intro t ht; exact absurd (ht.1.trans ht.2) hT
  have hc0 : ((0:ℤ), (0:ℤ), (0:ℤ)) ∈ box3 nx ny nz := by simp [box3, hx, hy, hz]
  have h0T : (0:ℝ) ∈ Icc 0 T := ⟨le_rfl, hT⟩
  have hV0 : 0 ≤ V := (abs_nonneg _).trans (hV 0 h0T)
  have hB3 : 0 ≤ B3 := (abs_nonneg _).trans ((hu 0 h0T).x3 0 0 0)
  have hB4 : 0 ≤ B4 := (abs_nonneg _).trans ((hu 0 h0T).x4 0 0 0)
  have hδ : 0 ≤ δ := (abs_nonneg _).trans (hq 0 h0T _ hc0)
  have hok : ∀ t ∈ Icc 0 T, FrameOk (fr t) dx 1 1 diff := fun t ht => slow_ok (hfr t ht)
  have key := close3 fr 1 dx dy dz hdx hdy hdz (fun _ _ _ _ => diff) (box3 nx ny nz) T 0
    (diff * (B4 * (dx ^ 2 + dy ^ 2 + dz ^ 2) / 12) + V * (B3 * dx ^ 2 / 6) + δ) E le_rfl (by positivity) hE w
    (fun t => sample3 x0 y0 z0 dx dy dz (u t)) (fun t i j k => heatRate3 (fr t) dx dy dz diff L withPhase (w t) (cp t) (phiRhs t) i j k)
    (fun t i j k => diff * lap3 (u t) (x0 + i * dx) (y0 + j * dy) (z0 + k * dz)
      + speed (fr t) * iteratedDeriv 1 (fun s => u t s (y0 + j * dy) (z0 + k * dz)) (x0 + i * dx) + q t (x0 + i * dx) (y0 + j * dy) (z0 + k * dz))
    (fun t ht c hc => hdiff) (fun t ht c hc => hok t ht)
    (fun t ht p hp a b c a1 a2 b1 b2 c1 c2 => box_wrap3 hx hy hz (per_sub3 (hper t) (hup t)) p hp a b c a1 a2 b1 b2 c1 c2) hsol
    (fun t ht c hc => heq t ht _ _ _) (fun t ht c hc => ?_) h0
  · intro t ht c hc
    have := key t ht c hc
    rwa [zero_mul, Real.exp_zero, mul_one] at this
  · set x := x0 + c.1 * dx with hxdef
    set y := y0 + c.2.1 * dy with hydef
    set z := z0 + c.2.2 * dz with hzdef
    have cons : |diffTerm3 1 dx dy dz (sample3 x0 y0 z0 dx dy dz (u t)) c.1 c.2.1 c.2.2 - 1 ^ 2 * lap3 (u t) x y z| ≤ _ :=
      consistent3 (eps := 1) (x0 := x0) (y0 := y0) (z0 := z0) hdx hdy hdz (hu t ht) c.1 c.2.1 c.2.2
    have consf := consistent_frame (fr t) (not_upwind (hok t ht)) (x0 := x0) hdx ((hu t ht).x y z) (fun s => (hu t ht).x3 s _ _) c.1
    have hqc : |_ - q t x y z| ≤ δ := hq t ht c hc
    rw [heat_split3]
    simp only [one_pow, one_mul] at cons
    set A := diffTerm3 1 dx dy dz (w t) c.1 c.2.1 c.2.2
    set P := diffTerm3 1 dx dy dz (sample3 x0 y0 z0 dx dy dz (u t)) c.1 c.2.1 c.2.2
    set Lp := lap3 (u t) x y z
    set F1 := frameTerm (fr t) dx (fun a => w t a c.2.1 c.2.2) c.1
    have hF : frameTerm (fr t) dx (fun a => sample3 x0 y0 z0 dx dy dz (u t) a c.2.1 c.2.2) c.1
      = frameTerm (fr t) dx (fun a => u t (x0 + a * dx) y z) c.1 := rfl
    rw [hF]
    set F2 := frameTerm (fr t) dx (fun a => u t (x0 + a * dx) y z) c.1
    set G := speed (fr t) * iteratedDeriv 1 (fun s => u t s y z) x
    set r := released L withPhase (cp t c.1 c.2.1 c.2.2) (phiRhs t c.1 c.2.1 c.2.2)
    set Q := q t x y z
    have e : diff * A + F1 + r - (diff * Lp + G + Q) - (diff * (A - P) + (F1 - F2)) = diff * (P - Lp) + (F2 - G) + (r - Q) := by ring
    rw [e]
    have b1 : |diff * (P - Lp)| ≤ diff * (B4 * (dx ^ 2 + dy ^ 2 + dz ^ 2) / 12) := by
      rw [abs_mul, abs_of_nonneg hdiff]
      exact mul_le_mul_of_nonneg_left cons hdiff
    have b3 : |F2 - G| ≤ V * (B3 * dx ^ 2 / 6) :=
      consf.trans (mul_le_mul_of_nonneg_right (hV t ht) (by positivity))
    have t1 := abs_add_le (diff * (P - Lp) + (F2 - G)) (r - Q)
    have t2 := abs_add_le (diff * (P - Lp)) (F2 - G)
    linarith

/-! ## The hypotheses are met -/

/-- Third and fourth derivatives of `a + b cos`. -/
theorem iter_cos (a b : ℝ) : iteratedDeriv 1 (fun x => a + b * Real.cos x) = (fun x => -(b * Real.sin x)) ∧
    iteratedDeriv 2 (fun x => a + b * Real.cos x) = (fun x => -(b * Real.cos x)) ∧
    iteratedDeriv 3 (fun x => a + b * Real.cos x) = (fun x => b * Real.sin x) ∧
    iteratedDeriv 4 (fun x => a + b * Real.cos x) = fun x => b * Real.cos x := by
  have h1 : iteratedDeriv 1 (fun x => a + b * Real.cos x) = fun x => -(b * Real.sin x) := by
    rw [iteratedDeriv_one]; funext x
    exact (((Real.hasDerivAt_cos x).const_mul b).const_add a).deriv.trans (by ring)
  have h2 : iteratedDeriv 2 (fun x => a + b * Real.cos x) = fun x => -(b * Real.cos x) := by
    rw [iteratedDeriv_succ, h1]; funext x
    exact (((Real.hasDerivAt_sin x).const_mul b).neg).deriv
  have h3 : iteratedDeriv 3 (fun x => a + b * Real.cos x) = fun x => b * Real.sin x := by
    rw [iteratedDeriv_succ, h2]; funext x
    exact (((Real.hasDerivAt_cos x).const_mul b).neg).deriv.trans (by ring)
  refine ⟨h1, h2, h3, ?_⟩
  rw [iteratedDeriv_succ, h3]; funext x
  exact ((Real.hasDerivAt_sin x).const_mul b).deriv

theorem iter_const (k : ℕ) (c : ℝ) : iteratedDeriv (k + 1) (fun _ : ℝ => c) = fun _ => 0 := by
  induction k with
  | zero => rw [iteratedDeriv_one]; funext x; simp
  | succ k ih => rw [iteratedDeriv_succ, ih]; funext x; simp

theorem smooth_cos (a b : ℝ) : Smooth2 (fun x _ => a + b * Real.cos x) |b| |b| 0 where
  x _ := contDiff_const.add (contDiff_const.mul Real.contDiff_cos)
  y _ := contDiff_const
  m _ := contDiff_const
  x3 x _ := by rw [(iter_cos a b).2.2.1, abs_mul]; exact mul_le_of_le_one_right (abs_nonneg _) (Real.abs_sin_le_one _)
  x4 x _ := by rw [(iter_cos a b).2.2.2, abs_mul]; exact mul_le_of_le_one_right (abs_nonneg _) (Real.abs_cos_le_one _)
  y4 x y := by rw [iter_const]; simp
  m4 x y := by rw [iter_const]; simp

/-- Decay rate of `cos` on the mesh. -/
noncomputable def meshRate (dx : ℝ) : ℝ := (2 - 2 * Real.cos dx) / (dx * dx)

/-- A wave `1/2 + exp(-t) cos x / 4` in a box of `n` by one cells, and what the program computes for it,
`1/2 + exp(-lambda t) cos(i dx) / 4`: all hypotheses of `c140_second_order` and of its conclusion hold, without a driving force and with
`scale = 0`. -/
example (n : ℕ) (hn : 0 < n) : let dx : ℝ := 2 * Real.pi / n
    let S : Setting := ⟨'p', 'q', 'q', 0, 0, 0, false⟩
    let u : ℝ → ℝ → ℝ → ℝ := fun t x _ => 1 / 2 + 1 / 4 * Real.exp (-t) * Real.cos x
    let phi : ℝ → Field2 := fun t i _ => 1 / 2 + 1 / 4 * Real.exp (-meshRate dx * t) * Real.cos (i * dx)
    (∀ t ∈ Icc 0 1, Smooth2 (u t) 1 1 1) ∧ (∀ t ∈ Icc 0 1, ∀ x y, 0 ≤ u t x y ∧ u t x y ≤ 1) ∧
    PhasePDE2 S (fun _ => .fixed) 1 (fun _ _ _ => 0 - 0) (fun _ _ _ => 1) 1 u ∧
    (∀ t, Per2 n 1 (sample2 0 0 dx 1 (u t))) ∧ (∀ t, Per2 n 1 (phi t)) ∧
    Solves2 S .simple (fun _ => .fixed) 1 dx 1 (fun _ _ _ => .energies 0 0) (fun _ _ _ => 1) (fun _ _ _ => 0) (fun _ _ _ => 0) (box2 n 1) 1 phi ∧
    ∀ c ∈ box2 n 1, phi 0 c.1 c.2 = sample2 0 0 dx 1 (u 0) c.1 c.2 := by
  intro dx S u phi
  have hn0 : (0:ℝ) < n := by exact_mod_cast hn
  have hdx : 0 < dx := div_pos (by positivity) hn0
  have hperi : ∀ i : ℤ, Real.cos (((i + n : ℤ) : ℝ) * dx) = Real.cos (i * dx) := fun i => by
    have : ((i + n : ℤ) : ℝ) * dx = i * dx + 2 * Real.pi := by
      push_cast; simp only [dx]; field_simp
    rw [this, Real.cos_add_two_pi]
  have hexp : ∀ t ∈ Icc (0:ℝ) 1, Real.exp (-t) ≤ 1 := fun t ht => Real.exp_le_one_iff.2 (by linarith [ht.1])
  have hamp : ∀ t ∈ Icc (0:ℝ) 1, |1 / 4 * Real.exp (-t)| ≤ 1 / 4 := fun t ht => by
    rw [abs_of_pos (by positivity)]; linarith [hexp t ht]
  refine ⟨fun t ht => ?_, fun t ht x y => ?_, fun t ht x y => ?_, fun t => ⟨fun i j => ?_, fun i j => rfl⟩, fun t => ⟨fun i j => ?_, fun i j => rfl⟩,
    fun t ht c hc => ⟨-meshRate dx * (1 / 4 * Real.exp (-meshRate dx * t) * Real.cos (c.1 * dx)), ?_, ?_⟩, fun c hc => ?_⟩
  · have s := smooth_cos (1 / 2) (1 / 4 * Real.exp (-t))
    have h := hamp t ht
    exact ⟨s.x, s.y, s.m, fun x y => (s.x3 x y).trans (by linarith), fun x y => (s.x4 x y).trans (by linarith),
      fun x y => (s.y4 x y).trans (by linarith), fun x y => (s.m4 x y).trans (by norm_num)⟩
  · have h1 := abs_le.1 (Real.abs_cos_le_one x)
    have h2 := hexp t ht
    have h3 := Real.exp_pos (-t)
    constructor <;> simp only [u] <;> nlinarith
  · have e2 := (iter_cos (1 / 2) (1 / 4 * Real.exp (-t))).2.1
    have e0 := iter_const 1 (1 / 2 + 1 / 4 * Real.exp (-t) * Real.cos x)
    have d := ((((hasDerivAt_id t).neg.exp).const_mul (1 / 4 : ℝ)).mul_const (Real.cos x)).const_add (1 / 2 : ℝ)
    refine d.congr_deriv ?_
    simp only [lap2, u, S, speed, reaction]
    rw [e2, e0]
    simp
  · simp only [sample2, u, zero_add]
    rw [hperi]
  · simp only [phi]
    rw [hperi]
  · unfold rate2
    rw [cellRate_eq _ (Or.inl rfl) rfl, Option.map_some, Option.some.injEq, diff_simple]
    · have a1 : Real.cos (((c.1 + 1 : ℤ) : ℝ) * dx) + Real.cos (((c.1 + -1 : ℤ) : ℝ) * dx) = 2 * Real.cos dx * Real.cos (c.1 * dx) := by
        have e1 : ((c.1 + 1 : ℤ) : ℝ) * dx = c.1 * dx + dx := by push_cast; ring
        have e2 : ((c.1 + -1 : ℤ) : ℝ) * dx = c.1 * dx - dx := by push_cast; ring
        rw [e1, e2, Real.cos_add, Real.cos_sub]; ring
      simp only [phi, S, reaction, frameTerm]
      have : ∀ A C1 C2 C0 m : ℝ, C1 + C2 = m → 1 * (1 * 1 * (1 / (dx * dx) * ((1 / 2 + A * C1 - (1 / 2 + A * C0)) + (1 / 2 + A * C2 - (1 / 2 + A * C0)))
          + 1 / (1 * 1) * ((1 / 2 + A * C0 - (1 / 2 + A * C0)) + (1 / 2 + A * C0 - (1 / 2 + A * C0)))) + (-0 * (32 * (1 / 2 + A * C0) * (1 - (1 / 2 + A * C0))
          * (1 - 2 * (1 / 2 + A * C0))) + slopeH 'p' (1 / 2 + A * C0) * (0 - 0))) + 0 = 1 / (dx * dx) * (A * (m - 2 * C0)) := by
        intro A C1 C2 C0 m h
        rw [← h]; ring
      rw [this _ _ _ _ _ a1, meshRate]
      ring
    · have hl : 0 ≤ meshRate dx := div_nonneg (by linarith [Real.cos_le_one dx]) (mul_self_nonneg _)
      have h1 := abs_le.1 (Real.abs_cos_le_one (c.1 * dx))
      have h2 : Real.exp (-meshRate dx * t) ≤ 1 := Real.exp_le_one_iff.2 (by nlinarith [ht.1, mul_nonneg hl ht.1])
      have h3 := Real.exp_pos (-meshRate dx * t)
      simp only [phi]; nlinarith
    · have hl : 0 ≤ meshRate dx := div_nonneg (by linarith [Real.cos_le_one dx]) (mul_self_nonneg _)
      have h1 := abs_le.1 (Real.abs_cos_le_one (c.1 * dx))
      have h2 : Real.exp (-meshRate dx * t) ≤ 1 := Real.exp_le_one_iff.2 (by nlinarith [ht.1, mul_nonneg hl ht.1])
      have h3 := Real.exp_pos (-meshRate dx * t)
      simp only [phi]; nlinarith
  · have d := ((((hasDerivAt_id t).const_mul (-meshRate dx)).exp.const_mul (1 / 4 : ℝ)).mul_const (Real.cos (c.1 * dx))).const_add (1 / 2 : ℝ)
    refine d.congr_deriv ?_
    simp only [id, mul_one]; ring
  · simp [phi, sample2, u]

/-- The temperature `20 + exp(-t) cos x` cools as the program computes it, with `D = 1` and no phase. -/
example (n : ℕ) (hn : 0 < n) : let dx : ℝ := 2 * Real.pi / n
    let u : ℝ → ℝ → ℝ → ℝ := fun t x _ => 20 + Real.exp (-t) * Real.cos x
    let w : ℝ → Field2 := fun t i _ => 20 + Real.exp (-meshRate dx * t) * Real.cos (i * dx)
    (∀ t ∈ Icc (0:ℝ) 1, Smooth2 (u t) 1 1 0) ∧ (∀ t, Per2 n 1 (w t)) ∧
    (∀ t ∈ Icc (0:ℝ) 1, ∀ c ∈ box2 n 1, HasDerivAt (fun s => w s c.1 c.2)
      (heatRate2 .fixed dx 1 1 0 false (w t) (fun _ _ => 1) (fun _ _ => 0) c.1 c.2) t) ∧
    ∀ t ∈ Icc (0:ℝ) 1, ∀ x y, HasDerivAt (fun s => u s x y) (1 * lap2 (u t) x y + speed .fixed * iteratedDeriv 1 (fun s => u t s y) x + 0) t := by
  intro dx u w
  have hn0 : (0:ℝ) < n := by exact_mod_cast hn
  have hdx : 0 < dx := div_pos (by positivity) hn0
  have hperi : ∀ i : ℤ, Real.cos (((i + n : ℤ) : ℝ) * dx) = Real.cos (i * dx) := fun i => by
    have : ((i + n : ℤ) : ℝ) * dx = i * dx + 2 * Real.pi := by
      push_cast; simp only [dx]; field_simp
    rw [this, Real.cos_add_two_pi]
  refine ⟨fun t ht => ?_, fun t => ⟨fun i j => ?_, fun i j => rfl⟩, fun t ht c hc => ?_, fun t ht x y => ?_⟩
  · have s := smooth_cos 20 (Real.exp (-t))
    have h : |Real.exp (-t)| ≤ 1 := by rw [abs_of_pos (Real.exp_pos _)]; exact Real.exp_le_one_iff.2 (by linarith [ht.1])
    exact ⟨s.x, s.y, s.m, fun x y => (s.x3 x y).trans h, fun x y => (s.x4 x y).trans h,
      fun x y => (s.y4 x y).trans h, fun x y => s.m4 x y⟩
  · simp only [w]
    rw [hperi]
  · have d := ((((hasDerivAt_id t).const_mul (-meshRate dx)).exp).mul_const (Real.cos (c.1 * dx))).const_add (20 : ℝ)
    refine d.congr_deriv ?_
    rw [heat_split2, diff_simple]
    have a1 : Real.cos (((c.1 + 1 : ℤ) : ℝ) * dx) + Real.cos (((c.1 + -1 : ℤ) : ℝ) * dx) = 2 * Real.cos dx * Real.cos (c.1 * dx) := by
      have e1 : ((c.1 + 1 : ℤ) : ℝ) * dx = c.1 * dx + dx := by push_cast; ring
      have e2 : ((c.1 + -1 : ℤ) : ℝ) * dx = c.1 * dx - dx := by push_cast; ring
      rw [e1, e2, Real.cos_add, Real.cos_sub]; ring
    simp only [w, frameTerm, released, id, mul_one, Bool.false_eq_true, if_false]
    have : ∀ A C1 C2 C0 m : ℝ, C1 + C2 = m → 1 * (1 * (1 / (dx * dx) * ((20 + A * C1 - (20 + A * C0)) + (20 + A * C2 - (20 + A * C0)))
        + 1 / 1 * ((20 + A * C0 - (20 + A * C0)) + (20 + A * C0 - (20 + A * C0))))) + 0 + 0 = 1 / (dx * dx) * (A * (m - 2 * C0)) := by
      intro A C1 C2 C0 m h
      rw [← h]; ring
    rw [this _ _ _ _ _ a1, meshRate]
    ring
  · have e2 := (iter_cos 20 (Real.exp (-t))).2.1
    have e0 := iter_const 1 (20 + Real.exp (-t) * Real.cos x)
    have d := (((hasDerivAt_id t).neg.exp).mul_const (Real.cos x)).const_add (20 : ℝ)
    refine d.congr_deriv ?_
    simp only [lap2, u, speed]
    rw [e2, e0]
    simp

end AMPE.Convergence.Props
