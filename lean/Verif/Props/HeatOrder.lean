import Verif.Model.HeatOrder
import Verif.Proofs.Invariance
import Mathlib.LinearAlgebra.FiniteDimensional.Basic
import Mathlib.LinearAlgebra.FiniteDimensional.Lemmas
import Mathlib.Algebra.BigOperators.Intervals
import Mathlib.Tactic.FieldSimp
import Mathlib.Tactic.Linarith
import Mathlib.Tactic.Positivity
import Mathlib.Tactic.Ring

/-!
# C136: more heat never makes a place colder
-/

namespace AMPE.HeatOrder.Props

open AMPE.Flux AMPE.PhaseRHS AMPE.PhaseBounds AMPE.Invariance AMPE.HeatOrder Set
open AMPE.Thermal (laplacian2 laplacian3 rhsTemp2 rhsTemp3)

/-! ## Specification -/

/-- Ghost values of two runs on the same mesh: what a stencil reads next to a cell is in both runs the value of the same cell (interior,
periodic, zero flux), or comes from temperatures prescribed on the face, not lower in the second run (`2 v - T`). -/
def Ordered2 (cells : Finset (ℤ × ℤ)) (u w : Field2) : Prop :=
  ∀ p ∈ cells, ∀ q ∈ [(p.1 + 1, p.2), (p.1 - 1, p.2), (p.1, p.2 + 1), (p.1, p.2 - 1)],
    (∃ r ∈ cells, u q.1 q.2 = u r.1 r.2 ∧ w q.1 q.2 = w r.1 r.2) ∨ u q.1 q.2 + u p.1 p.2 ≤ w q.1 q.2 + w p.1 p.2

/-- 3D. -/
def Ordered3 (cells : Finset (ℤ × ℤ × ℤ)) (u w : Field3) : Prop :=
  ∀ p ∈ cells, ∀ q ∈ [(p.1 + 1, p.2.1, p.2.2), (p.1 - 1, p.2.1, p.2.2), (p.1, p.2.1 + 1, p.2.2), (p.1, p.2.1 - 1, p.2.2),
      (p.1, p.2.1, p.2.2 + 1), (p.1, p.2.1, p.2.2 - 1)],
    (∃ r ∈ cells, u q.1 q.2.1 q.2.2 = u r.1 r.2.1 r.2.2 ∧ w q.1 q.2.1 q.2.2 = w r.1 r.2.1 r.2.2) ∨
      u q.1 q.2.1 q.2.2 + u p.1 p.2.1 p.2.2 ≤ w q.1 q.2.1 q.2.2 + w p.1 p.2.1 p.2.2

/-- The frame moves no faster than heat spreads over a cell. -/
def Slow (fr : Frame) (dx diff : ℝ) : Prop :=
  match fr with
  | .fixed => True
  | .centred vel => |vel| * dx ≤ 2 * diff
  | .upwind _ _ _ => False

/-- The heat released in a cell per unit of time, in temperature. -/
noncomputable def released (L : ℝ) (withPhase : Bool) (cp phiRhs : ℝ) : ℝ := if withPhase then L / cp * phiRhs else 0

/-! ## In time -/

theorem rate2_eq (fr : Frame) (dx dy diff L : ℝ) (b : Bool) (T cp ph : Field2) (i j : ℤ) :
    heatRate2 fr dx dy diff L b T cp ph i j
      = laplacian2 dx dy diff T i j + released L b (cp i j) (ph i j) + frameTerm fr dx (fun a => T a j) i := by
  unfold heatRate2 rhsTemp2 released
  split_ifs <;> ring

theorem rate3_eq (fr : Frame) (dx dy dz diff L : ℝ) (b : Bool) (T cp ph : Field3) (i j k : ℤ) :
    heatRate3 fr dx dy dz diff L b T cp ph i j k
      = laplacian3 dx dy dz diff T i j k + released L b (cp i j k) (ph i j k) + frameTerm fr dx (fun a => T a j k) i := by
  unfold heatRate3 rhsTemp3 released
  split_ifs <;> ring

/-- Diffusion along x and the frame push a lowest value up. -/
theorem row_pull (fr : Frame) {dx diff : ℝ} (hdx : 0 < dx) (hdiff : 0 ≤ diff) (hfr : Slow fr dx diff) (d0 dE dW : ℝ) (h1 : d0 ≤ dE) (h2 : d0 ≤ dW)
    (row row' : ℤ → ℝ) (i : ℤ) (hE : row' (i + 1) - row (i + 1) = dE) (hW : row' (i - 1) - row (i - 1) = dW) :
    0 ≤ diff * ((dW - 2 * d0 + dE) * (1 / (dx * dx))) + (frameTerm fr dx row' i - frameTerm fr dx row i) := by
  cases fr with
  | fixed =>
    simp only [frameTerm, sub_self, add_zero]
    exact mul_nonneg hdiff (mul_nonneg (by linarith) (by positivity))
  | upwind _ _ _ => exact hfr.elim
  | centred vel =>
    simp only [frameTerm, convect]
    have hv : |vel| * dx ≤ 2 * diff := hfr
    have a1 := mul_le_mul_of_nonneg_right (le_abs_self vel) hdx.le
    have a2 := mul_le_mul_of_nonneg_right (neg_abs_le vel) hdx.le
    have e : diff * ((dW - 2 * d0 + dE) * (1 / (dx * dx)))
        + (0.5 * vel / dx * (row' (i + 1) - row' (i - 1)) - 0.5 * vel / dx * (row (i + 1) - row (i - 1)))
        = ((2 * diff + vel * dx) * (dE - d0) + (2 * diff - vel * dx) * (dW - d0)) * (1 / (2 * (dx * dx))) := by
      have : 0.5 * vel / dx * (row' (i + 1) - row' (i - 1)) - 0.5 * vel / dx * (row (i + 1) - row (i - 1)) = vel / (2 * dx) * (dE - dW) := by
        rw [← hE, ← hW]; ring
      rw [this]; field_simp; ring
    rw [e]
    exact mul_nonneg (add_nonneg (mul_nonneg (by linarith) (by linarith)) (mul_nonneg (by linarith) (by linarith))) (by positivity)

/-- **C136**, 2D: two histories on the same mesh, the second starting nowhere colder, with at least as much heat released and temperatures
prescribed on the boundary not lower; `u` may lose and `w` may gain more than the equation says.  Then nowhere and at no time is the second
colder than the first. -/
theorem c136_order_2d_partial (fr : ℝ → Frame) (dx dy diff L : ℝ) (hdx : 0 < dx) (hdiff : 0 ≤ diff) (b : Bool) (cp cp' ph ph' : ℝ → Field2)
    (cells : Finset (ℤ × ℤ)) (T : ℝ) (u w : ℝ → Field2) (ru rw' : ℝ → ℤ × ℤ → ℝ) (hfr : ∀ t ∈ Icc 0 T, Slow (fr t) dx diff)
    (hu : ∀ t ∈ Icc 0 T, ∀ c ∈ cells, HasDerivAt (fun s => u s c.1 c.2) (ru t c) t)
    (hw : ∀ t ∈ Icc 0 T, ∀ c ∈ cells, HasDerivAt (fun s => w s c.1 c.2) (rw' t c) t)
    (hru : ∀ t ∈ Icc 0 T, ∀ c ∈ cells, ru t c ≤ heatRate2 (fr t) dx dy diff L b (u t) (cp t) (ph t) c.1 c.2)
    (hrw : ∀ t ∈ Icc 0 T, ∀ c ∈ cells, heatRate2 (fr t) dx dy diff L b (w t) (cp' t) (ph' t) c.1 c.2 ≤ rw' t c)
    (hs : ∀ t ∈ Icc 0 T, ∀ c ∈ cells, released L b (cp t c.1 c.2) (ph t c.1 c.2) ≤ released L b (cp' t c.1 c.2) (ph' t c.1 c.2))
    (hcl : ∀ t ∈ Icc 0 T, Ordered2 cells (u t) (w t)) (h0 : ∀ c ∈ cells, u 0 c.1 c.2 ≤ w 0 c.1 c.2) :
    ∀ t ∈ Icc 0 T, ∀ c ∈ cells, u t c.1 c.2 ≤ w t c.1 c.2 := by
  have Y : 0 ≤ 1 / (dy * dy) := div_nonneg zero_le_one (mul_self_nonneg _)
  have key := stays_nonneg cells (fun t c => w t c.1 c.2 - u t c.1 c.2) (fun t c => rw' t c - ru t c) T 0 1 one_pos
    (fun t ht c hc => (hw t ht c hc).sub (hu t ht c hc)) (fun c hc => sub_nonneg.2 (h0 c hc)) fun t ht c hc hmin _ hneg => by
      have nb : ∀ q ∈ [(c.1 + 1, c.2), (c.1 - 1, c.2), (c.1, c.2 + 1), (c.1, c.2 - 1)],
          w t c.1 c.2 - u t c.1 c.2 ≤ w t q.1 q.2 - u t q.1 q.2 := fun q hq => by
        rcases hcl t ht c hc q hq with ⟨r, hr, e1, e2⟩ | h
        · rw [e1, e2]; exact hmin r hr
        · linarith
      have n1 := nb (c.1 + 1, c.2) (by simp)
      have n2 := nb (c.1 - 1, c.2) (by simp)
      have n3 := nb (c.1, c.2 + 1) (by simp)
      have n4 := nb (c.1, c.2 - 1) (by simp)
      have a := hru t ht c hc
      have b' := hrw t ht c hc
      rw [rate2_eq] at a b'
      have s := hs t ht c hc
      have p := row_pull (fr t) hdx hdiff (hfr t ht) _ _ _ n1 n2 (fun a => u t a c.2) (fun a => w t a c.2) c.1 rfl rfl
      have py := mul_nonneg hdiff (mul_nonneg (show (0:ℝ) ≤ (w t c.1 (c.2 - 1) - u t c.1 (c.2 - 1)) - 2 * (w t c.1 c.2 - u t c.1 c.2)
        + (w t c.1 (c.2 + 1) - u t c.1 (c.2 + 1)) by linarith) Y)
      have e : laplacian2 dx dy diff (w t) c.1 c.2 - laplacian2 dx dy diff (u t) c.1 c.2
          = diff * (((w t (c.1 - 1) c.2 - u t (c.1 - 1) c.2) - 2 * (w t c.1 c.2 - u t c.1 c.2) + (w t (c.1 + 1) c.2 - u t (c.1 + 1) c.2))
              * (1 / (dx * dx)))
            + diff * (((w t c.1 (c.2 - 1) - u t c.1 (c.2 - 1)) - 2 * (w t c.1 c.2 - u t c.1 c.2) + (w t c.1 (c.2 + 1) - u t c.1 (c.2 + 1)))
              * (1 / (dy * dy))) := by
        unfold laplacian2; ring
      show 0 * _ ≤ rw' t c - ru t c
      rw [zero_mul]
      linarith
  exact fun t ht c hc => sub_nonneg.1 (key t ht c hc)

/-- **C136**, 3D. -/
theorem c136_order_3d_partial (fr : ℝ → Frame) (dx dy dz diff L : ℝ) (hdx : 0 < dx) (hdiff : 0 ≤ diff) (b : Bool)
    (cp cp' ph ph' : ℝ → Field3) (cells : Finset (ℤ × ℤ × ℤ)) (T : ℝ) (u w : ℝ → Field3) (ru rw' : ℝ → ℤ × ℤ × ℤ → ℝ)
    (hfr : ∀ t ∈ Icc 0 T, Slow (fr t) dx diff)
    (hu : ∀ t ∈ Icc 0 T, ∀ c ∈ cells, HasDerivAt (fun s => u s c.1 c.2.1 c.2.2) (ru t c) t)
    (hw : ∀ t ∈ Icc 0 T, ∀ c ∈ cells, HasDerivAt (fun s => w s c.1 c.2.1 c.2.2) (rw' t c) t)
    (hru : ∀ t ∈ Icc 0 T, ∀ c ∈ cells, ru t c ≤ heatRate3 (fr t) dx dy dz diff L b (u t) (cp t) (ph t) c.1 c.2.1 c.2.2)
    (hrw : ∀ t ∈ Icc 0 T, ∀ c ∈ cells, heatRate3 (fr t) dx dy dz diff L b (w t) (cp' t) (ph' t) c.1 c.2.1 c.2.2 ≤ rw' t c)
    (hs : ∀ t ∈ Icc 0 T, ∀ c ∈ cells,
      released L b (cp t c.1 c.2.1 c.2.2) (ph t c.1 c.2.1 c.2.2) ≤ released L b (cp' t c.1 c.2.1 c.2.2) (ph' t c.1 c.2.1 c.2.2))
    (hcl : ∀ t ∈ Icc 0 T, Ordered3 cells (u t) (w t)) (h0 : ∀ c ∈ cells, u 0 c.1 c.2.1 c.2.2 ≤ w 0 c.1 c.2.1 c.2.2) :
    ∀ t ∈ Icc 0 T, ∀ c ∈ cells, u t c.1 c.2.1 c.2.2 ≤ w t c.1 c.2.1 c.2.2 := by
  have Y : 0 ≤ 1 / (dy * dy) := div_nonneg zero_le_one (mul_self_nonneg _)
  have Z : 0 ≤ 1 / (dz * dz) := div_nonneg zero_le_one (mul_self_nonneg _)
  have key := stays_nonneg cells (fun t c => w t c.1 c.2.1 c.2.2 - u t c.1 c.2.1 c.2.2) (fun t c => rw' t c - ru t c) T 0 1 one_pos
    (fun t ht c hc => (hw t ht c hc).sub (hu t ht c hc)) (fun c hc => sub_nonneg.2 (h0 c hc)) fun t ht c hc hmin _ hneg => by
      obtain ⟨i, j, k⟩ := c
      have nb : ∀ q ∈ [(i + 1, j, k), (i - 1, j, k), (i, j + 1, k), (i, j - 1, k), (i, j, k + 1), (i, j, k - 1)],
          w t i j k - u t i j k ≤ w t q.1 q.2.1 q.2.2 - u t q.1 q.2.1 q.2.2 := fun q hq => by
        rcases hcl t ht _ hc q hq with ⟨r, hr, e1, e2⟩ | h
        · rw [e1, e2]; exact hmin r hr
        · simp only at h hneg; linarith
      have n1 := nb (i + 1, j, k) (by simp)
      have n2 := nb (i - 1, j, k) (by simp)
      have n3 := nb (i, j + 1, k) (by simp)
      have n4 := nb (i, j - 1, k) (by simp)
      have n5 := nb (i, j, k + 1) (by simp)
      have n6 := nb (i, j, k - 1) (by simp)
      have a := hru t ht _ hc
      have b' := hrw t ht _ hc
      rw [rate3_eq] at a b'
      have s := hs t ht _ hc
      have p := row_pull (fr t) hdx hdiff (hfr t ht) _ _ _ n1 n2 (fun a => u t a j k) (fun a => w t a j k) i rfl rfl
      simp only at n1 n2 n3 n4 n5 n6 a b' s
      have py := mul_nonneg hdiff (mul_nonneg (show (0:ℝ) ≤ (w t i (j - 1) k - u t i (j - 1) k) - 2 * (w t i j k - u t i j k)
        + (w t i (j + 1) k - u t i (j + 1) k) by linarith) Y)
      have pz := mul_nonneg hdiff (mul_nonneg (show (0:ℝ) ≤ (w t i j (k - 1) - u t i j (k - 1)) - 2 * (w t i j k - u t i j k)
        + (w t i j (k + 1) - u t i j (k + 1)) by linarith) Z)
      have e : laplacian3 dx dy dz diff (w t) i j k - laplacian3 dx dy dz diff (u t) i j k
          = diff * (((w t (i - 1) j k - u t (i - 1) j k) - 2 * (w t i j k - u t i j k) + (w t (i + 1) j k - u t (i + 1) j k)) * (1 / (dx * dx)))
            + diff * (((w t i (j - 1) k - u t i (j - 1) k) - 2 * (w t i j k - u t i j k) + (w t i (j + 1) k - u t i (j + 1) k)) * (1 / (dy * dy)))
            + diff * (((w t i j (k - 1) - u t i j (k - 1)) - 2 * (w t i j k - u t i j k) + (w t i j (k + 1) - u t i j (k + 1)))
              * (1 / (dz * dz))) := by
        unfold laplacian3; ring
      show 0 * _ ≤ rw' t (i, j, k) - ru t (i, j, k)
      rw [zero_mul]
      linarith
  exact fun t ht c hc => sub_nonneg.1 (key t ht c hc)

/-- Same kind of ghost values in both directions. -/
theorem ordered_refl_of {cells : Finset (ℤ × ℤ)} {u w : Field2} (h : ∀ p ∈ cells,
    ∀ q ∈ [(p.1 + 1, p.2), (p.1 - 1, p.2), (p.1, p.2 + 1), (p.1, p.2 - 1)],
    (∃ r ∈ cells, u q.1 q.2 = u r.1 r.2 ∧ w q.1 q.2 = w r.1 r.2) ∨ u q.1 q.2 + u p.1 p.2 = w q.1 q.2 + w p.1 p.2) :
    Ordered2 cells u w ∧ Ordered2 cells w u :=
  ⟨fun p hp q hq => (h p hp q hq).imp id le_of_eq,
    fun p hp q hq => (h p hp q hq).imp (fun ⟨r, hr, a, b⟩ => ⟨r, hr, b, a⟩) fun e => e.ge⟩

/-- The equation has one history only: two histories with the same start, the same heat and the same boundary temperatures agree. -/
theorem c136_unique_2d_partial (fr : ℝ → Frame) (dx dy diff L : ℝ) (hdx : 0 < dx) (hdiff : 0 ≤ diff) (b : Bool) (cp ph : ℝ → Field2)
    (cells : Finset (ℤ × ℤ)) (T : ℝ) (u w : ℝ → Field2) (hfr : ∀ t ∈ Icc 0 T, Slow (fr t) dx diff)
    (hu : ∀ t ∈ Icc 0 T, ∀ c ∈ cells, HasDerivAt (fun s => u s c.1 c.2) (heatRate2 (fr t) dx dy diff L b (u t) (cp t) (ph t) c.1 c.2) t)
    (hw : ∀ t ∈ Icc 0 T, ∀ c ∈ cells, HasDerivAt (fun s => w s c.1 c.2) (heatRate2 (fr t) dx dy diff L b (w t) (cp t) (ph t) c.1 c.2) t)
    (hcl : ∀ t ∈ Icc 0 T, ∀ p ∈ cells, ∀ q ∈ [(p.1 + 1, p.2), (p.1 - 1, p.2), (p.1, p.2 + 1), (p.1, p.2 - 1)],
      (∃ r ∈ cells, u t q.1 q.2 = u t r.1 r.2 ∧ w t q.1 q.2 = w t r.1 r.2) ∨ u t q.1 q.2 + u t p.1 p.2 = w t q.1 q.2 + w t p.1 p.2)
    (h0 : ∀ c ∈ cells, u 0 c.1 c.2 = w 0 c.1 c.2) : ∀ t ∈ Icc 0 T, ∀ c ∈ cells, u t c.1 c.2 = w t c.1 c.2 := fun t ht c hc =>
  le_antisymm
    (c136_order_2d_partial fr dx dy diff L hdx hdiff b cp cp ph ph cells T u w _ _ hfr hu hw (fun _ _ _ _ => le_rfl) (fun _ _ _ _ => le_rfl)
      (fun _ _ _ _ => le_rfl) (fun t ht => (ordered_refl_of (hcl t ht)).1) (fun c hc => (h0 c hc).le) t ht c hc)
    (c136_order_2d_partial fr dx dy diff L hdx hdiff b cp cp ph ph cells T w u _ _ hfr hw hu (fun _ _ _ _ => le_rfl) (fun _ _ _ _ => le_rfl)
      (fun _ _ _ _ => le_rfl) (fun t ht => (ordered_refl_of (hcl t ht)).2) (fun c hc => (h0 c hc).ge) t ht c hc)

theorem frame_const (fr : Frame) {dx diff : ℝ} (h : Slow fr dx diff) (m : ℝ) (i : ℤ) : frameTerm fr dx (fun _ => m) i = 0 := by
  cases fr with
  | fixed => rfl
  | centred v => simp [frameTerm, convect]
  | upwind _ _ _ => exact h.elim

/-- While nothing melts (heat released is nowhere negative) the temperature stays above the lowest temperature of the start and of the
boundary. -/
theorem c136_floor_2d_partial (fr : ℝ → Frame) (dx dy diff L lo : ℝ) (hdx : 0 < dx) (hdiff : 0 ≤ diff) (b : Bool) (cp ph : ℝ → Field2)
    (cells : Finset (ℤ × ℤ)) (T : ℝ) (w : ℝ → Field2) (hfr : ∀ t ∈ Icc 0 T, Slow (fr t) dx diff)
    (hw : ∀ t ∈ Icc 0 T, ∀ c ∈ cells, HasDerivAt (fun s => w s c.1 c.2) (heatRate2 (fr t) dx dy diff L b (w t) (cp t) (ph t) c.1 c.2) t)
    (hs : ∀ t ∈ Icc 0 T, ∀ c ∈ cells, 0 ≤ released L b (cp t c.1 c.2) (ph t c.1 c.2))
    (hcl : ∀ t ∈ Icc 0 T, ∀ p ∈ cells, ∀ q ∈ [(p.1 + 1, p.2), (p.1 - 1, p.2), (p.1, p.2 + 1), (p.1, p.2 - 1)],
      (∃ r ∈ cells, w t q.1 q.2 = w t r.1 r.2) ∨ 2 * lo ≤ w t q.1 q.2 + w t p.1 p.2)
    (h0 : ∀ c ∈ cells, lo ≤ w 0 c.1 c.2) : ∀ t ∈ Icc 0 T, ∀ c ∈ cells, lo ≤ w t c.1 c.2 := by
  refine c136_order_2d_partial fr dx dy diff L hdx hdiff b (fun _ _ _ => 1) cp (fun _ _ _ => 0) ph cells T (fun _ _ _ => lo) w
    (fun _ _ => 0) _ hfr (fun t _ c _ => hasDerivAt_const t lo) hw (fun t ht c hc => ?_) (fun _ _ _ _ => le_rfl) (fun t ht c hc => ?_)
    (fun t ht p hp q hq => ?_) h0
  · rw [rate2_eq, frame_const (fr t) (hfr t ht)]
    simp only [laplacian2, released]
    split_ifs <;> (apply le_of_eq; ring)
  · refine le_trans (le_of_eq ?_) (hs t ht c hc)
    simp [released]
  · rcases hcl t ht p hp q hq with ⟨r, hr, e⟩ | h
    · exact Or.inl ⟨r, hr, rfl, e⟩
    · exact Or.inr (by linarith)

/-- If the heat released raises the temperature by at most `q` per unit of time, the temperature rises at most that fast above the highest
temperature of the start and of the boundary. -/
theorem c136_ceiling_2d_partial (fr : ℝ → Frame) (dx dy diff L hi q : ℝ) (hdx : 0 < dx) (hdiff : 0 ≤ diff) (hq : 0 ≤ q) (cp ph : ℝ → Field2)
    (cells : Finset (ℤ × ℤ)) (T : ℝ) (u : ℝ → Field2) (hL : L ≠ 0) (hfr : ∀ t ∈ Icc 0 T, Slow (fr t) dx diff)
    (hu : ∀ t ∈ Icc 0 T, ∀ c ∈ cells, HasDerivAt (fun s => u s c.1 c.2) (heatRate2 (fr t) dx dy diff L true (u t) (cp t) (ph t) c.1 c.2) t)
    (hs : ∀ t ∈ Icc 0 T, ∀ c ∈ cells, L / cp t c.1 c.2 * ph t c.1 c.2 ≤ q)
    (hcl : ∀ t ∈ Icc 0 T, ∀ p ∈ cells, ∀ q ∈ [(p.1 + 1, p.2), (p.1 - 1, p.2), (p.1, p.2 + 1), (p.1, p.2 - 1)],
      (∃ r ∈ cells, u t q.1 q.2 = u t r.1 r.2) ∨ u t q.1 q.2 + u t p.1 p.2 ≤ 2 * hi)
    (h0 : ∀ c ∈ cells, u 0 c.1 c.2 ≤ hi) : ∀ t ∈ Icc 0 T, ∀ c ∈ cells, u t c.1 c.2 ≤ hi + q * t := by
  refine c136_order_2d_partial fr dx dy diff L hdx hdiff true cp (fun _ _ _ => L) ph (fun _ _ _ => q) cells T u (fun t _ _ => hi + q * t)
    _ (fun _ _ => q) hfr hu (fun t _ c _ => ?_) (fun _ _ _ _ => le_rfl) (fun t ht c hc => ?_) (fun t ht c hc => ?_)
    (fun t ht p hp q' hq' => ?_) (fun c hc => by simpa using h0 c hc)
  · exact (((hasDerivAt_id t).const_mul q).const_add hi).congr_deriv (by ring)
  · rw [rate2_eq, frame_const (fr t) (hfr t ht)]
    simp only [laplacian2, released, if_true, div_self hL]
    apply le_of_eq; ring
  · simp only [released, if_true, div_self hL, one_mul]
    exact hs t ht c hc
  · rcases hcl t ht p hp q' hq' with ⟨r, hr, e⟩ | h
    · exact Or.inl ⟨r, hr, e, rfl⟩
    · exact Or.inr (by nlinarith [mul_nonneg hq ht.1])

/-- Violation: a frame faster than heat spreads over a cell (`v dx > 2 D`) cools a place below every temperature there is. -/
theorem c136_violation_frame (fr : ℝ → Frame) (vel dx dy diff L lo : ℝ) (hdx : 0 < dx) (hfr : fr 0 = .centred vel) (hvel : 2 * diff < vel * dx)
    (b : Bool) (cp ph u : ℝ → Field2) (i j : ℤ) (hs : released L b (cp 0 i j) (ph 0 i j) = 0)
    (hu : HasDerivAt (fun s => u s i j) (heatRate2 (fr 0) dx dy diff L b (u 0) (cp 0) (ph 0) i j) 0) (hw : lo < u 0 (i - 1) j)
    (h0 : u 0 i j = lo) (hE : u 0 (i + 1) j = lo) (hN : u 0 i (j + 1) = lo) (hS : u 0 i (j - 1) = lo) :
    ∃ τ > 0, ∀ t ∈ Ioo 0 τ, u t i j < lo := by
  obtain ⟨τ, hτ, h⟩ := eventually_neg (hu.sub_const lo) (by simp [h0]) (by
    rw [rate2_eq, hs, hfr]
    simp only [frameTerm, convect, laplacian2, h0, hE, hN, hS]
    have e : diff * ((u 0 (i - 1) j - 2 * lo + lo) * (1 / (dx * dx)) + (lo - 2 * lo + lo) * (1 / (dy * dy))) + 0
        + 0.5 * vel / dx * (lo - u 0 (i - 1) j) = (2 * diff - vel * dx) * ((u 0 (i - 1) j - lo) / (2 * (dx * dx))) := by
      have : (lo - 2 * lo + lo) = 0 := by ring
      rw [this]; field_simp; ring
    rw [e]
    exact mul_neg_of_neg_of_pos (by linarith) (div_pos (by linarith) (by positivity)))
  exact ⟨τ, hτ, fun t ht => sub_neg.1 (h t ht)⟩

/-- Violation: with the third order upwind formula a hot place cools the second cell behind it below every temperature there is, at any
speed. -/
theorem c136_violation_upwind (fr : ℝ → Frame) (vel dx dy diff L lo : ℝ) (hdx : 0 < dx) (physb : Bool) (ilast : ℤ)
    (hfr : fr 0 = .upwind vel physb ilast) (hvel : 0 < vel) (b : Bool) (cp ph u : ℝ → Field2) (i j : ℤ) (hi : i ≠ ilast)
    (hs : released L b (cp 0 i j) (ph 0 i j) = 0)
    (hu : HasDerivAt (fun s => u s i j) (heatRate2 (fr 0) dx dy diff L b (u 0) (cp 0) (ph 0) i j) 0) (hw : lo < u 0 (i + 2) j)
    (h0 : u 0 i j = lo) (hE : u 0 (i + 1) j = lo) (hW : u 0 (i - 1) j = lo) (hN : u 0 i (j + 1) = lo) (hS : u 0 i (j - 1) = lo) :
    ∃ τ > 0, ∀ t ∈ Ioo 0 τ, u t i j < lo := by
  obtain ⟨τ, hτ, h⟩ := eventually_neg (hu.sub_const lo) (by simp [h0]) (by
    rw [rate2_eq, hs, hfr]
    simp only [frameTerm, convectUpwind3, laplacian2, h0, hE, hN, hS, hW, if_neg (fun h : physb = true ∧ i = ilast => hi h.2)]
    have : 0 < vel / (6 * dx) * (u 0 (i + 2) j - lo) := mul_pos (by positivity) (by linarith)
    have e : diff * ((lo - 2 * lo + lo) * (1 / (dx * dx)) + (lo - 2 * lo + lo) * (1 / (dy * dy))) + 0
        + vel / (6 * dx) * (-2 * lo - 3 * lo + 6 * lo - u 0 (i + 2) j) = -(vel / (6 * dx) * (u 0 (i + 2) j - lo)) := by ring
    rw [e]; linarith)
  exact ⟨τ, hτ, fun t ht => sub_neg.1 (h t ht)⟩

/-! ## Steady -/

/-- `T` on the cells is a steady temperature for the source `src` on the domain of `nx × ny` cells. -/
def Steady (S : Sides) (dx dy D : ℝ) (nx ny : ℤ) (src T : Field2) : Prop :=
  ∀ i j, 0 ≤ i → i < nx → 0 ≤ j → j < ny → steadyLhs2 dx dy D (fill S dx dy nx ny T) i j = src i j

/-- A usable condition `a T + b dT/dn = g`. -/
def Side.Ok (s : Side) : Prop := 0 ≤ s.a ∧ 0 ≤ s.b ∧ 0 < s.a + s.b

def Sides.Ok (S : Sides) : Prop := Side.Ok S.west ∧ Side.Ok S.east ∧ Side.Ok S.south ∧ Side.Ok S.north

/-- Same kind of condition, data not lower. -/
def Side.Le (s s' : Side) : Prop := s.a = s'.a ∧ s.b = s'.b ∧ ∀ n, s.g n ≤ s'.g n

def Sides.Le (S S' : Sides) : Prop :=
  Side.Le S.west S'.west ∧ Side.Le S.east S'.east ∧ Side.Le S.south S'.south ∧ Side.Le S.north S'.north

/-- On some side the temperature itself enters the condition. -/
def Anchored (S : Sides) : Prop := S.west.a ≠ 0 ∨ S.east.a ≠ 0 ∨ S.south.a ≠ 0 ∨ S.north.a ≠ 0

/-- What crosses a face of a side. -/
theorem ghost_sub (s : Side) {h : ℝ} (hh : 0 < h) (hs : Side.Ok s) (u : ℝ) (n : ℤ) :
    s.ghost h u n - u = h * (s.g n - s.a * u) / (s.b + h * s.a / 2) := by
  obtain ⟨a0, b0, ab⟩ := hs
  have hden : 0 < s.b + h * s.a / 2 := by
    rcases eq_or_lt_of_le b0 with e | e
    · have : 0 < s.a := by linarith
      rw [← e]; positivity
    · positivity
  unfold Side.ghost
  rw [div_sub' hden.ne', div_left_inj' hden.ne']; ring

theorem ghost_den (s : Side) {h : ℝ} (hh : 0 < h) (hs : Side.Ok s) : 0 < s.b + h * s.a / 2 := by
  obtain ⟨a0, b0, ab⟩ := hs
  rcases eq_or_lt_of_le b0 with e | e
  · have : 0 < s.a := by linarith
    rw [← e]; positivity
  · positivity

/-- Ghost values of ordered conditions where the difference of the two fields is negative: not lower, and higher if the temperature enters. -/
theorem ghost_order {s s' : Side} (hle : Side.Le s s') {h : ℝ} (hh : 0 < h) (hs : Side.Ok s) (u u' : ℝ) (n : ℤ) (hneg : u' - u < 0) :
    u' - u ≤ s'.ghost h u' n - s.ghost h u n ∧ (s.a ≠ 0 → u' - u < s'.ghost h u' n - s.ghost h u n) := by
  obtain ⟨ea, eb, hg⟩ := hle
  have hs' : Side.Ok s' := by unfold Side.Ok; rw [← ea, ← eb]; exact hs
  have e1 := ghost_sub s hh hs u n
  have e2 := ghost_sub s' hh hs' u' n
  rw [← ea, ← eb] at e2
  have hden := ghost_den s hh hs
  have e : s'.ghost h u' n - s.ghost h u n - (u' - u) = h * (s'.g n - s.g n + s.a * -(u' - u)) / (s.b + h * s.a / 2) := by
    have : s'.ghost h u' n - s.ghost h u n - (u' - u) = (s'.ghost h u' n - u') - (s.ghost h u n - u) := by ring
    rw [this, e1, e2, ← sub_div]; congr 1; ring
  have p1 : 0 ≤ s.a * -(u' - u) := mul_nonneg hs.1 (by linarith)
  refine ⟨?_, fun ha => ?_⟩
  · have : 0 ≤ h * (s'.g n - s.g n + s.a * -(u' - u)) / (s.b + h * s.a / 2) :=
      div_nonneg (mul_nonneg hh.le (by linarith [hg n])) hden.le
    linarith
  · have p2 : 0 < s.a * -(u' - u) := mul_pos (lt_of_le_of_ne hs.1 (Ne.symm ha)) (by linarith)
    have : 0 < h * (s'.g n - s.g n + s.a * -(u' - u)) / (s.b + h * s.a / 2) := div_pos (mul_pos hh (by linarith [hg n])) hden
    linarith

theorem fill_in (S : Sides) (dx dy : ℝ) {nx ny : ℤ} (x : Field2) {i j : ℤ} (h : 0 ≤ i ∧ i < nx ∧ 0 ≤ j ∧ j < ny) :
    fill S dx dy nx ny x i j = x i j := by
  unfold fill; rw [if_pos h]

theorem fill_west (S : Sides) (dx dy : ℝ) {nx ny : ℤ} (x : Field2) (j : ℤ) :
    fill S dx dy nx ny x (-1) j = S.west.ghost dx (x 0 j) j := by
  unfold fill; rw [if_neg (by omega), if_pos (by norm_num)]

theorem fill_east (S : Sides) (dx dy : ℝ) {nx ny : ℤ} (hx : 0 < nx) (x : Field2) (j : ℤ) :
    fill S dx dy nx ny x nx j = S.east.ghost dx (x (nx - 1) j) j := by
  unfold fill; rw [if_neg (by omega), if_neg (by omega), if_pos le_rfl]

theorem fill_south (S : Sides) (dx dy : ℝ) {nx ny : ℤ} (x : Field2) {i : ℤ} (h0 : 0 ≤ i) (h1 : i < nx) :
    fill S dx dy nx ny x i (-1) = S.south.ghost dy (x i 0) i := by
  unfold fill; rw [if_neg (by omega), if_neg (by omega), if_neg (by omega), if_pos (by norm_num)]

theorem fill_north (S : Sides) (dx dy : ℝ) {nx ny : ℤ} (hy : 0 < ny) (x : Field2) {i : ℤ} (h0 : 0 ≤ i) (h1 : i < nx) :
    fill S dx dy nx ny x i ny = S.north.ghost dy (x i (ny - 1)) i := by
  unfold fill; rw [if_neg (by omega), if_neg (by omega), if_neg (by omega), if_neg (by omega)]

/-- Along a segment of integers. -/
theorem spread {P : ℤ → Prop} {n : ℤ} (hu : ∀ i, 0 ≤ i → i + 1 < n → P i → P (i + 1)) (hd : ∀ i, 0 < i → i < n → P i → P (i - 1))
    {i : ℤ} (h0 : 0 ≤ i) (h1 : i < n) (h : P i) : ∀ k, 0 ≤ k → k < n → P k := by
  intro k k0 k1
  rcases le_total i k with hik | hki
  · have : ∀ m : ℕ, i + m < n → P (i + m) := by
      intro m
      induction m with
      | zero => intro _; simpa using h
      | succ m ih =>
        intro hm
        have := hu (i + m) (by omega) (by push_cast at hm; omega) (ih (by push_cast at hm; omega))
        push_cast; rwa [← add_assoc]
    have h2 := this (k - i).toNat (by omega)
    rwa [show i + ((k - i).toNat : ℤ) = k by omega] at h2
  · have : ∀ m : ℕ, 0 ≤ i - m → P (i - m) := by
      intro m
      induction m with
      | zero => intro _; simpa using h
      | succ m ih =>
        intro hm
        have := hd (i - m) (by push_cast at hm; omega) (by omega) (ih (by push_cast at hm; omega))
        push_cast; rwa [← sub_sub]
    have h2 := this (i - k).toNat (by omega)
    rwa [show i - ((i - k).toNat : ℤ) = k by omega] at h2

/-- **C136**, steady: on a domain where the temperature enters the condition on some side, a source nowhere smaller and boundary data
nowhere smaller give a steady temperature nowhere lower. -/
theorem c136_steady_order (S S' : Sides) (hS : Sides.Ok S) (hle : Sides.Le S S') (han : Anchored S) (dx dy D : ℝ) (hdx : 0 < dx) (hdy : 0 < dy)
    (hD : 0 < D) (nx ny : ℤ) (src src' T T' : Field2) (h : Steady S dx dy D nx ny src T) (h' : Steady S' dx dy D nx ny src' T')
    (hsrc : ∀ i j, 0 ≤ i → i < nx → 0 ≤ j → j < ny → src i j ≤ src' i j) :
    ∀ i j, 0 ≤ i → i < nx → 0 ≤ j → j < ny → T i j ≤ T' i j := by
  by_contra hcon
  push Not at hcon
  obtain ⟨a, b, a0, a1, b0, b1, hab⟩ := hcon
  set cells : Finset (ℤ × ℤ) := Finset.Icc 0 (nx - 1) ×ˢ Finset.Icc 0 (ny - 1) with hcells
  have mem : ∀ i j : ℤ, (i, j) ∈ cells ↔ 0 ≤ i ∧ i < nx ∧ 0 ≤ j ∧ j < ny := by
    intro i j
    rw [hcells, Finset.mem_product, Finset.mem_Icc, Finset.mem_Icc]
    constructor
    · rintro ⟨⟨_, _⟩, _, _⟩; exact ⟨by assumption, by simp only at *; omega, by assumption, by simp only at *; omega⟩
    · rintro ⟨_, _, _, _⟩; refine ⟨⟨by assumption, ?_⟩, by assumption, ?_⟩ <;> (show _ ≤ _; simp only; omega)
  obtain ⟨c, hc, hmin⟩ := Finset.exists_min_image cells (fun p => T' p.1 p.2 - T p.1 p.2) ⟨(a, b), (mem a b).2 ⟨a0, a1, b0, b1⟩⟩
  set μ := T' c.1 c.2 - T c.1 c.2 with hμ
  have hneg : μ < 0 := lt_of_le_of_lt (hmin (a, b) ((mem a b).2 ⟨a0, a1, b0, b1⟩)) (by simp only; linarith)
  set d : Field2 := fun i j => fill S' dx dy nx ny T' i j - fill S dx dy nx ny T i j with hd
  have din : ∀ i j, 0 ≤ i ∧ i < nx ∧ 0 ≤ j ∧ j < ny → d i j = T' i j - T i j := fun i j hij => by
    rw [hd]; simp only; rw [fill_in _ _ _ _ hij, fill_in _ _ _ _ hij]
  have dmin : ∀ i j, 0 ≤ i ∧ i < nx ∧ 0 ≤ j ∧ j < ny → μ ≤ d i j := fun i j hij => by
    rw [din i j hij]; exact hmin (i, j) ((mem i j).2 hij)
  obtain ⟨oW, oE, oS, oN⟩ := hS
  obtain ⟨lW, lE, lS, lN⟩ := hle
  -- neighbours of a lowest cell
  have nW : ∀ i j, 0 ≤ i ∧ i < nx ∧ 0 ≤ j ∧ j < ny → d i j = μ → μ ≤ d (i - 1) j ∧ (i = 0 → S.west.a ≠ 0 → μ < d (i - 1) j) :=
    fun i j hij e => by
      by_cases hi : i = 0
      · have g := ghost_order lW hdx oW (T 0 j) (T' 0 j) j (by rw [din i j hij, hi] at e; linarith)
        have e1 : d (i - 1) j = S'.west.ghost dx (T' 0 j) j - S.west.ghost dx (T 0 j) j := by
          rw [hd, hi]; simp only [zero_sub]; rw [fill_west, fill_west]
        rw [din i j hij, hi] at e
        rw [e1]
        exact ⟨by linarith [g.1], fun _ h => by linarith [g.2 h]⟩
      · exact ⟨dmin _ _ (by omega), fun h => absurd h hi⟩
  have nE : ∀ i j, 0 ≤ i ∧ i < nx ∧ 0 ≤ j ∧ j < ny → d i j = μ → μ ≤ d (i + 1) j ∧ (i = nx - 1 → S.east.a ≠ 0 → μ < d (i + 1) j) :=
    fun i j hij e => by
      by_cases hi : i = nx - 1
      · have g := ghost_order lE hdx oE (T (nx - 1) j) (T' (nx - 1) j) j (by rw [din i j hij, hi] at e; linarith)
        have e1 : d (i + 1) j = S'.east.ghost dx (T' (nx - 1) j) j - S.east.ghost dx (T (nx - 1) j) j := by
          rw [hd, hi]; simp only [sub_add_cancel]; rw [fill_east _ _ _ (by omega), fill_east _ _ _ (by omega)]
        rw [din i j hij, hi] at e
        rw [e1]
        exact ⟨by linarith [g.1], fun _ h => by linarith [g.2 h]⟩
      · exact ⟨dmin _ _ (by omega), fun h => absurd h hi⟩
  have nS : ∀ i j, 0 ≤ i ∧ i < nx ∧ 0 ≤ j ∧ j < ny → d i j = μ → μ ≤ d i (j - 1) ∧ (j = 0 → S.south.a ≠ 0 → μ < d i (j - 1)) :=
    fun i j hij e => by
      by_cases hj : j = 0
      · have g := ghost_order lS hdy oS (T i 0) (T' i 0) i (by rw [din i j hij, hj] at e; linarith)
        have e1 : d i (j - 1) = S'.south.ghost dy (T' i 0) i - S.south.ghost dy (T i 0) i := by
          rw [hd, hj]; simp only [zero_sub]; rw [fill_south _ _ _ _ hij.1 hij.2.1, fill_south _ _ _ _ hij.1 hij.2.1]
        rw [din i j hij, hj] at e
        rw [e1]
        exact ⟨by linarith [g.1], fun _ h => by linarith [g.2 h]⟩
      · exact ⟨dmin _ _ (by omega), fun h => absurd h hj⟩
  have nN : ∀ i j, 0 ≤ i ∧ i < nx ∧ 0 ≤ j ∧ j < ny → d i j = μ → μ ≤ d i (j + 1) ∧ (j = ny - 1 → S.north.a ≠ 0 → μ < d i (j + 1)) :=
    fun i j hij e => by
      by_cases hj : j = ny - 1
      · have g := ghost_order lN hdy oN (T i (ny - 1)) (T' i (ny - 1)) i (by rw [din i j hij, hj] at e; linarith)
        have e1 : d i (j + 1) = S'.north.ghost dy (T' i (ny - 1)) i - S.north.ghost dy (T i (ny - 1)) i := by
          rw [hd, hj]; simp only [sub_add_cancel]
          rw [fill_north _ _ _ (by omega) _ hij.1 hij.2.1, fill_north _ _ _ (by omega) _ hij.1 hij.2.1]
        rw [din i j hij, hj] at e
        rw [e1]
        exact ⟨by linarith [g.1], fun _ h => by linarith [g.2 h]⟩
      · exact ⟨dmin _ _ (by omega), fun h => absurd h hj⟩
  -- and they are all as low
  have all : ∀ i j, 0 ≤ i ∧ i < nx ∧ 0 ≤ j ∧ j < ny → d i j = μ → d (i - 1) j = μ ∧ d (i + 1) j = μ ∧ d i (j - 1) = μ ∧ d i (j + 1) = μ :=
    fun i j hij e => by
      have w := (nW i j hij e).1
      have ee := (nE i j hij e).1
      have s := (nS i j hij e).1
      have n := (nN i j hij e).1
      have q1 := h i j hij.1 hij.2.1 hij.2.2.1 hij.2.2.2
      have q2 := h' i j hij.1 hij.2.1 hij.2.2.1 hij.2.2.2
      have q3 := hsrc i j hij.1 hij.2.1 hij.2.2.1 hij.2.2.2
      have q : D * ((d (i - 1) j - μ + (d (i + 1) j - μ)) * (1 / (dx * dx)) + (d i (j - 1) - μ + (d i (j + 1) - μ)) * (1 / (dy * dy))) ≤ 0 := by
        rw [← q1, ← q2] at q3
        have : D * ((d (i - 1) j - μ + (d (i + 1) j - μ)) * (1 / (dx * dx)) + (d i (j - 1) - μ + (d i (j + 1) - μ)) * (1 / (dy * dy)))
            = steadyLhs2 dx dy D (fill S dx dy nx ny T) i j - steadyLhs2 dx dy D (fill S' dx dy nx ny T') i j := by
          rw [← e, hd]; unfold steadyLhs2 laplacian2; ring
        linarith
      have X : 0 < 1 / (dx * dx) := by positivity
      have Y : 0 < 1 / (dy * dy) := by positivity
      have q' := nonpos_of_mul_nonpos_right q hD
      have x1 : 0 ≤ (d (i - 1) j - μ + (d (i + 1) j - μ)) * (1 / (dx * dx)) := mul_nonneg (by linarith) X.le
      have y1 : 0 ≤ (d i (j - 1) - μ + (d i (j + 1) - μ)) * (1 / (dy * dy)) := mul_nonneg (by linarith) Y.le
      have x2 : d (i - 1) j - μ + (d (i + 1) j - μ) = 0 := by
        rcases mul_eq_zero.1 (le_antisymm (by linarith) x1) with z | z
        · exact z
        · exact absurd z X.ne'
      have y2 : d i (j - 1) - μ + (d i (j + 1) - μ) = 0 := by
        rcases mul_eq_zero.1 (le_antisymm (by linarith) y1) with z | z
        · exact z
        · exact absurd z Y.ne'
      exact ⟨by linarith, by linarith, by linarith, by linarith⟩
  have hc' := (mem c.1 c.2).1 hc
  have every : ∀ i j, 0 ≤ i → i < nx → 0 ≤ j → j < ny → d i j = μ := by
    have r1 : ∀ i, 0 ≤ i → i < nx → d i c.2 = μ :=
      spread (P := fun i => d i c.2 = μ) (fun i i0 i1 e => (all i c.2 ⟨i0, by omega, hc'.2.2.1, hc'.2.2.2⟩ e).2.1)
        (fun i i0 i1 e => (all i c.2 ⟨by omega, i1, hc'.2.2.1, hc'.2.2.2⟩ e).1) hc'.1 hc'.2.1 (by rw [din _ _ hc'])
    intro i j i0 i1
    exact spread (P := fun j => d i j = μ) (fun j j0 j1 e => (all i j ⟨i0, i1, j0, by omega⟩ e).2.2.2)
        (fun j j0 j1 e => (all i j ⟨i0, i1, by omega, j1⟩ e).2.2.1) hc'.2.2.1 hc'.2.2.2 (r1 i i0 i1) j
  rcases han with ha | ha | ha | ha
  · have p : (0:ℤ) ≤ 0 ∧ (0:ℤ) < nx ∧ 0 ≤ b ∧ b < ny := ⟨le_rfl, by omega, b0, b1⟩
    have e := every 0 b p.1 p.2.1 b0 b1
    exact absurd (all 0 b p e).1 ((nW 0 b p e).2 rfl ha).ne'
  · have p : (0:ℤ) ≤ nx - 1 ∧ nx - 1 < nx ∧ 0 ≤ b ∧ b < ny := ⟨by omega, by omega, b0, b1⟩
    have e := every (nx - 1) b p.1 p.2.1 b0 b1
    exact absurd (all (nx - 1) b p e).2.1 ((nE (nx - 1) b p e).2 rfl ha).ne'
  · have p : 0 ≤ a ∧ a < nx ∧ (0:ℤ) ≤ 0 ∧ (0:ℤ) < ny := ⟨a0, a1, le_rfl, by omega⟩
    have e := every a 0 a0 a1 p.2.2.1 p.2.2.2
    exact absurd (all a 0 p e).2.2.1 ((nS a 0 p e).2 rfl ha).ne'
  · have p : 0 ≤ a ∧ a < nx ∧ (0:ℤ) ≤ ny - 1 ∧ ny - 1 < ny := ⟨a0, a1, by omega, by omega⟩
    have e := every a (ny - 1) a0 a1 p.2.2.1 p.2.2.2
    exact absurd (all a (ny - 1) p e).2.2.2 ((nN a (ny - 1) p e).2 rfl ha).ne'

theorem side_le_refl (s : Side) : Side.Le s s := ⟨rfl, rfl, fun _ => le_rfl⟩

/-- There is at most one steady temperature. -/
theorem c136_steady_unique (S : Sides) (hS : Sides.Ok S) (han : Anchored S) (dx dy D : ℝ) (hdx : 0 < dx) (hdy : 0 < dy) (hD : 0 < D) (nx ny : ℤ)
    (src T T' : Field2) (h : Steady S dx dy D nx ny src T) (h' : Steady S dx dy D nx ny src T') :
    ∀ i j, 0 ≤ i → i < nx → 0 ≤ j → j < ny → T i j = T' i j := fun i j i0 i1 j0 j1 =>
  have r : Sides.Le S S := ⟨side_le_refl _, side_le_refl _, side_le_refl _, side_le_refl _⟩
  le_antisymm
    (c136_steady_order S S hS r han dx dy D hdx hdy hD nx ny src src T T' h h' (fun _ _ _ _ _ _ => le_rfl) i j i0 i1 j0 j1)
    (c136_steady_order S S hS r han dx dy D hdx hdy hD nx ny src src T' T h' h (fun _ _ _ _ _ _ => le_rfl) i j i0 i1 j0 j1)

/-! ### Existence -/

/-- The condition with data zero. -/
def Side.zero (s : Side) : Side := ⟨s.a, s.b, fun _ => 0⟩

def Sides.zero (S : Sides) : Sides := ⟨Side.zero S.west, Side.zero S.east, Side.zero S.south, Side.zero S.north⟩

theorem ghost_add (s : Side) (h u v : ℝ) (n : ℤ) : s.ghost h (u + v) n = (Side.zero s).ghost h u n + s.ghost h v n := by
  simp only [Side.ghost, Side.zero, mul_zero, zero_add]; rw [← add_div]; congr 1; ring

theorem ghost_smul (s : Side) (h r u : ℝ) (n : ℤ) : (Side.zero s).ghost h (r * u) n = r * (Side.zero s).ghost h u n := by
  simp only [Side.ghost, Side.zero, mul_zero, zero_add]; rw [← mul_div_assoc]; congr 1; ring

theorem fill_add (S : Sides) (dx dy : ℝ) (nx ny : ℤ) (x y : Field2) (i j : ℤ) :
    fill S dx dy nx ny (fun i j => x i j + y i j) i j = fill (Sides.zero S) dx dy nx ny x i j + fill S dx dy nx ny y i j := by
  unfold fill
  split_ifs
  · rfl
  all_goals exact ghost_add _ _ _ _ _

theorem fill_smul (S : Sides) (dx dy : ℝ) (nx ny : ℤ) (r : ℝ) (x : Field2) (i j : ℤ) :
    fill (Sides.zero S) dx dy nx ny (fun i j => r * x i j) i j = r * fill (Sides.zero S) dx dy nx ny x i j := by
  unfold fill
  split_ifs
  · rfl
  all_goals exact ghost_smul _ _ _ _ _

theorem zero_zero (S : Sides) : Sides.zero (Sides.zero S) = Sides.zero S := rfl

/-- A cell of the domain. -/
abbrev Cell (nx ny : ℤ) : Type := ↥(Finset.Icc (0:ℤ) (nx - 1) ×ˢ Finset.Icc (0:ℤ) (ny - 1))

/-- Values on the cells, continued by zero. -/
noncomputable def extend {nx ny : ℤ} (x : Cell nx ny → ℝ) : Field2 := fun i j =>
  if h : (i, j) ∈ Finset.Icc (0:ℤ) (nx - 1) ×ˢ Finset.Icc (0:ℤ) (ny - 1) then x ⟨(i, j), h⟩ else 0

theorem extend_add {nx ny : ℤ} (x y : Cell nx ny → ℝ) : extend (x + y) = fun i j => extend x i j + extend y i j := by
  funext i j; unfold extend; split_ifs <;> simp

theorem extend_smul {nx ny : ℤ} (r : ℝ) (x : Cell nx ny → ℝ) : extend (r • x) = fun i j => r * extend x i j := by
  funext i j; unfold extend; split_ifs <;> simp

/-- The system with data zero, as a linear map. -/
noncomputable def operator (S : Sides) (dx dy D : ℝ) (nx ny : ℤ) : (Cell nx ny → ℝ) →ₗ[ℝ] (Cell nx ny → ℝ) where
  toFun x := fun c => steadyLhs2 dx dy D (fill (Sides.zero S) dx dy nx ny (extend x)) c.1.1 c.1.2
  map_add' x y := by
    funext c
    simp only [Pi.add_apply, steadyLhs2, laplacian2, extend_add, fill_add, zero_zero]
    ring
  map_smul' r x := by
    funext c
    simp only [Pi.smul_apply, steadyLhs2, laplacian2, extend_smul, fill_smul, RingHom.id_apply, smul_eq_mul]
    ring

theorem cell_mem {nx ny i j : ℤ} (i0 : 0 ≤ i) (i1 : i < nx) (j0 : 0 ≤ j) (j1 : j < ny) :
    (i, j) ∈ Finset.Icc (0:ℤ) (nx - 1) ×ˢ Finset.Icc (0:ℤ) (ny - 1) := by
  rw [Finset.mem_product, Finset.mem_Icc, Finset.mem_Icc]
  exact ⟨⟨i0, by show i ≤ nx - 1; omega⟩, j0, by show j ≤ ny - 1; omega⟩

/-- **C136**, steady: there is a steady temperature, for every source and all boundary data. -/
theorem c136_steady_exists (S : Sides) (hS : Sides.Ok S) (han : Anchored S) (dx dy D : ℝ) (hdx : 0 < dx) (hdy : 0 < dy) (hD : 0 < D) (nx ny : ℤ)
    (src : Field2) : ∃ T, Steady S dx dy D nx ny src T := by
  have inj : Function.Injective (operator S dx dy D nx ny) := by
    rw [← LinearMap.ker_eq_bot, LinearMap.ker_eq_bot']
    intro x hx
    have z : Steady (Sides.zero S) dx dy D nx ny (fun _ _ => 0) (extend x) := fun i j i0 i1 j0 j1 =>
      congrFun hx ⟨(i, j), cell_mem i0 i1 j0 j1⟩
    have z' : Steady (Sides.zero S) dx dy D nx ny (fun _ _ => 0) (extend (0 : Cell nx ny → ℝ)) := fun i j i0 i1 j0 j1 =>
      congrFun (map_zero (operator S dx dy D nx ny)) ⟨(i, j), cell_mem i0 i1 j0 j1⟩
    have u := c136_steady_unique (Sides.zero S) hS han dx dy D hdx hdy hD nx ny _ _ _ z z'
    funext c
    obtain ⟨⟨i, j⟩, hc⟩ := c
    have hc' := hc
    rw [Finset.mem_product, Finset.mem_Icc, Finset.mem_Icc] at hc'
    obtain ⟨⟨i0, i1⟩, j0, j1⟩ := hc'
    simp only at i0 i1 j0 j1
    have := u i j i0 (by omega) j0 (by omega)
    unfold extend at this
    rwa [dif_pos hc, dif_pos hc] at this
  obtain ⟨x, hx⟩ := (LinearMap.injective_iff_surjective.1 inj) fun c =>
    src c.1.1 c.1.2 - steadyLhs2 dx dy D (fill S dx dy nx ny fun _ _ => 0) c.1.1 c.1.2
  refine ⟨fun i j => extend x i j + 0, fun i j i0 i1 j0 j1 => ?_⟩
  have h := congrFun hx ⟨(i, j), cell_mem i0 i1 j0 j1⟩
  simp only [operator, LinearMap.coe_mk, AddHom.coe_mk] at h
  have e := eq_sub_iff_add_eq.1 h
  rw [← e]
  simp only [steadyLhs2, laplacian2, fill_add S dx dy nx ny (extend x) fun _ _ => 0]
  ring

/-! ### Closed domains -/

theorem sum_second (f : ℤ → ℝ) (n : ℕ) : (∑ i ∈ Finset.range n, (f ((i:ℤ) - 1) - 2 * f i + f (i + 1))) = (f n - f (n - 1)) - (f 0 - f (-1)) := by
  have := Finset.sum_range_sub (fun i : ℕ => f i - f ((i:ℤ) - 1)) n
  simp only [Nat.cast_zero, zero_sub] at this
  rw [← this]
  refine Finset.sum_congr rfl fun i _ => ?_
  push_cast
  rw [add_sub_cancel_right]; ring

/-- On a domain where only slopes are prescribed, a steady temperature exists only if the source is balanced by what leaves through the
sides. -/
theorem c136_closed_balance (S : Sides) (hW : S.west.a = 0) (hE : S.east.a = 0) (hs : S.south.a = 0) (hn : S.north.a = 0)
    (bW : S.west.b = 1) (bE : S.east.b = 1) (bs : S.south.b = 1) (bn : S.north.b = 1)
    (dx dy D : ℝ) (hdx : 0 < dx) (hdy : 0 < dy) (nx ny : ℕ) (hx : 0 < nx) (hy : 0 < ny) (src T : Field2)
    (h : Steady S dx dy D nx ny src T) :
    (∑ i ∈ Finset.range nx, ∑ j ∈ Finset.range ny, src i j)
      = -D * ((∑ j ∈ Finset.range ny, (S.west.g j + S.east.g j)) / dx + (∑ i ∈ Finset.range nx, (S.south.g i + S.north.g i)) / dy) := by
  set u := fill S dx dy nx ny T with hu
  have gh : ∀ (s : Side) (k v : ℝ) (n : ℤ), s.a = 0 → s.b = 1 → s.ghost k v n = k * s.g n + v := fun s k v n a b => by
    unfold Side.ghost; rw [a, b]; ring
  have e1 : (∑ i ∈ Finset.range nx, ∑ j ∈ Finset.range ny, src i j)
      = -D * ((∑ j ∈ Finset.range ny, ∑ i ∈ Finset.range nx, (u ((i:ℤ) - 1) j - 2 * u i j + u (i + 1) j)) * (1 / (dx * dx))
        + (∑ i ∈ Finset.range nx, ∑ j ∈ Finset.range ny, (u i ((j:ℤ) - 1) - 2 * u i j + u i (j + 1))) * (1 / (dy * dy))) := by
    rw [Finset.sum_comm (s := Finset.range ny), Finset.sum_mul, Finset.sum_mul, ← Finset.sum_add_distrib, Finset.mul_sum]
    refine Finset.sum_congr rfl fun i hi => ?_
    rw [Finset.sum_mul, Finset.sum_mul, ← Finset.sum_add_distrib, Finset.mul_sum]
    refine Finset.sum_congr rfl fun j hj => ?_
    rw [← h i j (by omega) (by exact_mod_cast Finset.mem_range.1 hi) (by omega) (by exact_mod_cast Finset.mem_range.1 hj)]
    unfold steadyLhs2 laplacian2; rw [← hu]; ring
  rw [e1]
  have ex : (∑ j ∈ Finset.range ny, ∑ i ∈ Finset.range nx, (u ((i:ℤ) - 1) j - 2 * u i j + u (i + 1) j))
      = dx * ∑ j ∈ Finset.range ny, (S.west.g j + S.east.g j) := by
    rw [Finset.mul_sum]
    refine Finset.sum_congr rfl fun j hj => ?_
    have hj' := Finset.mem_range.1 hj
    have s := sum_second (fun i => u i j) nx
    rw [s, hu, fill_west, fill_east _ _ _ (by omega), gh _ _ _ _ hW bW, gh _ _ _ _ hE bE, fill_in _ _ _ _ (by omega), fill_in _ _ _ _ (by omega)]
    ring
  have ey : (∑ i ∈ Finset.range nx, ∑ j ∈ Finset.range ny, (u i ((j:ℤ) - 1) - 2 * u i j + u i (j + 1)))
      = dy * ∑ i ∈ Finset.range nx, (S.south.g i + S.north.g i) := by
    rw [Finset.mul_sum]
    refine Finset.sum_congr rfl fun i hi => ?_
    have hi' := Finset.mem_range.1 hi
    have s := sum_second (fun j => u i j) ny
    rw [s, hu, fill_south _ _ _ _ (by omega) (by omega), fill_north _ _ _ (by omega) _ (by omega) (by omega), gh _ _ _ _ hs bs,
      gh _ _ _ _ hn bn, fill_in _ _ _ _ (by omega), fill_in _ _ _ _ (by omega)]
    ring
  rw [ex, ey]
  congr 1
  field_simp

/-- Zero slope on every side. -/
def closed : Sides := ⟨⟨0, 1, fun _ => 0⟩, ⟨0, 1, fun _ => 0⟩, ⟨0, 1, fun _ => 0⟩, ⟨0, 1, fun _ => 0⟩⟩

/-- Violation: with zero slope on every side and heat put in on balance there is no steady temperature; the solve does not stop the run. -/
theorem c136_violation_closed (dx dy D : ℝ) (hdx : 0 < dx) (hdy : 0 < dy) (nx ny : ℕ) (hx : 0 < nx) (hy : 0 < ny) (src : Field2)
    (hsrc : (∑ i ∈ Finset.range nx, ∑ j ∈ Finset.range ny, src i j) ≠ 0) : ¬ ∃ T, Steady closed dx dy D nx ny src T := by
  rintro ⟨T, h⟩
  refine hsrc ((c136_closed_balance closed rfl rfl rfl rfl rfl rfl rfl rfl dx dy D hdx hdy nx ny hx hy src T h).trans ?_)
  simp [closed]

/-- Violation: and where there is one, every other level of temperature is one as well. -/
theorem c136_violation_level (dx dy D : ℝ) (nx ny : ℤ) (src T : Field2) (h : Steady closed dx dy D nx ny src T) (m : ℝ) :
    Steady closed dx dy D nx ny src fun i j => T i j + m := fun i j i0 i1 j0 j1 => by
  rw [← h i j i0 i1 j0 j1]
  have e : ∀ a b, fill closed dx dy nx ny (fun i j => T i j + m) a b = fill closed dx dy nx ny T a b + m := fun a b => by
    unfold fill
    split_ifs <;> simp [Side.ghost, closed]
  unfold steadyLhs2 laplacian2
  simp only [e]; ring

/-! ## Examples -/

/-- A cold side held at 300, zero slope elsewhere: the hypotheses of the steady theorems. -/
example : let S : Sides := ⟨⟨1, 0, fun _ => 300⟩, ⟨0, 1, fun _ => 0⟩, ⟨0, 1, fun _ => 0⟩, ⟨0, 1, fun _ => 0⟩⟩
    Sides.Ok S ∧ Anchored S := by
  refine ⟨⟨?_, ?_, ?_, ?_⟩, Or.inl ?_⟩ <;> norm_num [Side.Ok]

/-- In one cell next to a face at temperature 2, with mesh size 1, diffusivity 1 and source 6 the steady temperature is 5. -/
example : Steady ⟨⟨1, 0, fun _ => 2⟩, ⟨0, 1, fun _ => 0⟩, ⟨0, 1, fun _ => 0⟩, ⟨0, 1, fun _ => 0⟩⟩ 1 1 1 1 1 (fun _ _ => 6) fun _ _ => 5 := by
  intro i j i0 i1 j0 j1
  have hi : i = 0 := by omega
  have hj : j = 0 := by omega
  subst hi hj
  norm_num [steadyLhs2, laplacian2, fill, Side.ghost]

/-- A uniform source in a closed box of any size: no steady temperature. -/
example (nx ny : ℕ) (hx : 0 < nx) (hy : 0 < ny) : ¬ ∃ T, Steady closed 1 1 1 nx ny (fun _ _ => 1) T :=
  c136_violation_closed 1 1 1 one_pos one_pos nx ny hx hy _ (by
    simp only [Finset.sum_const, Finset.card_range, nsmul_eq_mul, mul_one]
    have : (0:ℝ) < nx := by exact_mod_cast hx
    have : (0:ℝ) < ny := by exact_mod_cast hy
    positivity)

/-- Two histories of a periodic cell in a slow frame, one freezing: the hypotheses of the theorem on two histories. -/
example : ∀ t ∈ Icc (0:ℝ) 5, ∀ c ∈ ({(0, 0)} : Finset (ℤ × ℤ)), (fun (_ : ℝ) (_ _ : ℤ) => (1:ℝ)) t c.1 c.2 ≤ (fun t (_ _ : ℤ) => 1 + 2 * t) t c.1 c.2 :=
  c136_order_2d_partial (fun _ => .centred 1) 1 1 1 4 one_pos zero_le_one true (fun _ _ _ => 2) (fun _ _ _ => 2) (fun _ _ _ => 0) (fun _ _ _ => 1)
    {(0, 0)} 5 (fun _ _ _ => 1) (fun t _ _ => 1 + 2 * t) (fun _ _ => 0) (fun _ _ => 2) (fun _ _ => by norm_num [Slow])
    (fun t _ _ _ => hasDerivAt_const t 1) (fun t _ _ _ => (((hasDerivAt_id t).const_mul 2).const_add 1).congr_deriv (by ring))
    (fun _ _ _ _ => by norm_num [rate2_eq, laplacian2, released, frameTerm, convect])
    (fun t _ _ _ => by norm_num [rate2_eq, laplacian2, released, frameTerm, convect]; linarith) (fun _ _ _ _ => by norm_num [released])
    (fun _ _ _ _ _ _ => Or.inl ⟨(0, 0), by simp, rfl, rfl⟩) (fun _ _ => by norm_num)

end AMPE.HeatOrder.Props
