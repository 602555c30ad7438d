import Verif.Model.Functions
import Mathlib.Analysis.SpecialFunctions.Trigonometric.DerivHyp
import Mathlib.Analysis.SpecialFunctions.Log.Deriv
import Mathlib.Analysis.Calculus.Deriv.Pow
import Mathlib.Analysis.Calculus.Deriv.Mul
import Mathlib.Analysis.Calculus.Deriv.Inv
import Mathlib.Tactic.Linarith
import Mathlib.Tactic.Ring
import Mathlib.Tactic.FieldSimp
import Mathlib.Tactic.NormNum
import Mathlib.Tactic.Positivity

/-! Calculus helpers for the scalar functions. -/

namespace AMPE.Functions

open Set Filter Topology

/-- Two functions with the same derivative at `x`, glued at `x`. -/
theorem hasDerivAt_glue {f a b : ℝ → ℝ} {d x : ℝ} (hl : ∀ y ≤ x, f y = a y) (hr : ∀ y, x ≤ y → f y = b y)
    (ha : HasDerivAt a d x) (hb : HasDerivAt b d x) : HasDerivAt f d x := by
  have h1 : HasDerivWithinAt f d (Iic x) x :=
    ha.hasDerivWithinAt.congr (fun y hy => hl y hy) (hl x le_rfl)
  have h2 : HasDerivWithinAt f d (Ici x) x :=
    hb.hasDerivWithinAt.congr (fun y hy => hr y hy) (hr x le_rfl)
  have := h1.union h2
  rwa [Iic_union_Ici, hasDerivWithinAt_univ] at this

theorem hasDerivAt_congr_lt {f a : ℝ → ℝ} {d x c : ℝ} (hx : x < c) (h : ∀ y < c, f y = a y)
    (ha : HasDerivAt a d x) : HasDerivAt f d x :=
  ha.congr_of_eventuallyEq (by filter_upwards [Iio_mem_nhds hx] with y hy using h y hy)

theorem hasDerivAt_congr_gt {f a : ℝ → ℝ} {d x c : ℝ} (hx : c < x) (h : ∀ y, c < y → f y = a y)
    (ha : HasDerivAt a d x) : HasDerivAt f d x :=
  ha.congr_of_eventuallyEq (by filter_upwards [Ioi_mem_nhds hx] with y hy using h y hy)

theorem hasDerivAt_congr_Ioo {f a : ℝ → ℝ} {d x c e : ℝ} (hx : x ∈ Ioo c e) (h : ∀ y ∈ Ioo c e, f y = a y)
    (ha : HasDerivAt a d x) : HasDerivAt f d x :=
  ha.congr_of_eventuallyEq (by filter_upwards [Ioo_mem_nhds hx.1 hx.2] with y hy using h y hy)

theorem pos_of_nonpos {x : ℝ} (h : x ≤ 0) : pos x = 0 := max_eq_left h
theorem pos_of_nonneg {x : ℝ} (h : 0 ≤ x) : pos x = x := max_eq_right h
theorem clamp_of_nonpos {x : ℝ} (h : x ≤ 0) : clamp x = 0 := by
  unfold clamp; rw [min_eq_right (by linarith), max_eq_left h]
theorem clamp_of_mem {x : ℝ} (h0 : 0 ≤ x) (h1 : x ≤ 1) : clamp x = x := by
  unfold clamp; rw [min_eq_right h1, max_eq_right h0]
theorem clamp_of_ge {x : ℝ} (h : 1 ≤ x) : clamp x = 1 := by
  unfold clamp; rw [min_eq_left h, max_eq_right (by norm_num)]
theorem clamp_nonneg (x : ℝ) : 0 ≤ clamp x := le_max_left _ _
theorem clamp_le_one (x : ℝ) : clamp x ≤ 1 := max_le (by norm_num) (min_le_left _ _)
theorem pos_nonneg (x : ℝ) : 0 ≤ pos x := le_max_left _ _
theorem clamp_mono {x y : ℝ} (h : x ≤ y) : clamp x ≤ clamp y :=
  max_le_max le_rfl (min_le_min le_rfl h)
theorem pos_mono {x y : ℝ} (h : x ≤ y) : pos x ≤ pos y := max_le_max le_rfl h

/-- Derivative of `g ∘ pos` when `g'(0) = 0`. -/
theorem hasDerivAt_pos {g g' : ℝ → ℝ} (hg : ∀ x, HasDerivAt g (g' x) x) (h0 : g' 0 = 0) (x : ℝ) :
    HasDerivAt (fun y => g (pos y)) (g' (pos x)) x := by
  rcases lt_trichotomy x 0 with hx | rfl | hx
  · rw [pos_of_nonpos hx.le, h0]
    exact hasDerivAt_congr_lt hx (a := fun _ => g 0) (fun y hy => by rw [pos_of_nonpos hy.le])
      (hasDerivAt_const _ _)
  · rw [pos_of_nonneg le_rfl, h0]
    refine hasDerivAt_glue (a := fun _ => g 0) (b := g) ?_ ?_ (hasDerivAt_const _ _) ?_
    · intro y hy; rw [pos_of_nonpos hy]
    · intro y hy; rw [pos_of_nonneg hy]
    · simpa [h0] using hg 0
  · rw [pos_of_nonneg hx.le]
    exact hasDerivAt_congr_gt hx (fun y hy => by rw [pos_of_nonneg hy.le]) (hg x)

/-- Derivative of `g ∘ clamp` when `g'` vanishes at both ends. -/
theorem hasDerivAt_clamp {g g' : ℝ → ℝ} (hg : ∀ x ∈ Icc (0:ℝ) 1, HasDerivAt g (g' x) x) (h0 : g' 0 = 0)
    (h1 : g' 1 = 0) (x : ℝ) : HasDerivAt (fun y => g (clamp y)) (g' (clamp x)) x := by
  rcases lt_trichotomy x 0 with hx | rfl | hx
  · rw [clamp_of_nonpos hx.le, h0]
    exact hasDerivAt_congr_lt hx (a := fun _ => g 0) (fun y hy => by rw [clamp_of_nonpos hy.le])
      (hasDerivAt_const _ _)
  · have h : HasDerivAt (fun y => g (clamp y)) 0 0 := by
      have : HasDerivAt (fun y => if y ≤ 0 then g 0 else g y) 0 0 := by
        refine hasDerivAt_glue (a := fun _ => g 0) (b := g) ?_ ?_ (hasDerivAt_const _ _) ?_
        · intro y hy; simp [hy]
        · intro y hy
          by_cases hy0 : y ≤ 0
          · have : y = 0 := le_antisymm hy0 hy
            simp [this]
          · simp [hy0]
        · simpa [h0] using hg 0 (by simp)
      refine hasDerivAt_congr_lt (c := 1) (by norm_num) ?_ this
      intro y hy
      by_cases hy0 : y ≤ 0
      · simp [hy0, clamp_of_nonpos]
      · simp [hy0, clamp_of_mem (not_le.mp hy0).le hy.le]
    rw [clamp_of_nonpos le_rfl, h0]; exact h
  · rcases lt_trichotomy x 1 with hx1 | rfl | hx1
    · rw [clamp_of_mem hx.le hx1.le]
      exact hasDerivAt_congr_Ioo (c := 0) (e := 1) ⟨hx, hx1⟩
        (fun y hy => by rw [clamp_of_mem hy.1.le hy.2.le]) (hg x ⟨hx.le, hx1.le⟩)
    · have h : HasDerivAt (fun y => g (clamp y)) 0 1 := by
        have : HasDerivAt (fun y => if 1 ≤ y then g 1 else g y) 0 1 := by
          refine hasDerivAt_glue (a := g) (b := fun _ => g 1) ?_ ?_ ?_ (hasDerivAt_const _ _)
          · intro y hy
            by_cases hy0 : 1 ≤ y
            · have : y = 1 := le_antisymm hy hy0
              simp [this]
            · simp [hy0]
          · intro y hy; simp [hy]
          · simpa [h1] using hg 1 (by simp)
        refine hasDerivAt_congr_gt (c := 0) (by norm_num) ?_ this
        intro y hy
        by_cases hy0 : 1 ≤ y
        · simp [hy0, clamp_of_ge]
        · simp [hy0, clamp_of_mem hy.le (not_le.mp hy0).le]
      rw [clamp_of_ge le_rfl, h1]; exact h
    · rw [clamp_of_ge hx1.le, h1]
      exact hasDerivAt_congr_gt hx1 (a := fun _ => g 1) (fun y hy => by rw [clamp_of_ge hy.le])
        (hasDerivAt_const _ _)

theorem den_pos (x : ℝ) : 0 < 2 * x * (x - 1) + 1 := by nlinarith [sq_nonneg (2 * x - 1)]

theorem cosh_gamma : 0 < Real.log (Real.cosh gamma) :=
  Real.log_pos (Real.one_lt_cosh.mpr (by norm_num [gamma]))

end AMPE.Functions
