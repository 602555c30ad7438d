import Verif.Model.Frame
import Verif.Props.Coefficients
import Mathlib.Analysis.SpecialFunctions.Sqrt
import Mathlib.Topology.Algebra.Order.Field
import Mathlib.Tactic.Linarith
import Mathlib.Tactic.Ring
import Mathlib.Tactic.FieldSimp
import Mathlib.Tactic.Positivity

/-! # C94: the interface velocity is the velocity of the front

A front `φ(t, x) = f (n·x - w t)` with unit normal `n` has `∇φ = f' n`, `φ_t = -w f'`. The velocity that enters the partition coefficient must be
`w` in magnitude, whatever the direction and the mesh. -/

namespace AMPE.Frame.Props

open AMPE.Frame AMPE.Coefficients

/-- Cut-off gradient of the mesh. -/
noncomputable def cutoff (dx : ℝ) : ℝ := 0.02 / dx

theorem velocity_eq (dx gx gy r : ℝ) : velocity dx gx gy r = r / Real.sqrt (gx * gx + gy * gy + cutoff dx * cutoff dx) := rfl

theorem cutoff_pos {dx : ℝ} (h : 0 < dx) : 0 < cutoff dx := by unfold cutoff; positivity

theorem root_ge {dx : ℝ} (h : 0 < dx) (gx gy : ℝ) : cutoff dx ≤ Real.sqrt (gx * gx + gy * gy + cutoff dx * cutoff dx) := by
  have hc := cutoff_pos h
  calc cutoff dx = Real.sqrt (cutoff dx * cutoff dx) := (Real.sqrt_mul_self hc.le).symm
    _ ≤ _ := Real.sqrt_le_sqrt (by nlinarith [mul_self_nonneg gx, mul_self_nonneg gy])

/-- **C94** (partial) The computed velocity of a front does not depend on its direction, has the sign of the growth of the order parameter,
and is the front velocity times `g / sqrt (g² + cutoff²)`, `g` the slope in the front. -/
theorem c94_front_partial (dx nx ny g w : ℝ) (hn : nx * nx + ny * ny = 1) :
    velocity dx (g * nx) (g * ny) (-(w * g)) = -(w * (g / Real.sqrt (g * g + cutoff dx * cutoff dx))) := by
  rw [velocity_eq]
  have : g * nx * (g * nx) + g * ny * (g * ny) = g * g * (nx * nx + ny * ny) := by ring
  rw [this, hn, mul_one, neg_div, mul_div_assoc]

/-- **C94** (violation) It is too small in every cell, on every mesh. -/
theorem c94_violation_small (dx : ℝ) (hdx : 0 < dx) (nx ny g w : ℝ) (hn : nx * nx + ny * ny = 1) (hw : w ≠ 0) :
    |velocity dx (g * nx) (g * ny) (-(w * g))| < |w| := by
  rw [c94_front_partial dx nx ny g w hn, abs_neg, abs_mul, abs_div]
  have hc := cutoff_pos hdx
  have hpos : 0 < Real.sqrt (g * g + cutoff dx * cutoff dx) := Real.sqrt_pos.2 (by nlinarith [mul_self_nonneg g, mul_pos hc hc])
  have hlt : |g| < Real.sqrt (g * g + cutoff dx * cutoff dx) := by
    rw [← Real.sqrt_mul_self_eq_abs]
    exact Real.sqrt_lt_sqrt (mul_self_nonneg g) (by nlinarith [mul_pos hc hc])
  rw [abs_of_pos hpos]
  have : |g| / Real.sqrt (g * g + cutoff dx * cutoff dx) < 1 := (div_lt_one hpos).2 hlt
  nlinarith [abs_pos.2 hw]

/-- **C94** (partial) The relative error is at most half the square of cut-off over slope: with `g dx` the change of the order parameter from cell to cell,
at most `0.0002 / (g dx)²`. -/
theorem c94_error_partial (dx : ℝ) (hdx : 0 < dx) (nx ny g w : ℝ) (hn : nx * nx + ny * ny = 1) (hg : 0 < g) :
    |w| * (1 - 0.0002 / (g * dx) ^ 2) ≤ |velocity dx (g * nx) (g * ny) (-(w * g))| := by
  rw [c94_front_partial dx nx ny g w hn, abs_neg, abs_mul]
  refine mul_le_mul_of_nonneg_left ?_ (abs_nonneg w)
  set s := Real.sqrt (g * g + cutoff dx * cutoff dx) with hs
  have hc := cutoff_pos hdx
  have hpos : 0 < s := Real.sqrt_pos.2 (by nlinarith [mul_self_nonneg g, mul_pos hc hc])
  have hs2 : s * s = g * g + cutoff dx * cutoff dx := Real.mul_self_sqrt (by nlinarith [mul_self_nonneg g, mul_pos hc hc])
  rw [abs_of_pos (div_pos hg hpos)]
  -- (1 - e/2) s ≤ g with e = cutoff²/g²
  set e := cutoff dx * cutoff dx / (g * g) with he
  have he0 : 0 ≤ e := by positivity
  have heq : cutoff dx * cutoff dx = e * (g * g) := by rw [he]; field_simp
  have h2 : 0.0002 / (g * dx) ^ 2 = e / 2 := by
    rw [he]; unfold cutoff; field_simp; norm_num
  rw [h2, le_div_iff₀ hpos]
  by_cases h1 : e ≤ 2
  · have h3 : 0 ≤ 1 - e / 2 := by linarith
    refine abs_le_of_sq_le_sq' (a := (1 - e / 2) * s) (b := g) ?_ hg.le |>.2
    rw [pow_two, pow_two]
    have : (1 - e / 2) * s * ((1 - e / 2) * s) = (1 - e / 2) ^ 2 * (1 + e) * (g * g) := by
      calc _ = (1 - e / 2) ^ 2 * (s * s) := by ring
        _ = _ := by rw [hs2, heq]; ring
    rw [this]
    have h4 : (1 - e / 2) ^ 2 * (1 + e) ≤ 1 := by nlinarith [mul_nonneg he0 he0, mul_nonneg (mul_nonneg he0 he0) (sub_nonneg.2 h1)]
    nlinarith [mul_pos hg hg]
  · have h3 : 1 - e / 2 < 0 := by linarith
    nlinarith

/-- **C94** (violation) The cut-off grows when the mesh is refined: whatever the gradient, the computed velocity is at most `50 dx` times the rate of
the order parameter, so it vanishes in the limit. -/
theorem c94_violation_refinement (dx : ℝ) (hdx : 0 < dx) (gx gy r : ℝ) : |velocity dx gx gy r| ≤ 50 * dx * |r| := by
  rw [velocity_eq, abs_div]
  have hc := cutoff_pos hdx
  have h1 := root_ge hdx gx gy
  rw [abs_of_pos (hc.trans_le h1)]
  calc |r| / _ ≤ |r| / cutoff dx := by gcongr
    _ = 50 * dx * |r| := by unfold cutoff; field_simp; norm_num; ring

/-- Limit of mesh refinement, gradient and rate may depend on the mesh as long as the rate stays bounded. -/
theorem c94_violation_limit (gx gy r : ℝ → ℝ) (B : ℝ) (hB : ∀ dx, |r dx| ≤ B) :
    Filter.Tendsto (fun dx => velocity dx (gx dx) (gy dx) (r dx)) (nhdsWithin 0 (Set.Ioi 0)) (nhds 0) := by
  have h0 : Filter.Tendsto (fun dx : ℝ => 50 * dx * B) (nhdsWithin 0 (Set.Ioi 0)) (nhds 0) := by
    have : Continuous fun dx : ℝ => 50 * dx * B := by fun_prop
    have := (this.tendsto 0).mono_left (nhdsWithin_le_nhds (s := Set.Ioi 0))
    simpa using this
  refine squeeze_zero_norm' ?_ h0
  filter_upwards [self_mem_nhdsWithin] with dx hdx
  have hdx' : (0 : ℝ) < dx := hdx
  rw [Real.norm_eq_abs]
  exact (c94_violation_refinement dx hdx' _ _ _).trans (mul_le_mul_of_nonneg_left (hB dx) (by positivity))

/-- Aziz's coefficient deviates from equilibrium by at most the scaled velocity. -/
theorem aziz_lipschitz (vd ke v : ℝ) (hvd : 0 < vd) (hke : 0 < ke) (h1 : ke < 1) : |azizCoefficient vd ke v - ke| ≤ |v| / vd := by
  have hs : 0 ≤ |v| * (1 / vd) := by positivity
  unfold azizCoefficient
  simp only [h1, if_true]
  have e : (ke + |v| * (1 / vd)) / (1 + |v| * (1 / vd)) - ke = |v| * (1 / vd) * (1 - ke) / (1 + |v| * (1 / vd)) := by
    field_simp; ring
  rw [e, abs_of_nonneg (by apply div_nonneg _ (by linarith); exact mul_nonneg hs (by linarith))]
  rw [div_le_iff₀ (by linarith)]
  have : |v| / vd = |v| * (1 / vd) := by ring
  rw [this]
  nlinarith

/-- **C94** (violation) Hence solute trapping disappears when the mesh is refined: the partition coefficient is within `50 dx |φ_t| / vd` of the equilibrium
one, however fast the front moves. -/
theorem c94_violation_trapping (dx : ℝ) (hdx : 0 < dx) (vd ke gx gy r : ℝ) (hvd : 0 < vd) (hke : 0 < ke) (h1 : ke < 1) :
    |azizCoefficient vd ke (velocity dx gx gy r) - ke| ≤ 50 * dx * |r| / vd :=
  (aziz_lipschitz vd ke _ hvd hke h1).trans (by
    have := c94_violation_refinement dx hdx gx gy r
    gcongr)

/-- **C94** On a mesh with the change of the order parameter from cell to cell `g dx` the computed velocity is a function of `g dx` only. -/
theorem c94_cells (dx : ℝ) (hdx : 0 < dx) (nx ny g w : ℝ) (hn : nx * nx + ny * ny = 1) :
    velocity dx (g * nx) (g * ny) (-(w * g)) = -(w * (g * dx / Real.sqrt ((g * dx) ^ 2 + 0.0004))) := by
  rw [c94_front_partial dx nx ny g w hn]
  have : (g * dx) ^ 2 + 0.0004 = (g * g + cutoff dx * cutoff dx) * dx ^ 2 := by
    unfold cutoff; field_simp; norm_num
  rw [this, Real.sqrt_mul' _ (by positivity), Real.sqrt_sq hdx.le, mul_div_mul_right _ _ hdx.ne']

/-- A front with 50 cells per unit of `1/g` (`g dx = 0.02`): the velocity is too small by a factor √2. -/
example : velocity 0.02 (1 * 1) (1 * 0) (-(3 * 1)) = -(3 * (0.02 / Real.sqrt 0.0008)) := by
  have := c94_cells 0.02 (by norm_num) 1 0 1 3 (by norm_num)
  rw [this]
  norm_num

end AMPE.Frame.Props
