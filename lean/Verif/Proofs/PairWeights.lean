import Verif.Model.PairWeights
import Mathlib.Geometry.Euclidean.Triangle
import Mathlib.Analysis.InnerProductSpace.PiL2
import Mathlib.Tactic.Linarith
import Mathlib.Tactic.Ring
import Mathlib.Tactic.FieldSimp
import Mathlib.Tactic.NormNum
import Mathlib.Tactic.Positivity
import Mathlib.Tactic.FinCases

/-! Geometry behind the pair weights: the three weights are the angles of a triangle over pi. -/

namespace AMPE.PairWeights

open EuclideanGeometry

/-- A coordinate triple as a point of Euclidean space. -/
noncomputable def pt (v : Fin 3 → ℝ) : EuclideanSpace ℝ (Fin 3) := WithLp.toLp 2 v

theorem dist3_eq (v w : Fin 3 → ℝ) : dist3 v w = dist (pt v) (pt w) := by
  rw [EuclideanSpace.dist_eq]
  simp only [dist3, Fin.sum_univ_three, pt, Real.dist_eq, sq_abs]
  congr 1
  ring

theorem dist3_comm (v w : Fin 3 → ℝ) : dist3 v w = dist3 w v := by
  rw [dist3_eq, dist3_eq, dist_comm]

theorem pt_ne {v w : Fin 3 → ℝ} (h : 0 < dist3 v w) : pt v ≠ pt w := by
  rw [dist3_eq] at h
  exact dist_pos.mp h

/-- The weight at the vertex `a` is the angle there divided by pi. -/
theorem angleWeight_eq (a b c : Fin 3 → ℝ) (hb : 0 < dist3 b a) (hc : 0 < dist3 c a) :
    angleWeight (dist3 b a) (dist3 c a) (dist3 c b) = ∠ (pt b) (pt a) (pt c) / Real.pi := by
  set x := pt b -ᵥ pt a with hx
  set y := pt c -ᵥ pt a with hy
  have e1 : dist3 b a = ‖x‖ := by rw [dist3_eq, dist_eq_norm_vsub (EuclideanSpace ℝ (Fin 3))]
  have e2 : dist3 c a = ‖y‖ := by rw [dist3_eq, dist_eq_norm_vsub (EuclideanSpace ℝ (Fin 3))]
  have e3 : dist3 c b = ‖x - y‖ := by
    rw [dist3_comm, dist3_eq, dist_eq_norm_vsub (EuclideanSpace ℝ (Fin 3)), hx, hy]
    simp
  rw [e1] at hb
  rw [e2] at hc
  have hi := real_inner_eq_norm_mul_self_add_norm_mul_self_sub_norm_sub_mul_self_div_two x y
  have ha : (‖x‖ * ‖x‖ + ‖y‖ * ‖y‖ - ‖x - y‖ * ‖x - y‖) / (2 * ‖x‖ * ‖y‖) =
      inner ℝ x y / (‖x‖ * ‖y‖) := by
    rw [hi]; field_simp
  have habs := abs_real_inner_div_norm_mul_norm_le_one x y
  rw [abs_le] at habs
  unfold angleWeight
  simp only [e1, e2, e3, ha]
  rw [if_neg (not_lt.mpr habs.1), if_neg (not_lt.mpr habs.2)]
  unfold EuclideanGeometry.angle InnerProductGeometry.angle
  rw [← hx, ← hy]
  ring

/-- Three positive distances give weights in [0,1] that add up to one. -/
theorem weights_sum (a b c : Fin 3 → ℝ) (h0 : 0 < dist3 b a) (h1 : 0 < dist3 c a)
    (h2 : 0 < dist3 c b) :
    angleWeight (dist3 b a) (dist3 c a) (dist3 c b) +
    angleWeight (dist3 b a) (dist3 c b) (dist3 c a) +
    angleWeight (dist3 c b) (dist3 c a) (dist3 b a) = 1 := by
  rw [angleWeight_eq a b c h0 h1]
  have e2 : angleWeight (dist3 b a) (dist3 c b) (dist3 c a) = ∠ (pt a) (pt b) (pt c) / Real.pi := by
    rw [dist3_comm b a]
    exact angleWeight_eq b a c (by rwa [dist3_comm]) h2
  have e3 : angleWeight (dist3 c b) (dist3 c a) (dist3 b a) = ∠ (pt b) (pt c) (pt a) / Real.pi := by
    rw [dist3_comm b a, dist3_comm c b, dist3_comm c a]
    exact angleWeight_eq c b a (by rwa [dist3_comm]) (by rwa [dist3_comm])
  rw [e2, e3]
  have hpi := Real.pi_pos.ne'
  have hne : pt b ≠ pt a := pt_ne h0
  have := EuclideanGeometry.angle_add_angle_add_angle_eq_pi (pt c) hne.symm
  rw [angle_comm (pt b) (pt a) (pt c)]
  rw [angle_comm (pt a) (pt b) (pt c), angle_comm (pt c) (pt a) (pt b)]
  field_simp
  rw [angle_comm (pt b) (pt c) (pt a), angle_comm (pt c) (pt b) (pt a)]
  first
    | linarith [this, angle_comm (pt a) (pt c) (pt b), angle_comm (pt c) (pt a) (pt b),
        angle_comm (pt a) (pt b) (pt c)]

theorem angleWeight_range (x y z : ℝ) : 0 ≤ angleWeight x y z ∧ angleWeight x y z ≤ 1 := by
  unfold angleWeight
  have hp := Real.pi_pos
  constructor
  · exact mul_nonneg (by positivity) (Real.arccos_nonneg _)
  · rw [one_div, inv_mul_le_iff₀ hp, mul_one]; exact Real.arccos_le_pi _

/-- Fractions: non-negative and adding up to one. -/
def Simplex (p : Fin 3 → ℝ) : Prop := (∀ i, 0 ≤ p i) ∧ p 0 + p 1 + p 2 = 1

theorem limit_simplex {p : Fin 3 → ℝ} (h : Simplex p) :
    Simplex (limitFractions p) ∧ ∀ i, limitFractions p i ≤ maxp := by
  obtain ⟨hn, hs⟩ := h
  have h0 := hn 0
  have h1 := hn 1
  have h2 := hn 2
  unfold limitFractions
  split_ifs with c0 c1 c2
  all_goals unfold maxp at *
  · refine ⟨⟨fun i => ?_, ?_⟩, fun i => ?_⟩
    · fin_cases i <;> simp [redistribute, Function.update, maxp] <;> linarith
    · simp [redistribute, Function.update, maxp]; linarith
    · fin_cases i <;> simp [redistribute, Function.update, maxp] <;> linarith
  · refine ⟨⟨fun i => ?_, ?_⟩, fun i => ?_⟩
    · fin_cases i <;> simp [redistribute, Function.update, maxp] <;> linarith
    · simp [redistribute, Function.update, maxp]; linarith
    · fin_cases i <;> simp [redistribute, Function.update, maxp] <;> linarith
  · refine ⟨⟨fun i => ?_, ?_⟩, fun i => ?_⟩
    · fin_cases i <;> simp [redistribute, Function.update, maxp] <;> linarith
    · simp [redistribute, Function.update, maxp]; linarith
    · fin_cases i <;> simp [redistribute, Function.update, maxp] <;> linarith
  · refine ⟨⟨hn, hs⟩, fun i => ?_⟩
    fin_cases i <;> simp <;> linarith

theorem dist3_ge (v w : Fin 3 → ℝ) (i : Fin 3) : |v i - w i| ≤ dist3 v w := by
  unfold dist3
  apply Real.abs_le_sqrt
  fin_cases i <;> simp <;>
    nlinarith [mul_self_nonneg (v 0 - w 0), mul_self_nonneg (v 1 - w 1), mul_self_nonneg (v 2 - w 2)]

theorem ratio_ge {a b : ℝ} (ha : 0 ≤ a) (hb : 0 ≤ b) (hs : a + b ≤ 1) (hp : 0 < a + b) :
    a ≤ a / (a + b) := by
  rw [le_div_iff₀ hp]; nlinarith

end AMPE.PairWeights
