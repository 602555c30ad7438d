import Verif.Model.AntiTrap3
import Verif.Props.Flux
import Mathlib.Analysis.SpecialFunctions.Sqrt

/-!
# C85: the anti-trapping current of a front does not depend on how the front lies on the grid (3D), and the plane
front and the length of the three-phase current in 2D (C50)

The specification: across a plane front with gradient `n = (b, g, h)` of the solid fraction the current is
`alpha * (c_l - c_a) * (rate) * n / |n|`; the routine is to add its component normal to each face.
-/

namespace AMPE.AntiTrap.Props

open AMPE.Flux AMPE.AntiTrap3

/-! ## Specification -/

/-- A plane front sampled at cell centres, two dimensions. -/
def plane2 (dx dy a b g : ℝ) : Field2 := fun i j => a + b * ((i : ℝ) * dx) + g * ((j : ℝ) * dy)

/-- A plane front sampled at cell centres, three dimensions. -/
def plane3 (dx dy dz a b g h : ℝ) : Field3 := fun i j k =>
  a + b * ((i : ℝ) * dx) + g * ((j : ℝ) * dy) + h * ((k : ℝ) * dz)

/-- The component `n` (of a gradient of squared length `N2`) of the anti-trapping current for a jump `J` of the
composition and a rate `R`. -/
noncomputable def current (alpha n N2 J R : ℝ) : ℝ := alpha * (n / Real.sqrt N2) * J * R

/-! ## Two dimensions -/

/-- **C50**: for a plane front the two-phase routine adds, on x faces and on y faces, the components of one and
the same current along the normal of the front, whatever the orientation of the front. -/
theorem c50_plane_front (dx dy alpha a b g : ℝ) (cl ca r f : Field2) (i j : ℤ) (hx : dx ≠ 0) (hy : dy ≠ 0)
    (ht : tol2 < b * b + g * g) :
    addAntitrap2X dx dy alpha (plane2 dx dy a b g) cl ca r f i j =
      f i j + current alpha b (b * b + g * g) ((cl (i - 1) j + cl i j) / 2 - (ca (i - 1) j + ca i j) / 2)
        ((r (i - 1) j + r i j) / 2) ∧
    addAntitrap2Y dx dy alpha (plane2 dx dy a b g) cl ca r f i j =
      f i j + current alpha g (b * b + g * g) ((cl i (j - 1) + cl i j) / 2 - (ca i (j - 1) + ca i j) / 2)
        ((r i (j - 1) + r i j) / 2) := by
  have ex : Flux.gradX dx dy (plane2 dx dy a b g) i j = (b, g) := by
    unfold Flux.gradX plane2; push_cast
    refine Prod.ext ?_ ?_
    · show _ = b
      field_simp; ring
    · show _ = g
      norm_num
      field_simp; ring
  have ey : Flux.gradY dx dy (plane2 dx dy a b g) i j = (b, g) := by
    unfold Flux.gradY plane2; push_cast
    refine Prod.ext ?_ ?_
    · show _ = b
      norm_num
      field_simp; ring
    · show _ = g
      field_simp; ring
  have hn : |b * b + g * g| > tol2 := lt_of_lt_of_le ht (le_abs_self _)
  unfold addAntitrap2X addAntitrap2Y antitrap2 current Flux.avgX Flux.avgY
  simp only [ex, ey, if_pos hn]
  constructor <;> norm_num <;> ring

theorem div_sqrt_le (x y : ℝ) (hy : 0 < y) (h : x ^ 2 ≤ y) : |x / Real.sqrt y| ≤ 1 := by
  rw [abs_div, abs_of_pos (Real.sqrt_pos.2 hy), div_le_one (Real.sqrt_pos.2 hy)]
  exact Real.abs_le_sqrt h

theorem tol2_pos : (0 : ℝ) < tol2 := by unfold tol2; norm_num

theorem factor_le (a u v J : ℝ) (R : ℝ) (hu : |u| ≤ 1) (hv : |v| ≤ 1) : |a * u * v * J * R| ≤ |a * J * R| := by
  have e : a * u * v * J * R = (a * J * R) * (u * v) := by ring
  rw [e, abs_mul]
  refine mul_le_of_le_one_right (abs_nonneg _) ?_
  rw [abs_mul]
  exact mul_le_one₀ hu (abs_nonneg _) hv

/-- **C50**: with three phases, whatever the gradients of the liquid and of the solid, each component of the
current of one solid is at most `alpha (cl - cp) rate` in size. -/
theorem c50_three_phase_bounded (alpha : ℝ) (g gp : ℝ × ℝ) (cl cp dpdt : ℝ) :
    |antitrap3 alpha g g.1 gp cl cp dpdt| ≤ |alpha * (cl - cp) * dpdt| ∧
    |antitrap3 alpha g g.2 gp cl cp dpdt| ≤ |alpha * (cl - cp) * dpdt| := by
  have key : ∀ n : ℝ, n ^ 2 ≤ g.1 * g.1 + g.2 * g.2 →
      |antitrap3 alpha g n gp cl cp dpdt| ≤ |alpha * (cl - cp) * dpdt| := by
    intro n hn
    unfold antitrap3
    by_cases h : |g.1 * g.1 + g.2 * g.2| > tol2
    · by_cases h' : |gp.1 * gp.1 + gp.2 * gp.2| > tol2
      · simp only [if_pos h, if_pos h']
        obtain ⟨hp, -, -⟩ := Flux.Props.sqrt_mul_self_add g h
        obtain ⟨hp', -, -⟩ := Flux.Props.sqrt_mul_self_add gp h'
        refine factor_le _ _ _ _ _ ?_ (div_sqrt_le _ _ hp hn)
        rw [← Real.sqrt_mul hp'.le]
        refine div_sqrt_le _ _ (mul_pos hp' hp) ?_
        nlinarith [sq_nonneg (gp.1 * g.2 - gp.2 * g.1)]
      · simp only [if_pos h, if_neg h', abs_zero]; exact abs_nonneg _
    · simp only [if_neg h, abs_zero]; exact abs_nonneg _
  exact ⟨key _ (by nlinarith [mul_self_nonneg g.2]), key _ (by nlinarith [mul_self_nonneg g.1])⟩

/-- **C50**: the three-phase current depends on the direction of the solid's gradient only, not on its length. -/
theorem c50_three_phase_direction (alpha : ℝ) (g gp : ℝ × ℝ) (n cl cp dpdt s : ℝ) (hs : 0 < s)
    (h1 : tol2 < gp.1 * gp.1 + gp.2 * gp.2) (h2 : tol2 < s ^ 2 * (gp.1 * gp.1 + gp.2 * gp.2)) :
    antitrap3 alpha g n (s * gp.1, s * gp.2) cl cp dpdt = antitrap3 alpha g n gp cl cp dpdt := by
  unfold antitrap3
  have e : s * gp.1 * (s * gp.1) + s * gp.2 * (s * gp.2) = s ^ 2 * (gp.1 * gp.1 + gp.2 * gp.2) := by ring
  simp only [e]
  have a1 : |gp.1 * gp.1 + gp.2 * gp.2| > tol2 := lt_of_lt_of_le h1 (le_abs_self _)
  have a2 : |s ^ 2 * (gp.1 * gp.1 + gp.2 * gp.2)| > tol2 := lt_of_lt_of_le h2 (le_abs_self _)
  by_cases h : |g.1 * g.1 + g.2 * g.2| > tol2
  · simp only [if_pos h, if_pos a1, if_pos a2]
    have hp := (Flux.Props.sqrt_mul_self_add g h).2.1
    have hq := (Flux.Props.sqrt_mul_self_add gp a1).2.1
    rw [Real.sqrt_mul (sq_nonneg s), Real.sqrt_sq hs.le]
    have hp' := hp.ne'
    have hq' := hq.ne'
    generalize Real.sqrt (g.1 * g.1 + g.2 * g.2) = P at *
    generalize Real.sqrt (gp.1 * gp.1 + gp.2 * gp.2) = Q at *
    field_simp
  · simp only [if_neg h]

/-! ## Three dimensions, two and three phases -/

theorem plane_gradX (dx dy dz a b g h : ℝ) (i j k : ℤ) (hx : dx ≠ 0) (hy : dy ≠ 0) (hz : dz ≠ 0) :
    AntiTrap3.gradX dx dy dz (plane3 dx dy dz a b g h) i j k = (b, g, h) := by
  unfold AntiTrap3.gradX plane3; push_cast
  refine Prod.ext ?_ (Prod.ext ?_ ?_)
  · show _ = b
    field_simp; ring
  · show _ = g
    norm_num
    field_simp; ring
  · show _ = h
    norm_num
    field_simp; ring

theorem plane_gradY (dx dy dz a b g h : ℝ) (i j k : ℤ) (hx : dx ≠ 0) (hy : dy ≠ 0) (hz : dz ≠ 0) :
    AntiTrap3.gradY dx dy dz (plane3 dx dy dz a b g h) i j k = (b, g, h) := by
  unfold AntiTrap3.gradY plane3; push_cast
  refine Prod.ext ?_ (Prod.ext ?_ ?_)
  · show _ = b
    norm_num
    field_simp; ring
  · show _ = g
    field_simp; ring
  · show _ = h
    norm_num
    field_simp; ring

theorem plane_gradZ (dx dy dz a b g h : ℝ) (i j k : ℤ) (hx : dx ≠ 0) (hy : dy ≠ 0) (hz : dz ≠ 0) :
    AntiTrap3.gradZ dx dy dz (plane3 dx dy dz a b g h) i j k = (b, g, h) := by
  unfold AntiTrap3.gradZ plane3; push_cast
  refine Prod.ext ?_ (Prod.ext ?_ ?_)
  · show _ = b
    norm_num
    field_simp; ring
  · show _ = g
    norm_num
    field_simp; ring
  · show _ = h
    field_simp; ring

/-- **C85**: for a plane front of any orientation the two-phase routine adds on x, y and z faces the components of
the current along the normal of the front. -/
theorem c85_two_phase_plane (dx dy dz alpha a b g h : ℝ) (cl ca r f : Field3) (i j k : ℤ) (hx : dx ≠ 0)
    (hy : dy ≠ 0) (hz : dz ≠ 0) (ht : tol2 < b * b + g * g + h * h) :
    addTwoX dx dy dz alpha (plane3 dx dy dz a b g h) cl ca r f i j k =
      f i j k + current alpha b (b * b + g * g + h * h)
        ((cl (i - 1) j k + cl i j k) / 2 - (ca (i - 1) j k + ca i j k) / 2) ((r (i - 1) j k + r i j k) / 2) ∧
    addTwoY dx dy dz alpha (plane3 dx dy dz a b g h) cl ca r f i j k =
      f i j k + current alpha g (b * b + g * g + h * h)
        ((cl i (j - 1) k + cl i j k) / 2 - (ca i (j - 1) k + ca i j k) / 2) ((r i (j - 1) k + r i j k) / 2) ∧
    addTwoZ dx dy dz alpha (plane3 dx dy dz a b g h) cl ca r f i j k =
      f i j k + current alpha h (b * b + g * g + h * h)
        ((cl i j (k - 1) + cl i j k) / 2 - (ca i j (k - 1) + ca i j k) / 2) ((r i j (k - 1) + r i j k) / 2) := by
  have hn : |len2 (b, g, h)| > tol2 := lt_of_lt_of_le ht (le_abs_self _)
  unfold addTwoX addTwoY addTwoZ two current AntiTrap3.avgX AntiTrap3.avgY AntiTrap3.avgZ
  simp only [plane_gradX dx dy dz a b g h _ _ _ hx hy hz, plane_gradY dx dy dz a b g h _ _ _ hx hy hz,
    plane_gradZ dx dy dz a b g h _ _ _ hx hy hz, if_pos hn]
  unfold len2
  refine ⟨?_, ?_, ?_⟩ <;> norm_num <;> ring

theorem sq_nonneg' (g : Grad) : 0 ≤ len2 g := by
  unfold len2; nlinarith [mul_self_nonneg g.1, mul_self_nonneg g.2.1, mul_self_nonneg g.2.2]

theorem sq_pos' (g : Grad) (h : |len2 g| > tol2) : 0 < len2 g := by
  rw [abs_of_nonneg (sq_nonneg' g)] at h; exact lt_trans tol2_pos h

/-- **C85**: for arbitrary gradients the current of each routine is at most `alpha (cl - ca) rate` in size. -/
theorem c85_bounded (alpha : ℝ) (g gp : Grad) (n cl cp dpdt : ℝ) (hn : n = g.1 ∨ n = g.2.1 ∨ n = g.2.2) :
    |two alpha g n cl cp dpdt| ≤ |alpha * (cl - cp) * dpdt| ∧
    |three alpha g n gp cl cp dpdt| ≤ |alpha * (cl - cp) * dpdt| := by
  have hn2 : n ^ 2 ≤ len2 g := by
    unfold len2
    rcases hn with h | h | h <;> rw [h] <;>
      nlinarith [mul_self_nonneg g.1, mul_self_nonneg g.2.1, mul_self_nonneg g.2.2]
  unfold two three
  by_cases h : |len2 g| > tol2
  · have hp := sq_pos' g h
    constructor
    · rw [if_pos h]
      have := factor_le alpha 1 (n / Real.sqrt (len2 g)) (cl - cp) dpdt (by simp) (div_sqrt_le _ _ hp hn2)
      simpa using this
    · by_cases h' : |len2 gp| > tol2
      · have hp' := sq_pos' gp h'
        simp only [if_pos h, if_pos h']
        refine factor_le _ _ _ _ _ ?_ (div_sqrt_le _ _ hp hn2)
        rw [← Real.sqrt_mul hp'.le]
        refine div_sqrt_le _ _ (mul_pos hp' hp) ?_
        unfold len2
        nlinarith [sq_nonneg (gp.1 * g.2.1 - gp.2.1 * g.1), sq_nonneg (gp.1 * g.2.2 - gp.2.2 * g.1),
          sq_nonneg (gp.2.1 * g.2.2 - gp.2.2 * g.2.1)]
      · simp only [if_pos h, if_neg h', abs_zero]; exact abs_nonneg _
  · simp only [if_neg h, abs_zero]; exact ⟨abs_nonneg _, abs_nonneg _⟩

/-- The three fields of a solid–liquid system given to the three-phase routine: liquid `1 - p`, solid `p`, no third
phase. -/
def fields3 (p : Field3) : ℕ → Field3 := fun q =>
  if q = 1 then fun i j k => 1 - p i j k else if q = 2 then p else fun _ _ _ => 0

/-- Their rates. -/
def rates3 (r : Field3) : ℕ → Field3 := fun q =>
  if q = 1 then fun i j k => -r i j k else if q = 2 then r else fun _ _ _ => 0

theorem three_opposite (alpha : ℝ) (g : Grad) (n cl ca dpdt : ℝ) :
    three alpha (-g.1, -g.2.1, -g.2.2) (-n) g cl ca dpdt = -two alpha g n cl ca dpdt := by
  have e : len2 (-g.1, -g.2.1, -g.2.2) = len2 g := by unfold len2; ring
  unfold three two
  rw [e]
  by_cases h : |len2 g| > tol2
  · simp only [if_pos h]
    have hp := sq_pos' g h
    have e2 : -1 * (g.1 * -g.1 + g.2.1 * -g.2.1 + g.2.2 * -g.2.2) / (Real.sqrt (len2 g) * Real.sqrt (len2 g)) = 1 := by
      rw [Real.mul_self_sqrt hp.le, div_eq_one_iff_eq hp.ne']; unfold len2; ring
    rw [e2]; ring
  · simp only [if_neg h, neg_zero]

theorem three_none (alpha : ℝ) (g : Grad) (n cl ca dpdt : ℝ) : three alpha g n (0, 0, 0) cl ca dpdt = 0 := by
  unfold three
  have : ¬ |len2 (0, 0, 0)| > tol2 := by
    unfold len2; simp only [mul_zero, add_zero, abs_zero]; exact not_lt.2 tol2_pos.le
  simp only [if_neg this, ite_self]

/-- **C85**: given the same solid–liquid system, the three-phase routine adds in three dimensions too the opposite
of the current of the two-phase routine, on every face and for all fields. -/
theorem c85_violation_three_phase_sign (dx dy dz alpha : ℝ) (p cl ca cb r f : Field3) (i j k : ℤ) :
    addThreeX dx dy dz alpha (fields3 p) cl ca cb (rates3 r) f i j k - f i j k =
      -(addTwoX dx dy dz alpha p cl ca r f i j k - f i j k) ∧
    addThreeY dx dy dz alpha (fields3 p) cl ca cb (rates3 r) f i j k - f i j k =
      -(addTwoY dx dy dz alpha p cl ca r f i j k - f i j k) ∧
    addThreeZ dx dy dz alpha (fields3 p) cl ca cb (rates3 r) f i j k - f i j k =
      -(addTwoZ dx dy dz alpha p cl ca r f i j k - f i j k) := by
  have f1 : fields3 p 1 = fun i j k => 1 - p i j k := rfl
  have f2 : fields3 p 2 = p := rfl
  have f3 : fields3 p 3 = fun _ _ _ => 0 := rfl
  have r2 : rates3 r 2 = r := rfl
  refine ⟨?_, ?_, ?_⟩
  · have e1 : AntiTrap3.gradX dx dy dz (fields3 p 1) i j k = (-(AntiTrap3.gradX dx dy dz p i j k).1,
        -(AntiTrap3.gradX dx dy dz p i j k).2.1, -(AntiTrap3.gradX dx dy dz p i j k).2.2) := by
      rw [f1]; unfold AntiTrap3.gradX
      refine Prod.ext ?_ (Prod.ext ?_ ?_) <;> ring
    have e3 : AntiTrap3.gradX dx dy dz (fields3 p 3) i j k = (0, 0, 0) := by
      rw [f3]; unfold AntiTrap3.gradX; simp
    unfold addThreeX addTwoX
    simp only [e1, e3, f2, r2, three_opposite, three_none]
    ring
  · have e1 : AntiTrap3.gradY dx dy dz (fields3 p 1) i j k = (-(AntiTrap3.gradY dx dy dz p i j k).1,
        -(AntiTrap3.gradY dx dy dz p i j k).2.1, -(AntiTrap3.gradY dx dy dz p i j k).2.2) := by
      rw [f1]; unfold AntiTrap3.gradY
      refine Prod.ext ?_ (Prod.ext ?_ ?_) <;> ring
    have e3 : AntiTrap3.gradY dx dy dz (fields3 p 3) i j k = (0, 0, 0) := by
      rw [f3]; unfold AntiTrap3.gradY; simp
    unfold addThreeY addTwoY
    simp only [e1, e3, f2, r2, three_opposite, three_none]
    ring
  · have e1 : AntiTrap3.gradZ dx dy dz (fields3 p 1) i j k = (-(AntiTrap3.gradZ dx dy dz p i j k).1,
        -(AntiTrap3.gradZ dx dy dz p i j k).2.1, -(AntiTrap3.gradZ dx dy dz p i j k).2.2) := by
      rw [f1]; unfold AntiTrap3.gradZ
      refine Prod.ext ?_ (Prod.ext ?_ ?_) <;> ring
    have e3 : AntiTrap3.gradZ dx dy dz (fields3 p 3) i j k = (0, 0, 0) := by
      rw [f3]; unfold AntiTrap3.gradZ; simp
    unfold addThreeZ addTwoZ
    simp only [e1, e3, f2, r2, three_opposite, three_none]
    ring

/-- Exchange of the second and third field. -/
def swap23 (p : ℕ → Field3) : ℕ → Field3 := fun q => if q = 2 then p 3 else if q = 3 then p 2 else p q

/-- **C85**: the current does not depend on which of the two solids is called the first. -/
theorem c85_three_phase_symmetric (dx dy dz alpha : ℝ) (p r : ℕ → Field3) (cl ca cb f : Field3) (i j k : ℤ) :
    addThreeX dx dy dz alpha (swap23 p) cl cb ca (swap23 r) f i j k = addThreeX dx dy dz alpha p cl ca cb r f i j k ∧
    addThreeY dx dy dz alpha (swap23 p) cl cb ca (swap23 r) f i j k = addThreeY dx dy dz alpha p cl ca cb r f i j k ∧
    addThreeZ dx dy dz alpha (swap23 p) cl cb ca (swap23 r) f i j k = addThreeZ dx dy dz alpha p cl ca cb r f i j k := by
  have e : ∀ q : ℕ → Field3, swap23 q 1 = q 1 ∧ swap23 q 2 = q 3 ∧ swap23 q 3 = q 2 := fun q => ⟨rfl, rfl, rfl⟩
  refine ⟨?_, ?_, ?_⟩
  · simp only [addThreeX, e]; ring
  · simp only [addThreeY, e]; ring
  · simp only [addThreeZ, e]; ring

/-! ## Three dimensions, several order parameters -/

/-- A solid–liquid system with two order parameters: solid `p`, liquid `1 - p`. -/
def fieldsM (p : Field3) : ℕ → Field3 := fun q => if q = 1 then p else fun i j k => 1 - p i j k

/-- Their rates. -/
def ratesM (r : Field3) : ℕ → Field3 := fun q => if q = 1 then r else fun i j k => -r i j k

theorem plane_quadX (dx dy dz a b g h : ℝ) (i j k : ℤ) (hx : dx ≠ 0) (hy : dy ≠ 0) (hz : dz ≠ 0) :
    quadX dx dy dz (plane3 dx dy dz a b g h) i j k = (b, g / 2, h / 2) := by
  unfold quadX plane3; push_cast
  refine Prod.ext ?_ (Prod.ext ?_ ?_)
  · show _ = b
    field_simp; ring
  · show _ = g / 2
    norm_num
    field_simp; ring
  · show _ = h / 2
    norm_num
    field_simp; ring

theorem plane_quadY (dx dy dz a b g h : ℝ) (i j k : ℤ) (hx : dx ≠ 0) (hy : dy ≠ 0) (hz : dz ≠ 0) :
    quadY dx dy dz (plane3 dx dy dz a b g h) i j k = (b / 2, g, h / 2) := by
  unfold quadY plane3; push_cast
  refine Prod.ext ?_ (Prod.ext ?_ ?_)
  · show _ = b / 2
    norm_num
    field_simp; ring
  · show _ = g
    field_simp; ring
  · show _ = h / 2
    norm_num
    field_simp; ring

theorem plane_quadZ (dx dy dz a b g h : ℝ) (i j k : ℤ) (hx : dx ≠ 0) (hy : dy ≠ 0) (hz : dz ≠ 0) :
    quadZ dx dy dz (plane3 dx dy dz a b g h) i j k = (b / 2, g / 2, h) := by
  unfold quadZ plane3; push_cast
  refine Prod.ext ?_ (Prod.ext ?_ ?_)
  · show _ = b / 2
    norm_num
    field_simp; ring
  · show _ = g / 2
    norm_num
    field_simp; ring
  · show _ = h
    field_simp; ring

theorem liquid_plane (dx dy dz a b g h : ℝ) :
    (fun i j k => 1 - plane3 dx dy dz a b g h i j k) = plane3 dx dy dz (1 - a) (-b) (-g) (-h) := by
  funext i j k; unfold plane3; ring

/-- **C85** (what the multi-order routine does): for a plane front it takes the gradient with its tangential
components halved; on z faces it adds a multiple of the *y* component with the rate of the *y* neighbours, and
only if the x and y components are not both small. -/
theorem c85_multi_plane (dx dy dz alpha a b g h : ℝ) (cl ca r f : Field3) (i j k : ℤ) (hx : dx ≠ 0)
    (hy : dy ≠ 0) (hz : dz ≠ 0) :
    (addMultiX dx dy dz alpha 2 (fieldsM (plane3 dx dy dz a b g h)) cl ca (ratesM r) f i j k =
      f i j k + if tol2 < b * b + g / 2 * (g / 2) + h / 2 * (h / 2) ∧ tol2 < b * b + h / 2 * (h / 2) then
        current alpha b (b * b + g / 2 * (g / 2) + h / 2 * (h / 2)) (avgX cl i j k - avgX ca i j k) (avgX r i j k)
      else 0) ∧
    (addMultiY dx dy dz alpha 2 (fieldsM (plane3 dx dy dz a b g h)) cl ca (ratesM r) f i j k =
      f i j k + if tol2 < b / 2 * (b / 2) + g * g + h / 2 * (h / 2) ∧ tol2 < b / 2 * (b / 2) + g * g then
        current alpha g (b / 2 * (b / 2) + g * g + h / 2 * (h / 2)) (avgY cl i j k - avgY ca i j k) (avgY r i j k)
      else 0) ∧
    (addMultiZ dx dy dz alpha 2 (fieldsM (plane3 dx dy dz a b g h)) cl ca (ratesM r) f i j k =
      f i j k + if tol2 < b / 2 * (b / 2) + g / 2 * (g / 2) + h * h ∧ tol2 < b / 2 * (b / 2) + g / 2 * (g / 2) then
        current alpha (g / 2) (b / 2 * (b / 2) + g / 2 * (g / 2) + h * h) (avgZ cl i j k - avgZ ca i j k)
          (avgY r i j k)
      else 0) := by
  have f1 : fieldsM (plane3 dx dy dz a b g h) 1 = plane3 dx dy dz a b g h := rfl
  have f2 : fieldsM (plane3 dx dy dz a b g h) 2 = plane3 dx dy dz (1 - a) (-b) (-g) (-h) :=
    liquid_plane dx dy dz a b g h
  have r1 : ratesM r 1 = r := rfl
  have s1 : Finset.Icc 1 (2 - 1) = ({1} : Finset ℕ) := rfl
  have s2 : (2 : ℕ) - 1 = 1 := rfl
  refine ⟨?_, ?_, ?_⟩
  · unfold addMultiX
    simp only [s1, Finset.sum_singleton, f1, f2, r1, s2, plane_quadX dx dy dz _ _ _ _ _ _ _ hx hy hz, le_refl,
      if_true]
    have e : len2 (-b, -g / 2, -h / 2) = b * b + g / 2 * (g / 2) + h / 2 * (h / 2) := by unfold len2; ring
    rw [e]
    have e2 : b * b + 0 * 0 + h / 2 * (h / 2) = b * b + h / 2 * (h / 2) := by ring
    rw [e2]
    unfold current
    split_ifs with h1 h2 h3 h4 <;> first | (exfalso; tauto) | ring
  · unfold addMultiY
    simp only [s1, Finset.sum_singleton, f1, f2, r1, plane_quadY dx dy dz _ _ _ _ _ _ _ hx hy hz]
    have e : len2 (-b / 2, -g, -h / 2) = b / 2 * (b / 2) + g * g + h / 2 * (h / 2) := by unfold len2; ring
    rw [e]
    unfold current
    split_ifs with h1 h2 h3 h4 <;> first | (exfalso; tauto) | ring
  · unfold addMultiZ
    simp only [s1, Finset.sum_singleton, f1, f2, r1, plane_quadZ dx dy dz _ _ _ _ _ _ _ hx hy hz]
    have e : len2 (-b / 2, -g / 2, -h) = b / 2 * (b / 2) + g / 2 * (g / 2) + h * h := by unfold len2; ring
    rw [e]
    unfold current
    split_ifs with h1 h2 h3 h4 <;> first | (exfalso; tauto) | ring

/-- **C85, violated**: with several order parameters a front normal to the z axis gets no anti-trapping current
across z faces at all — for any number of order parameters and any profiles and rates. -/
theorem c85_violation_z_front (dx dy dz alpha : ℝ) (n : ℕ) (q : ℕ → ℤ → ℝ) (cl ca : Field3) (r : ℕ → Field3)
    (f : Field3) (i j k : ℤ) :
    addMultiZ dx dy dz alpha n (fun ip _ _ k => q ip k) cl ca r f i j k = f i j k := by
  have e1 : ∀ ip, (quadZ dx dy dz (fun _ _ k => q ip k) i j k).1 = 0 := by
    intro ip; unfold quadZ; ring
  have e2 : ∀ ip, (quadZ dx dy dz (fun _ _ k => q ip k) i j k).2.1 = 0 := by
    intro ip; unfold quadZ; ring
  unfold addMultiZ
  simp only [e1, e2, Finset.sum_const_zero, mul_zero, add_zero, if_neg (not_lt.2 tol2_pos.le), ite_self]

/-- **C85, violated**: on z faces the current vanishes whenever the front has no y component, however the rate and
the compositions are, and otherwise points along the y component: reversing the y component reverses it. -/
theorem c85_violation_z_component (dx dy dz alpha a b g h : ℝ) (cl ca r f : Field3) (i j k : ℤ) (hx : dx ≠ 0)
    (hy : dy ≠ 0) (hz : dz ≠ 0) :
    addMultiZ dx dy dz alpha 2 (fieldsM (plane3 dx dy dz a b 0 h)) cl ca (ratesM r) f i j k = f i j k ∧
    addMultiZ dx dy dz alpha 2 (fieldsM (plane3 dx dy dz a b (-g) h)) cl ca (ratesM r) f i j k - f i j k =
      -(addMultiZ dx dy dz alpha 2 (fieldsM (plane3 dx dy dz a b g h)) cl ca (ratesM r) f i j k - f i j k) := by
  rw [(c85_multi_plane dx dy dz alpha a b 0 h cl ca r f i j k hx hy hz).2.2,
    (c85_multi_plane dx dy dz alpha a b (-g) h cl ca r f i j k hx hy hz).2.2,
    (c85_multi_plane dx dy dz alpha a b g h cl ca r f i j k hx hy hz).2.2]
  have e : -g / 2 * (-g / 2) = g / 2 * (g / 2) := by ring
  rw [e]
  unfold current
  constructor
  · split_ifs <;> ring
  · split_ifs <;> ring

/-- **C85, violated**: on x faces the current of the multi-order routine is the specified one exactly when the
front is normal to x or parallel to it; for an oblique front it is too large. -/
theorem c85_violation_oblique (dx dy dz alpha a b g h : ℝ) (cl ca r f : Field3) (i j k : ℤ) (hx : dx ≠ 0)
    (hy : dy ≠ 0) (hz : dz ≠ 0) (ht : tol2 < b * b + h / 2 * (h / 2))
    (hJ : alpha * (avgX cl i j k - avgX ca i j k) * avgX r i j k ≠ 0) :
    (addMultiX dx dy dz alpha 2 (fieldsM (plane3 dx dy dz a b g h)) cl ca (ratesM r) f i j k =
      addTwoX dx dy dz alpha (plane3 dx dy dz a b g h) cl ca r f i j k ↔ b = 0 ∨ (g = 0 ∧ h = 0)) ∧
    |addTwoX dx dy dz alpha (plane3 dx dy dz a b g h) cl ca r f i j k - f i j k| ≤
      |addMultiX dx dy dz alpha 2 (fieldsM (plane3 dx dy dz a b g h)) cl ca (ratesM r) f i j k - f i j k| := by
  have hg : 0 ≤ g / 2 * (g / 2) := mul_self_nonneg _
  have ht1 : tol2 < b * b + g / 2 * (g / 2) + h / 2 * (h / 2) := by linarith
  have ht2 : tol2 < b * b + g * g + h * h := by nlinarith [mul_self_nonneg g, mul_self_nonneg h]
  rw [(c85_multi_plane dx dy dz alpha a b g h cl ca r f i j k hx hy hz).1, if_pos ⟨ht1, ht⟩]
  have hn : |len2 (b, g, h)| > tol2 := lt_of_lt_of_le ht2 (le_abs_self _)
  have e2 : addTwoX dx dy dz alpha (plane3 dx dy dz a b g h) cl ca r f i j k =
      f i j k + current alpha b (b * b + g * g + h * h) (avgX cl i j k - avgX ca i j k) (avgX r i j k) := by
    unfold addTwoX two current
    simp only [plane_gradX dx dy dz a b g h _ _ _ hx hy hz, if_pos hn]
    rfl
  rw [e2]
  have hA : 0 < b * b + g / 2 * (g / 2) + h / 2 * (h / 2) := lt_trans tol2_pos ht1
  have hB : 0 < b * b + g * g + h * h := lt_trans tol2_pos ht2
  have hAB : b * b + g / 2 * (g / 2) + h / 2 * (h / 2) ≤ b * b + g * g + h * h := by
    nlinarith [mul_self_nonneg g, mul_self_nonneg h]
  have hsA := Real.sqrt_pos.2 hA
  have hsB := Real.sqrt_pos.2 hB
  have hle := Real.sqrt_le_sqrt hAB
  unfold current
  constructor
  · constructor
    · intro he
      by_contra hc
      push Not at hc
      obtain ⟨hb, hgh⟩ := hc
      have h1 : alpha * (avgX cl i j k - avgX ca i j k) * avgX r i j k *
          (b / Real.sqrt (b * b + g / 2 * (g / 2) + h / 2 * (h / 2)) - b / Real.sqrt (b * b + g * g + h * h)) = 0 := by
        linear_combination he
      have h2 := (mul_eq_zero.1 h1).resolve_left hJ
      have h3 : Real.sqrt (b * b + g / 2 * (g / 2) + h / 2 * (h / 2)) = Real.sqrt (b * b + g * g + h * h) := by
        have h4 := sub_eq_zero.1 h2
        rw [div_eq_div_iff hsA.ne' hsB.ne'] at h4
        exact (mul_left_cancel₀ hb h4).symm
      have h5 := (Real.sqrt_inj hA.le hB.le).1 h3
      have h6 : g = 0 := by
        by_contra hg0
        nlinarith [mul_self_pos.2 hg0, mul_self_nonneg h]
      have h7 : h = 0 := by
        by_contra hh0
        nlinarith [mul_self_pos.2 hh0, mul_self_nonneg g]
      exact hgh h6 h7
    · rintro (hb | ⟨h1, h2⟩)
      · rw [hb]; simp
      · rw [h1, h2]; simp
  · have e3 : ∀ N : ℝ, f i j k + alpha * (b / N) * (avgX cl i j k - avgX ca i j k) * avgX r i j k - f i j k =
        (alpha * (avgX cl i j k - avgX ca i j k) * avgX r i j k) * (b / N) := by intro N; ring
    rw [e3, e3, abs_mul (_ * _ * _) (_ / _), abs_mul (_ * _ * _) (_ / _), abs_div b, abs_div b, abs_of_pos hsA,
      abs_of_pos hsB]
    exact mul_le_mul_of_nonneg_left (div_le_div_of_nonneg_left (abs_nonneg _) hsA hle) (abs_nonneg _)

/-- **C85, partial**: fronts normal to x or normal to y do get the specified current from the multi-order
routine. -/
theorem c85_multi_axis_partial (dx dy dz alpha a s : ℝ) (cl ca r f : Field3) (i j k : ℤ) (hx : dx ≠ 0)
    (hy : dy ≠ 0) (hz : dz ≠ 0) (hs : tol2 < s * s) :
    addMultiX dx dy dz alpha 2 (fieldsM (plane3 dx dy dz a s 0 0)) cl ca (ratesM r) f i j k =
      f i j k + current alpha s (s * s) (avgX cl i j k - avgX ca i j k) (avgX r i j k) ∧
    addMultiY dx dy dz alpha 2 (fieldsM (plane3 dx dy dz a 0 s 0)) cl ca (ratesM r) f i j k =
      f i j k + current alpha s (s * s) (avgY cl i j k - avgY ca i j k) (avgY r i j k) := by
  rw [(c85_multi_plane dx dy dz alpha a s 0 0 cl ca r f i j k hx hy hz).1,
    (c85_multi_plane dx dy dz alpha a 0 s 0 cl ca r f i j k hx hy hz).2.1]
  have e1 : s * s + 0 / 2 * (0 / 2) + 0 / 2 * (0 / 2) = s * s := by ring
  have e2 : s * s + 0 / 2 * (0 / 2) = s * s := by ring
  have e3 : 0 / 2 * (0 / 2) + s * s + 0 / 2 * (0 / 2) = s * s := by ring
  have e4 : 0 / 2 * (0 / 2) + s * s = s * s := by ring
  rw [e1, e2, e3, e4, if_pos ⟨hs, hs⟩, if_pos ⟨hs, hs⟩]
  exact ⟨rfl, rfl⟩

/-! ## Non-vacuity -/

/-- A front normal to z moving at unit rate with unit jump: the two-phase routine adds `alpha`, the multi-order
one nothing. -/
example (alpha : ℝ) :
    addTwoZ 1 1 1 alpha (plane3 1 1 1 0 0 0 1) (fun _ _ _ => 1) (fun _ _ _ => 0) (fun _ _ _ => 1)
      (fun _ _ _ => 0) 0 0 0 = alpha ∧
    addMultiZ 1 1 1 alpha 2 (fieldsM (plane3 1 1 1 0 0 0 1)) (fun _ _ _ => 1) (fun _ _ _ => 0)
      (ratesM fun _ _ _ => 1) (fun _ _ _ => 0) 0 0 0 = 0 := by
  constructor
  · rw [(c85_two_phase_plane 1 1 1 alpha 0 0 0 1 _ _ _ _ 0 0 0 one_ne_zero one_ne_zero one_ne_zero
      (by unfold tol2; norm_num)).2.2]
    unfold current; norm_num
  · have := (c85_violation_z_component 1 1 1 alpha 0 0 0 1 (fun _ _ _ => 1) (fun _ _ _ => 0) (fun _ _ _ => 1)
      (fun _ _ _ => 0) 0 0 0 one_ne_zero one_ne_zero one_ne_zero).1
    exact this

/-- An oblique front meets the hypotheses of `c85_violation_oblique`. -/
example : addMultiX 1 1 1 1 2 (fieldsM (plane3 1 1 1 0 1 1 0)) (fun _ _ _ => 1) (fun _ _ _ => 0)
      (ratesM fun _ _ _ => 1) (fun _ _ _ => 0) 0 0 0 ≠
    addTwoX 1 1 1 1 (plane3 1 1 1 0 1 1 0) (fun _ _ _ => 1) (fun _ _ _ => 0) (fun _ _ _ => 1)
      (fun _ _ _ => 0) 0 0 0 := by
  intro he
  have := ((c85_violation_oblique 1 1 1 1 0 1 1 0 (fun _ _ _ => 1) (fun _ _ _ => 0) (fun _ _ _ => 1)
    (fun _ _ _ => 0) 0 0 0 one_ne_zero one_ne_zero one_ne_zero (by unfold tol2; norm_num)
    (by unfold AntiTrap3.avgX; norm_num)).1).1 he
  simp at this

end AMPE.AntiTrap.Props
