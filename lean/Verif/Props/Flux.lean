import Verif.Model.Flux
import Mathlib.Algebra.BigOperators.Ring.Finset
import Mathlib.Algebra.Order.BigOperators.Group.Finset
import Mathlib.Algebra.BigOperators.Group.List.Basic
import Mathlib.Analysis.Calculus.Deriv.Pow
import Mathlib.Analysis.Calculus.Deriv.Mul
import Mathlib.Analysis.Calculus.Deriv.Add
import Mathlib.Tactic.Linarith
import Mathlib.Tactic.Ring
import Mathlib.Tactic.NormNum
import Mathlib.Tactic.Positivity
import Mathlib.Tactic.FieldSimp
import Mathlib.Tactic.LinearCombination

/-!
# C31, C32, C50, C51, C52
-/

namespace AMPE.Flux.Props

open AMPE.Flux

/-! ## C32 -/

/-- **C32**: matrix entries are addressed without collision: slots are `1..depth²`. -/
theorem c32_slot (depth i j i' j' : ℕ) (hi : 1 ≤ i ∧ i ≤ depth) (hj : 1 ≤ j ∧ j ≤ depth) (hi' : 1 ≤ i' ∧ i' ≤ depth)
    (hj' : 1 ≤ j' ∧ j' ≤ depth) :
    (slot depth i j = slot depth i' j' ↔ i = i' ∧ j = j') ∧ 1 ≤ slot depth i j ∧ slot depth i j ≤ depth * depth := by
  unfold slot
  refine ⟨⟨fun h => ?_, fun h => by rw [h.1, h.2]⟩, ?_, ?_⟩
  · obtain ⟨j, rfl⟩ : ∃ k, j = k + 1 := ⟨j - 1, by omega⟩
    obtain ⟨j', rfl⟩ : ∃ k, j' = k + 1 := ⟨j' - 1, by omega⟩
    simp only [Nat.add_sub_cancel] at h
    have hjj : j = j' := by
      rcases lt_trichotomy j j' with hlt | he | hlt
      · have : (j + 1) * depth ≤ j' * depth := Nat.mul_le_mul_right _ hlt
        have : (j + 1) * depth = j * depth + depth := by ring
        omega
      · exact he
      · have : (j' + 1) * depth ≤ j * depth := Nat.mul_le_mul_right _ hlt
        have : (j' + 1) * depth = j' * depth + depth := by ring
        omega
    subst hjj
    omega
  · omega
  · obtain ⟨j, rfl⟩ : ∃ k, j = k + 1 := ⟨j - 1, by omega⟩
    simp only [Nat.add_sub_cancel]
    have : (j + 1) * depth ≤ depth * depth := Nat.mul_le_mul_right _ hj.2
    have : (j + 1) * depth = j * depth + depth := by ring
    omega

/-- **C32**: uniform data add nothing to any flux, 2D and 3D, every scheme, every diffusion matrix. -/
theorem c32_uniform (h : ℝ) (depth i : ℕ) (u : ℕ → ℝ) (d f : ℕ → Field2) (first last : ℤ) (pl ph : Bool)
    (d3 f3 : ℕ → Field3) :
    addFluxX h depth (fun j _ _ => u j) d f i = f i ∧ addFluxY h depth (fun j _ _ => u j) d f i = f i ∧
    addFluxIsoX h depth (fun j _ _ => u j) d f i = f i ∧ addFluxIsoY h depth (fun j _ _ => u j) d f i = f i ∧
    addFlux4X first last pl ph h depth (fun j _ _ => u j) d f i = f i ∧
    addFlux4Y first last pl ph h depth (fun j _ _ => u j) d f i = f i ∧
    addFlux3X h depth (fun j _ _ _ => u j) d3 f3 i = f3 i ∧ addFlux3Y h depth (fun j _ _ _ => u j) d3 f3 i = f3 i ∧
    addFlux3Z h depth (fun j _ _ _ => u j) d3 f3 i = f3 i ∧
    addFluxIso3X h depth (fun j _ _ _ => u j) d3 f3 i = f3 i ∧
    addFluxIso3Y h depth (fun j _ _ _ => u j) d3 f3 i = f3 i ∧
    addFluxIso3Z h depth (fun j _ _ _ => u j) d3 f3 i = f3 i := by
  refine ⟨?_, ?_, ?_, ?_, ?_, ?_, ?_, ?_, ?_, ?_, ?_, ?_⟩
  · funext a b; simp [addFluxX]
  · funext a b; simp [addFluxY]
  · funext a b; simp [addFluxIsoX]
  · funext a b; simp [addFluxIsoY]
  · funext a b; simp [addFlux4X]
  · funext a b; simp [addFlux4Y]
  · funext a b c; simp [addFlux3X]
  · funext a b c; simp [addFlux3Y]
  · funext a b c; simp [addFlux3Z]
  · funext a b c; simp [addFluxIso3X]
  · funext a b c; simp [addFluxIso3Y]
  · funext a b c; simp [addFluxIso3Z]

/-- **C32**: the increment is linear in the data. -/
theorem c32_linear (h : ℝ) (depth i : ℕ) (u v : ℕ → Field2) (s t : ℝ) (d f : ℕ → Field2) (first last : ℤ)
    (pl ph : Bool) (a b : ℤ) :
    let w : ℕ → Field2 := fun j a b => s * u j a b + t * v j a b
    (addFluxX h depth w d f i a b - f i a b = s * (addFluxX h depth u d f i a b - f i a b)
      + t * (addFluxX h depth v d f i a b - f i a b)) ∧
    (addFluxY h depth w d f i a b - f i a b = s * (addFluxY h depth u d f i a b - f i a b)
      + t * (addFluxY h depth v d f i a b - f i a b)) ∧
    (addFluxIsoX h depth w d f i a b - f i a b = s * (addFluxIsoX h depth u d f i a b - f i a b)
      + t * (addFluxIsoX h depth v d f i a b - f i a b)) ∧
    (addFluxIsoY h depth w d f i a b - f i a b = s * (addFluxIsoY h depth u d f i a b - f i a b)
      + t * (addFluxIsoY h depth v d f i a b - f i a b)) ∧
    (addFlux4X first last pl ph h depth w d f i a b - f i a b
      = s * (addFlux4X first last pl ph h depth u d f i a b - f i a b)
      + t * (addFlux4X first last pl ph h depth v d f i a b - f i a b)) ∧
    (addFlux4Y first last pl ph h depth w d f i a b - f i a b
      = s * (addFlux4Y first last pl ph h depth u d f i a b - f i a b)
      + t * (addFlux4Y first last pl ph h depth v d f i a b - f i a b)) := by
  intro w
  simp only [addFluxX, addFluxY, addFluxIsoX, addFluxIsoY, addFlux4X, addFlux4Y, add_sub_cancel_left,
    Finset.mul_sum, ← Finset.sum_add_distrib, w]
  refine ⟨?_, ?_, ?_, ?_, ?_, ?_⟩ <;> refine Finset.sum_congr rfl fun j _ => ?_
  · ring
  · ring
  · ring
  · ring
  · split_ifs <;> ring
  · split_ifs <;> ring

/-- **C32**: for one component and a non-negative coefficient the second-order flux has the sign of the
difference across the face (the transported quantity moves downhill, as the rate is `+div flux`). -/
theorem c32_downhill (h : ℝ) (hh : 0 < h) (u d f : ℕ → Field2) (hd : ∀ a b, 0 ≤ d 1 a b) (a b : ℤ) :
    0 ≤ (addFluxX h 1 u d f 1 a b - f 1 a b) * (u 1 a b - u 1 (a - 1) b) ∧
    0 ≤ (addFluxY h 1 u d f 1 a b - f 1 a b) * (u 1 a b - u 1 a (b - 1)) := by
  have hs : slot 1 1 1 = 1 := rfl
  simp only [addFluxX, addFluxY, add_sub_cancel_left, Finset.Icc_self, Finset.sum_singleton, hs]
  have := hd a b
  constructor
  · have e : 1 / h * d 1 a b * (u 1 a b - u 1 (a - 1) b) * (u 1 a b - u 1 (a - 1) b) =
      1 / h * d 1 a b * (u 1 a b - u 1 (a - 1) b) ^ 2 := by ring
    rw [e]; positivity
  · have e : 1 / h * d 1 a b * (u 1 a b - u 1 a (b - 1)) * (u 1 a b - u 1 a (b - 1)) =
      1 / h * d 1 a b * (u 1 a b - u 1 a (b - 1)) ^ 2 := by ring
    rw [e]; positivity

/-- Point value of a quadratic in two variables at the centre of cell `(i, j)`. -/
noncomputable def quad (c0 cx cy cxx cxy cyy hx hy : ℝ) : Field2 := fun i j =>
  let x := ((i : ℝ) + 1 / 2) * hx
  let y := ((j : ℝ) + 1 / 2) * hy
  c0 + cx * x + cy * y + cxx * x ^ 2 + cxy * x * y + cyy * y ^ 2

/-- **C32**: with a constant coefficient `D` the second-order and isotropic x fluxes of any quadratic are
`D` times its exact x derivative at the face centre; same in y. -/
theorem c32_exact_quadratic (c0 cx cy cxx cxy cyy hx hy D : ℝ) (hhx : hx ≠ 0) (hhy : hy ≠ 0) (f : ℕ → Field2)
    (i j : ℤ) :
    let u : ℕ → Field2 := fun _ => quad c0 cx cy cxx cxy cyy hx hy
    let d : ℕ → Field2 := fun _ _ _ => D
    let gx := cx + 2 * cxx * ((i : ℝ) * hx) + cxy * (((j : ℝ) + 1 / 2) * hy)
    let gy := cy + 2 * cyy * ((j : ℝ) * hy) + cxy * (((i : ℝ) + 1 / 2) * hx)
    addFluxX hx 1 u d f 1 i j = f 1 i j + D * gx ∧ addFluxIsoX hx 1 u d f 1 i j = f 1 i j + D * gx ∧
    addFluxY hy 1 u d f 1 i j = f 1 i j + D * gy ∧ addFluxIsoY hy 1 u d f 1 i j = f 1 i j + D * gy := by
  intro u d gx gy
  simp only [addFluxX, addFluxY, addFluxIsoX, addFluxIsoY, Finset.Icc_self, Finset.sum_singleton, u, d, quad, gx, gy]
  push_cast
  refine ⟨?_, ?_, ?_, ?_⟩ <;> (field_simp; ring)

/-- **C32**: the fourth-order flux is exact on cell averages of quartics: for every quintic `P` and data
`(P(x+h) - P(x)) / h` (the cell averages of `P'`), it is `D` times `P''` at the face `x = i h`. -/
theorem c32_exact_quartic_averages (p1 p2 p3 p4 p5 h D : ℝ) (hh : h ≠ 0) (first last i j : ℤ) (f : ℕ → Field2) :
    let P : ℝ → ℝ := fun x => p1 * x + p2 * x ^ 2 + p3 * x ^ 3 + p4 * x ^ 4 + p5 * x ^ 5
    let P2 : ℝ → ℝ := fun x => 2 * p2 + 6 * p3 * x + 12 * p4 * x ^ 2 + 20 * p5 * x ^ 3
    let avg : ℤ → ℝ := fun i => (P (((i : ℝ) + 1) * h) - P ((i : ℝ) * h)) / h
    addFlux4X first last false false h 1 (fun _ a _ => avg a) (fun _ _ _ => D) f 1 i j
      = f 1 i j + D * P2 ((i : ℝ) * h) ∧
    addFlux4Y first last false false h 1 (fun _ _ b => avg b) (fun _ _ _ => D) f 1 i j
      = f 1 i j + D * P2 ((j : ℝ) * h) := by
  intro P P2 avg
  simp only [addFlux4X, addFlux4Y, Finset.Icc_self, Finset.sum_singleton, avg, P, P2, Bool.false_eq_true, false_and,
    or_self, if_false]
  push_cast
  constructor <;> (field_simp; ring)

/-- `P2` in `c32_exact_quartic_averages` is the second derivative of `P`. -/
theorem c32_quartic_spec (p1 p2 p3 p4 p5 x : ℝ) :
    HasDerivAt (fun x : ℝ => p1 * x + p2 * x ^ 2 + p3 * x ^ 3 + p4 * x ^ 4 + p5 * x ^ 5)
      (p1 + 2 * p2 * x + 3 * p3 * x ^ 2 + 4 * p4 * x ^ 3 + 5 * p5 * x ^ 4) x ∧
    HasDerivAt (fun x : ℝ => p1 + 2 * p2 * x + 3 * p3 * x ^ 2 + 4 * p4 * x ^ 3 + 5 * p5 * x ^ 4)
      (2 * p2 + 6 * p3 * x + 12 * p4 * x ^ 2 + 20 * p5 * x ^ 3) x := by
  constructor
  · refine ((((((hasDerivAt_id x).const_mul p1).add (((hasDerivAt_id x).pow 2).const_mul p2)).add
      (((hasDerivAt_id x).pow 3).const_mul p3)).add (((hasDerivAt_id x).pow 4).const_mul p4)).add
      (((hasDerivAt_id x).pow 5).const_mul p5)).congr_deriv ?_
    simp only [id]; push_cast; ring
  · refine ((((hasDerivAt_const x p1).add ((hasDerivAt_id x).const_mul (2 * p2))).add
      (((hasDerivAt_id x).pow 2).const_mul (3 * p3))).add (((hasDerivAt_id x).pow 3).const_mul (4 * p4))).add
      (((hasDerivAt_id x).pow 4).const_mul (5 * p5)) |>.congr_deriv ?_
    simp only [id]; push_cast; ring

/-- **C32**: on point values the fourth-order formula is exact up to quadratics, and on a cubic it is off by
exactly `-a h^2 / 4` times the coefficient: it is a cell-average formula. -/
theorem c32_point_values (a0 a1 a2 a3 h D : ℝ) (hh : h ≠ 0) (first last i j : ℤ) (f : ℕ → Field2) :
    let p : ℝ → ℝ := fun x => a0 + a1 * x + a2 * x ^ 2 + a3 * x ^ 3
    let x : ℝ := (i : ℝ) * h
    addFlux4X first last false false h 1 (fun _ a _ => p (((a : ℝ) + 1 / 2) * h)) (fun _ _ _ => D) f 1 i j
      = f 1 i j + D * (a1 + 2 * a2 * x + 3 * a3 * x ^ 2) - D * a3 * h ^ 2 / 4 := by
  intro p x
  simp only [addFlux4X, Finset.Icc_self, Finset.sum_singleton, p, x, Bool.false_eq_true, false_and,
    or_self, if_false]
  push_cast
  field_simp
  ring

/-- **C32**: on faces of the physical boundary the fourth-order scheme is the second-order one; elsewhere
it does not depend on the patch. -/
theorem c32_boundary (first last : ℤ) (pl ph : Bool) (h : ℝ) (depth i : ℕ) (u d f : ℕ → Field2) (a b : ℤ) :
    ((pl = true ∧ a = first) ∨ (ph = true ∧ a = last + 1) →
      addFlux4X first last pl ph h depth u d f i a b = addFluxX h depth u d f i a b) ∧
    (¬((pl = true ∧ a = first) ∨ (ph = true ∧ a = last + 1)) →
      addFlux4X first last pl ph h depth u d f i a b = addFlux4X a a false false h depth u d f i a b) ∧
    ((pl = true ∧ b = first) ∨ (ph = true ∧ b = last + 1) →
      addFlux4Y first last pl ph h depth u d f i a b = addFluxY h depth u d f i a b) ∧
    (¬((pl = true ∧ b = first) ∨ (ph = true ∧ b = last + 1)) →
      addFlux4Y first last pl ph h depth u d f i a b = addFlux4Y b b false false h depth u d f i a b) := by
  refine ⟨fun hb => ?_, fun hb => ?_, fun hb => ?_, fun hb => ?_⟩
  · simp only [addFlux4X, addFluxX, if_pos hb]
    congr 1
    exact Finset.sum_congr rfl fun j _ => by ring
  · simp only [addFlux4X, if_neg hb, Bool.false_eq_true, false_and, or_self, if_false]
  · simp only [addFlux4Y, addFluxY, if_pos hb]
    congr 1
    exact Finset.sum_congr rfl fun j _ => by ring
  · simp only [addFlux4Y, if_neg hb, Bool.false_eq_true, false_and, or_self, if_false]

/-! ## C31 -/

theorem telescope (f : ℤ → ℝ) (lo : ℤ) (n : ℕ) :
    ∑ a ∈ Finset.range n, (f (lo + (a : ℤ) + 1) - f (lo + (a : ℤ))) = f (lo + n) - f lo := by
  have := Finset.sum_range_sub (fun a : ℕ => f (lo + (a : ℤ))) n
  simp only [Nat.cast_add, Nat.cast_one, Nat.cast_zero, add_zero] at this
  rw [← this]
  exact Finset.sum_congr rfl fun a _ => by rw [add_assoc]

/-- **C31**: summed over any 2D block, the rate times the cell volume is the mobility times the net flux
through the outer faces. -/
theorem c31_block_2d (dx dy mob : ℝ) (hx : dx ≠ 0) (hy : dy ≠ 0) (F G : Field2) (lo0 lo1 : ℤ) (n m : ℕ) :
    ∑ a ∈ Finset.range n, ∑ b ∈ Finset.range m, rhs2 dx dy mob F G (lo0 + (a : ℤ)) (lo1 + (b : ℤ)) * (dx * dy) =
      mob * (∑ b ∈ Finset.range m, (F (lo0 + n) (lo1 + (b : ℤ)) - F lo0 (lo1 + (b : ℤ))) * dy
        + ∑ a ∈ Finset.range n, (G (lo0 + (a : ℤ)) (lo1 + m) - G (lo0 + (a : ℤ)) lo1) * dx) := by
  have e : ∀ a b : ℤ, rhs2 dx dy mob F G a b * (dx * dy) =
      mob * (dy * (F (a + 1) b - F a b)) + mob * (dx * (G a (b + 1) - G a b)) := by
    intro a b; unfold rhs2; field_simp
  simp only [e, Finset.sum_add_distrib, ← Finset.mul_sum]
  have h1 : ∑ a ∈ Finset.range n, ∑ b ∈ Finset.range m,
      (F (lo0 + (a : ℤ) + 1) (lo1 + (b : ℤ)) - F (lo0 + (a : ℤ)) (lo1 + (b : ℤ))) =
      ∑ b ∈ Finset.range m, (F (lo0 + n) (lo1 + (b : ℤ)) - F lo0 (lo1 + (b : ℤ))) := by
    rw [Finset.sum_comm]
    exact Finset.sum_congr rfl fun b _ => telescope (fun z => F z _) lo0 n
  have h2 : ∑ a ∈ Finset.range n, ∑ b ∈ Finset.range m,
      (G (lo0 + (a : ℤ)) (lo1 + (b : ℤ) + 1) - G (lo0 + (a : ℤ)) (lo1 + (b : ℤ))) =
      ∑ a ∈ Finset.range n, (G (lo0 + (a : ℤ)) (lo1 + m) - G (lo0 + (a : ℤ)) lo1) :=
    Finset.sum_congr rfl fun a _ => telescope (fun z => G _ z) lo1 m
  rw [h1, h2]
  simp only [← Finset.sum_mul]
  ring

/-- **C31**: same in 3D. -/
theorem c31_block_3d (dx dy dz mob : ℝ) (hx : dx ≠ 0) (hy : dy ≠ 0) (hz : dz ≠ 0) (F G H : Field3)
    (lo0 lo1 lo2 : ℤ) (n m l : ℕ) :
    ∑ a ∈ Finset.range n, ∑ b ∈ Finset.range m, ∑ c ∈ Finset.range l,
        rhs3 dx dy dz mob F G H (lo0 + (a : ℤ)) (lo1 + (b : ℤ)) (lo2 + (c : ℤ)) * (dx * dy * dz) =
      mob * (∑ b ∈ Finset.range m, ∑ c ∈ Finset.range l,
          (F (lo0 + n) (lo1 + (b : ℤ)) (lo2 + (c : ℤ)) - F lo0 (lo1 + (b : ℤ)) (lo2 + (c : ℤ))) * (dy * dz)
        + ∑ a ∈ Finset.range n, ∑ c ∈ Finset.range l,
          (G (lo0 + (a : ℤ)) (lo1 + m) (lo2 + (c : ℤ)) - G (lo0 + (a : ℤ)) lo1 (lo2 + (c : ℤ))) * (dx * dz)
        + ∑ a ∈ Finset.range n, ∑ b ∈ Finset.range m,
          (H (lo0 + (a : ℤ)) (lo1 + (b : ℤ)) (lo2 + l) - H (lo0 + (a : ℤ)) (lo1 + (b : ℤ)) lo2) * (dx * dy)) := by
  have e : ∀ a b c : ℤ, rhs3 dx dy dz mob F G H a b c * (dx * dy * dz) =
      mob * (dy * dz * (F (a + 1) b c - F a b c)) + mob * (dx * dz * (G a (b + 1) c - G a b c))
        + mob * (dx * dy * (H a b (c + 1) - H a b c)) := by
    intro a b c; unfold rhs3; field_simp
  simp only [e, Finset.sum_add_distrib, ← Finset.mul_sum]
  have h1 : ∑ a ∈ Finset.range n, ∑ b ∈ Finset.range m, ∑ c ∈ Finset.range l,
      (F (lo0 + (a : ℤ) + 1) (lo1 + (b : ℤ)) (lo2 + (c : ℤ)) - F (lo0 + (a : ℤ)) (lo1 + (b : ℤ)) (lo2 + (c : ℤ))) =
      ∑ b ∈ Finset.range m, ∑ c ∈ Finset.range l,
        (F (lo0 + n) (lo1 + (b : ℤ)) (lo2 + (c : ℤ)) - F lo0 (lo1 + (b : ℤ)) (lo2 + (c : ℤ))) := by
    rw [Finset.sum_comm]
    refine Finset.sum_congr rfl fun b _ => ?_
    rw [Finset.sum_comm]
    exact Finset.sum_congr rfl fun c _ => telescope (fun z => F z _ _) lo0 n
  have h2 : ∑ a ∈ Finset.range n, ∑ b ∈ Finset.range m, ∑ c ∈ Finset.range l,
      (G (lo0 + (a : ℤ)) (lo1 + (b : ℤ) + 1) (lo2 + (c : ℤ)) - G (lo0 + (a : ℤ)) (lo1 + (b : ℤ)) (lo2 + (c : ℤ))) =
      ∑ a ∈ Finset.range n, ∑ c ∈ Finset.range l,
        (G (lo0 + (a : ℤ)) (lo1 + m) (lo2 + (c : ℤ)) - G (lo0 + (a : ℤ)) lo1 (lo2 + (c : ℤ))) := by
    refine Finset.sum_congr rfl fun a _ => ?_
    rw [Finset.sum_comm]
    exact Finset.sum_congr rfl fun c _ => telescope (fun z => G _ z _) lo1 m
  have h3 : ∑ a ∈ Finset.range n, ∑ b ∈ Finset.range m, ∑ c ∈ Finset.range l,
      (H (lo0 + (a : ℤ)) (lo1 + (b : ℤ)) (lo2 + (c : ℤ) + 1) - H (lo0 + (a : ℤ)) (lo1 + (b : ℤ)) (lo2 + (c : ℤ))) =
      ∑ a ∈ Finset.range n, ∑ b ∈ Finset.range m,
        (H (lo0 + (a : ℤ)) (lo1 + (b : ℤ)) (lo2 + l) - H (lo0 + (a : ℤ)) (lo1 + (b : ℤ)) lo2) := by
    refine Finset.sum_congr rfl fun a _ => Finset.sum_congr rfl fun b _ => telescope (fun z => H _ _ z) lo2 l
  rw [h1, h2, h3]
  simp only [← Finset.sum_mul]
  ring

/-- **C31**: nothing is created in a periodic domain or with zero boundary flux (2D). -/
theorem c31_conserved_2d (dx dy mob : ℝ) (hx : dx ≠ 0) (hy : dy ≠ 0) (F G : Field2) (lo0 lo1 : ℤ) (n m : ℕ)
    (hF : ∀ b, F (lo0 + n) b = F lo0 b) (hG : ∀ a, G a (lo1 + m) = G a lo1) :
    ∑ a ∈ Finset.range n, ∑ b ∈ Finset.range m, rhs2 dx dy mob F G (lo0 + (a : ℤ)) (lo1 + (b : ℤ)) * (dx * dy) = 0 := by
  rw [c31_block_2d dx dy mob hx hy]
  simp [hF, hG]

/-- **C31**: nothing is created in a periodic domain or with zero boundary flux (3D). -/
theorem c31_conserved_3d (dx dy dz mob : ℝ) (hx : dx ≠ 0) (hy : dy ≠ 0) (hz : dz ≠ 0) (F G H : Field3)
    (lo0 lo1 lo2 : ℤ) (n m l : ℕ) (hF : ∀ b c, F (lo0 + n) b c = F lo0 b c) (hG : ∀ a c, G a (lo1 + m) c = G a lo1 c)
    (hH : ∀ a b, H a b (lo2 + l) = H a b lo2) :
    ∑ a ∈ Finset.range n, ∑ b ∈ Finset.range m, ∑ c ∈ Finset.range l,
        rhs3 dx dy dz mob F G H (lo0 + (a : ℤ)) (lo1 + (b : ℤ)) (lo2 + (c : ℤ)) * (dx * dy * dz) = 0 := by
  rw [c31_block_3d dx dy dz mob hx hy hz]
  simp [hF, hG, hH]

/-- Periodicity of a cell field in direction 0. -/
def PerX (n : ℤ) (u : Field2) : Prop := ∀ a b, u (a + n) b = u a b

/-- **C31**: every x-face contribution of the composition equation is periodic if the cell data are (so the
hypothesis of `c31_conserved_2d` is met): second-order, isotropic and fourth-order diffusion, phase
coupling, thermal gradient and the three anti-trapping currents. -/
theorem c31_periodic_contributions (n : ℤ) (dx dy alpha : ℝ) (depth no i : ℕ) (u d f : ℕ → Field2)
    (first last : ℤ) (conc phi diff coupl temp mq sT cl ca cb dph fl : Field2) (ph dp : ℕ → Field2)
    (hu : ∀ j, PerX n (u j)) (hd : ∀ j, PerX n (d j)) (hf : ∀ j, PerX n (f j))
    (h1 : PerX n conc) (h2 : PerX n phi) (h3 : PerX n diff) (h4 : PerX n coupl) (h5 : PerX n temp) (h6 : PerX n mq)
    (h7 : PerX n sT) (h8 : PerX n cl) (h9 : PerX n ca) (h10 : PerX n cb) (h11 : PerX n dph) (h12 : PerX n fl)
    (h13 : ∀ j, PerX n (ph j)) (h14 : ∀ j, PerX n (dp j)) :
    PerX n (addFluxX dx depth u d f i) ∧ PerX n (addFluxIsoX dx depth u d f i) ∧
    PerX n (addFlux4X first last false false dx depth u d f i) ∧
    PerX n (concentrationFluxX dx conc phi diff coupl) ∧ PerX n (addGradTX dx temp mq sT fl) ∧
    PerX n (addAntitrap2X dx dy alpha phi cl ca dph fl) ∧ PerX n (addAntitrap3X dx dy alpha ph cl ca cb dp fl) ∧
    PerX n (addAntitrapMultiX dx dy alpha no ph cl ca dp fl) := by
  have sh : ∀ v : Field2, PerX n v → ∀ a b c : ℤ, v (a + n - c) b = v (a - c) b := by
    intro v hv a b c
    rw [show a + n - c = (a - c) + n by ring]; exact hv _ _
  have sh' : ∀ v : Field2, PerX n v → ∀ a b c : ℤ, v (a + n + c) b = v (a + c) b := by
    intro v hv a b c
    rw [show a + n + c = (a + c) + n by ring]; exact hv _ _
  have hg : ∀ v : Field2, PerX n v → ∀ a b, gradX dx dy v (a + n) b = gradX dx dy v a b := by
    intro v hv a b; unfold gradX; simp only [sh v hv, hv a]
  have ha : ∀ v : Field2, PerX n v → ∀ a b, avgX v (a + n) b = avgX v a b := by
    intro v hv a b; unfold avgX; simp only [sh v hv, hv a]
  refine ⟨?_, ?_, ?_, ?_, ?_, ?_, ?_, ?_⟩ <;> intro a b
  · simp only [addFluxX, hf i a, fun j => hd j a, fun j => hu j a, fun j => sh (u j) (hu j)]
  · simp only [addFluxIsoX, hf i a, fun j => hd j a, fun j => hu j a, fun j => sh (u j) (hu j)]
  · simp only [addFlux4X, hf i a, fun j => hd j a, fun j => hu j a, fun j => sh (u j) (hu j),
      fun j => sh' (u j) (hu j), Bool.false_eq_true, false_and, or_self, if_false]
  · simp only [concentrationFluxX, h1 a, h2 a, h3 a, h4 a, sh conc h1, sh phi h2]
  · simp only [addGradTX, h5 a, h6 a, h7 a, h12 a, sh temp h5]
  · simp only [addAntitrap2X, h12 a, hg phi h2, ha cl h8, ha ca h9, ha dph h11]
  · simp only [addAntitrap3X, h12 a, fun j => hg (ph j) (h13 j), ha cl h8, ha ca h9, ha cb h10,
      fun j => ha (dp j) (h14 j)]
  · simp only [addAntitrapMultiX, h12 a, fun j => hg (ph j) (h13 j), ha cl h8, ha ca h9,
      fun j => ha (dp j) (h14 j)]

/-- **C31**: with mirror ghost values across a physical x boundary (cell `first-1` copies cell `first`, as
a zero-gradient condition sets them) every contribution vanishes on that boundary face, except the two
multi-point diffusion schemes whose extra points are covered below. -/
theorem c31_mirror_zero (dx dy alpha : ℝ) (depth no i : ℕ) (u d : ℕ → Field2) (first last : ℤ) (ph : Bool)
    (conc phi diff coupl temp mq sT cl ca cb dph : Field2) (phs dp : ℕ → Field2)
    (hu : ∀ j b, u j (first - 1) b = u j first b) (h1 : ∀ b, conc (first - 1) b = conc first b)
    (h2 : ∀ b, phi (first - 1) b = phi first b) (h5 : ∀ b, temp (first - 1) b = temp first b)
    (h13 : ∀ j b, phs j (first - 1) b = phs j first b) (b : ℤ) :
    let z : ℕ → Field2 := fun _ _ _ => 0
    let z1 : Field2 := fun _ _ => 0
    addFluxX dx depth u d z i first b = 0 ∧ addFluxIsoX dx depth u d z i first b = 0 ∧
    addFlux4X first last true ph dx depth u d z i first b = 0 ∧
    concentrationFluxX dx conc phi diff coupl first b = 0 ∧ addGradTX dx temp mq sT z1 first b = 0 ∧
    addAntitrap2X dx dy alpha phi cl ca dph z1 first b = 0 ∧
    addAntitrap3X dx dy alpha phs cl ca cb dp z1 first b = 0 ∧
    addAntitrapMultiX dx dy alpha no phs cl ca dp z1 first b = 0 := by
  intro z z1
  refine ⟨?_, ?_, ?_, ?_, ?_, ?_, ?_, ?_⟩
  · simp [addFluxX, hu, z]
  · simp [addFluxIsoX, hu, z]
  · simp [addFlux4X, hu, z]
  · simp [concentrationFluxX, h1, h2]
  · simp [addGradTX, h5, z1]
  · simp [addAntitrap2X, antitrap2, gradX, h2, z1]
  · simp [addAntitrap3X, antitrap3, gradX, h13, z1]
  · simp [addAntitrapMultiX, antitrapMulti, gradX, h13, z1]

/-- Periodicity of a cell field in direction 1. -/
def PerY (n : ℤ) (u : Field2) : Prop := ∀ a b, u a (b + n) = u a b

/-- **C31**: the same for the y-face contributions, including the spinodal flux. -/
theorem c31_periodic_contributions_y (n : ℤ) (dx dy alpha kappa : ℝ) (depth no i : ℕ) (u d f : ℕ → Field2)
    (first last : ℤ) (conc phi diff coupl temp mq sT cl ca cb dph fl : Field2) (ph dp : ℕ → Field2)
    (hu : ∀ j, PerY n (u j)) (hd : ∀ j, PerY n (d j)) (hf : ∀ j, PerY n (f j))
    (h1 : PerY n conc) (h2 : PerY n phi) (h3 : PerY n diff) (h4 : PerY n coupl) (h5 : PerY n temp) (h6 : PerY n mq)
    (h7 : PerY n sT) (h8 : PerY n cl) (h9 : PerY n ca) (h10 : PerY n cb) (h11 : PerY n dph) (h12 : PerY n fl)
    (h13 : ∀ j, PerY n (ph j)) (h14 : ∀ j, PerY n (dp j)) :
    PerY n (addFluxY dy depth u d f i) ∧ PerY n (addFluxIsoY dy depth u d f i) ∧
    PerY n (addFlux4Y first last false false dy depth u d f i) ∧
    PerY n (concentrationFluxY dy conc phi diff coupl) ∧ PerY n (addGradTY dy temp mq sT fl) ∧
    PerY n (addAntitrap2Y dx dy alpha phi cl ca dph fl) ∧ PerY n (addAntitrap3Y dx dy alpha ph cl ca cb dp fl) ∧
    PerY n (addAntitrapMultiY dx dy alpha no ph cl ca dp fl) ∧ PerY n (spinodalY dy kappa conc ca cb diff phi) := by
  have sh : ∀ v : Field2, PerY n v → ∀ a b c : ℤ, v a (b + n - c) = v a (b - c) := by
    intro v hv a b c
    rw [show b + n - c = (b - c) + n by ring]; exact hv _ _
  have sh' : ∀ v : Field2, PerY n v → ∀ a b c : ℤ, v a (b + n + c) = v a (b + c) := by
    intro v hv a b c
    rw [show b + n + c = (b + c) + n by ring]; exact hv _ _
  have hg : ∀ v : Field2, PerY n v → ∀ a b, gradY dx dy v a (b + n) = gradY dx dy v a b := by
    intro v hv a b; unfold gradY; simp only [sh v hv, hv _ b]
  have ha : ∀ v : Field2, PerY n v → ∀ a b, avgY v a (b + n) = avgY v a b := by
    intro v hv a b; unfold avgY; simp only [sh v hv, hv a]
  refine ⟨?_, ?_, ?_, ?_, ?_, ?_, ?_, ?_, ?_⟩ <;> intro a b
  · simp only [addFluxY, hf i a, fun j => hd j a, fun j => hu j a, fun j => sh (u j) (hu j)]
  · simp only [addFluxIsoY, hf i a, fun j c => hd j c b, fun j c => hu j c b, fun j => sh (u j) (hu j)]
  · simp only [addFlux4Y, hf i a, fun j => hd j a, fun j => hu j a, fun j => sh (u j) (hu j),
      fun j => sh' (u j) (hu j), Bool.false_eq_true, false_and, or_self, if_false]
  · simp only [concentrationFluxY, h1 a, h2 a, h3 a, h4 a, sh conc h1, sh phi h2]
  · simp only [addGradTY, h5 a, h6 a, h7 a, h12 a, sh temp h5]
  · simp only [addAntitrap2Y, h12 a, hg phi h2, ha cl h8, ha ca h9, ha dph h11]
  · simp only [addAntitrap3Y, h12 a, fun j => hg (ph j) (h13 j), ha cl h8, ha ca h9, ha cb h10,
      fun j => ha (dp j) (h14 j)]
  · simp only [addAntitrapMultiY, h12 a, fun j => hg (ph j) (h13 j), ha cl h8, ha ca h9,
      fun j => ha (dp j) (h14 j)]
  · simp only [spinodalY, h1 a, h2 a, h3 a, h9 a, h10 a, sh conc h1, sh ca h9, sh cb h10, sh phi h2]

/-- **C31**: and with mirror ghost values across a physical y boundary they vanish on that face. -/
theorem c31_mirror_zero_y (dx dy alpha kappa : ℝ) (depth no i : ℕ) (u d : ℕ → Field2) (first last : ℤ) (ph : Bool)
    (conc phi diff coupl temp mq sT cl ca cb dph : Field2) (phs dp : ℕ → Field2)
    (hu : ∀ j a, u j a (first - 1) = u j a first) (h1 : ∀ a, conc a (first - 1) = conc a first)
    (h2 : ∀ a, phi a (first - 1) = phi a first) (h5 : ∀ a, temp a (first - 1) = temp a first)
    (h13 : ∀ j a, phs j a (first - 1) = phs j a first) (a : ℤ) :
    let z : ℕ → Field2 := fun _ _ _ => 0
    let z1 : Field2 := fun _ _ => 0
    addFluxY dy depth u d z i a first = 0 ∧ addFluxIsoY dy depth u d z i a first = 0 ∧
    addFlux4Y first last true ph dy depth u d z i a first = 0 ∧
    concentrationFluxY dy conc phi diff coupl a first = 0 ∧ addGradTY dy temp mq sT z1 a first = 0 ∧
    addAntitrap2Y dx dy alpha phi cl ca dph z1 a first = 0 ∧
    addAntitrap3Y dx dy alpha phs cl ca cb dp z1 a first = 0 ∧
    addAntitrapMultiY dx dy alpha no phs cl ca dp z1 a first = 0 ∧
    spinodalY dy kappa conc ca cb diff phi a first = 0 := by
  intro z z1
  refine ⟨?_, ?_, ?_, ?_, ?_, ?_, ?_, ?_, ?_⟩
  · simp [addFluxY, hu, z]
  · simp [addFluxIsoY, hu, z]
  · simp [addFlux4Y, hu, z]
  · simp [concentrationFluxY, h1, h2]
  · simp [addGradTY, h5, z1]
  · simp [addAntitrap2Y, antitrap2, gradY, h2, z1]
  · simp [addAntitrap3Y, antitrap3, gradY, h13, z1]
  · simp [addAntitrapMultiY, antitrapMulti, gradY, h13, z1]
  · simp [spinodalY, h1, h2]

/-- **C31**: the fourth-order scheme also vanishes on the upper physical faces when they are flagged. -/
theorem c31_mirror_zero_upper (h : ℝ) (depth i : ℕ) (u d : ℕ → Field2) (first last : ℤ) (pLo : Bool) (b : ℤ) :
    let z : ℕ → Field2 := fun _ _ _ => 0
    ((∀ j c, u j (last + 1) c = u j last c) → addFlux4X first last pLo true h depth u d z i (last + 1) b = 0) ∧
    ((∀ j c, u j c (last + 1) = u j c last) → addFlux4Y first last pLo true h depth u d z i b (last + 1) = 0) := by
  intro z
  constructor <;> intro hu
  · simp [addFlux4X, hu, z]
  · simp [addFlux4Y, hu, z]

/-- **C31**: a linear profile gives the constant flux it should on both kinds of faces: the coupling and
thermal terms are the face values of `D ∂c + D_φ ∂φ` and `-M ∂T / T`. -/
theorem c31_linear_profiles (dx dy p q r s : ℝ) (hx : dx ≠ 0) (hy : dy ≠ 0) (diff coupl mq sT : Field2) (a b : ℤ) :
    let lin : ℝ → ℝ → Field2 := fun g k i j => g * (i * dx) + k * (j * dy)
    concentrationFluxX dx (lin p q) (lin r s) diff coupl a b = diff a b * p + coupl a b * r ∧
    concentrationFluxY dy (lin p q) (lin r s) diff coupl a b = diff a b * q + coupl a b * s ∧
    addGradTX dx (lin p q) mq sT (fun _ _ => 0) a b = -(mq a b * p / sT a b) ∧
    addGradTY dy (lin p q) mq sT (fun _ _ => 0) a b = -(mq a b * q / sT a b) := by
  intro lin
  refine ⟨?_, ?_, ?_, ?_⟩ <;>
    simp only [lin, concentrationFluxX, concentrationFluxY, addGradTX, addGradTY] <;> push_cast <;> field_simp <;> ring

theorem sum_block (r : ℕ) (hr : 0 < r) (F G : Field2) (hx hy mob : ℝ) (hhx : hx ≠ 0) (hhy : hy ≠ 0) (i j : ℤ) :
    ∑ a ∈ Finset.range r, ∑ b ∈ Finset.range r,
      rhs2 (hx / r) (hy / r) mob F G ((r : ℤ) * i + (a : ℤ)) ((r : ℤ) * j + (b : ℤ)) * (hx / r * (hy / r)) =
    rhs2 hx hy mob (coarsenX r F) (coarsenY r G) i j * (hx * hy) := by
  have hr' : (r : ℝ) ≠ 0 := by positivity
  rw [c31_block_2d (hx / r) (hy / r) mob (div_ne_zero hhx hr') (div_ne_zero hhy hr')]
  unfold rhs2 coarsenX coarsenY
  have e0 : (r : ℤ) * i + (r : ℤ) = (r : ℤ) * (i + 1) := by ring
  have e1 : (r : ℤ) * j + (r : ℤ) = (r : ℤ) * (j + 1) := by ring
  rw [e0, e1]
  simp only [← Finset.sum_mul, Finset.sum_sub_distrib]
  field_simp

/-- **C31**: conservation on a two-level composite grid.  Any set of coarse cells is covered by a level
refined `r` times; coarse fluxes on faces of covered cells are replaced by the mean of the fine ones.  Then
the volume-weighted sum of the rates over the uncovered coarse cells and the fine cells is the net
composite flux through the outer boundary; it vanishes if that is periodic or zero. -/
theorem c31_composite (r : ℕ) (hr : 0 < r) (covered : ℤ → ℤ → Bool) (hx hy mob : ℝ) (hhx : hx ≠ 0) (hhy : hy ≠ 0)
    (Fc Gc Ff Gf : Field2) (lo0 lo1 : ℤ) (n m : ℕ) :
    let F := compositeX r covered Fc Ff
    let G := compositeY r covered Gc Gf
    (∑ a ∈ Finset.range n, ∑ b ∈ Finset.range m,
      if covered (lo0 + (a : ℤ)) (lo1 + (b : ℤ)) then
        ∑ p ∈ Finset.range r, ∑ q ∈ Finset.range r,
          rhs2 (hx / r) (hy / r) mob Ff Gf ((r : ℤ) * (lo0 + (a : ℤ)) + (p : ℤ)) ((r : ℤ) * (lo1 + (b : ℤ)) + (q : ℤ))
            * (hx / r * (hy / r))
      else rhs2 hx hy mob F G (lo0 + (a : ℤ)) (lo1 + (b : ℤ)) * (hx * hy)) =
      mob * (∑ b ∈ Finset.range m, (F (lo0 + n) (lo1 + (b : ℤ)) - F lo0 (lo1 + (b : ℤ))) * hy
        + ∑ a ∈ Finset.range n, (G (lo0 + (a : ℤ)) (lo1 + m) - G (lo0 + (a : ℤ)) lo1) * hx) := by
  intro F G
  rw [← c31_block_2d hx hy mob hhx hhy F G lo0 lo1 n m]
  refine Finset.sum_congr rfl fun a _ => Finset.sum_congr rfl fun b _ => ?_
  split_ifs with hc
  · rw [sum_block r hr Ff Gf hx hy mob hhx hhy]
    congr 1
    unfold rhs2
    have e1 : F (lo0 + (a : ℤ) + 1) (lo1 + (b : ℤ)) = coarsenX r Ff (lo0 + (a : ℤ) + 1) (lo1 + (b : ℤ)) := by
      simp only [F, compositeX, add_sub_cancel_right, hc, or_true, if_true]
    have e2 : F (lo0 + (a : ℤ)) (lo1 + (b : ℤ)) = coarsenX r Ff (lo0 + (a : ℤ)) (lo1 + (b : ℤ)) := by
      simp only [F, compositeX, hc, true_or, if_true]
    have e3 : G (lo0 + (a : ℤ)) (lo1 + (b : ℤ) + 1) = coarsenY r Gf (lo0 + (a : ℤ)) (lo1 + (b : ℤ) + 1) := by
      simp only [G, compositeY, add_sub_cancel_right, hc, or_true, if_true]
    have e4 : G (lo0 + (a : ℤ)) (lo1 + (b : ℤ)) = coarsenY r Gf (lo0 + (a : ℤ)) (lo1 + (b : ℤ)) := by
      simp only [G, compositeY, hc, true_or, if_true]
    rw [e1, e2, e3, e4]
  · rfl

/-- **C31 (violation)**: the 3D spinodal routine resets the y fluxes while computing the z fluxes.  In every
patch all y fluxes are zero except on the last face, whatever the data. -/
theorem c31_violation_spinodal_3d (b : Box3) (dy kappa : ℝ) (conc conca concb diff eta : Field3)
    (i0 i1 i2 : ℤ) (h0 : b.lo0 ≤ i0 ∧ i0 ≤ b.hi0) (h2 : b.lo2 ≤ i2 ∧ i2 ≤ b.hi2) :
    (b.lo1 ≤ i1 → i1 ≤ b.hi1 → spinodal3YFinal b dy kappa conc conca concb diff eta i0 i1 i2 = 0) ∧
    spinodal3YFinal b dy kappa conc conca concb diff eta i0 (b.hi1 + 1) i2 =
      spinodal3Y dy kappa conc conca concb diff eta i0 (b.hi1 + 1) i2 := by
  constructor
  · intro h3 h4
    unfold spinodal3YFinal spinodal3YAfterZ
    rw [if_pos ⟨h0.1, h0.2, h3, h4, h2.1, by omega⟩]
  · unfold spinodal3YFinal spinodal3YAfterZ
    rw [if_neg]
    rintro ⟨-, -, -, h, -⟩
    omega

/-- **C31 (violation)**: hence two patches that share a y face disagree on its flux as soon as the correct
flux there is not zero, and what leaves one does not arrive in the other. -/
theorem c31_violation_spinodal_shared_face (b b' : Box3) (hb : b'.lo1 = b.hi1 + 1) (hb' : b'.lo1 ≤ b'.hi1) (dy kappa : ℝ)
    (conc conca concb diff eta : Field3) (i0 i2 : ℤ) (h0 : b.lo0 ≤ i0 ∧ i0 ≤ b.hi0) (h0' : b'.lo0 ≤ i0 ∧ i0 ≤ b'.hi0)
    (h2 : b.lo2 ≤ i2 ∧ i2 ≤ b.hi2) (h2' : b'.lo2 ≤ i2 ∧ i2 ≤ b'.hi2)
    (hne : spinodal3Y dy kappa conc conca concb diff eta i0 b'.lo1 i2 ≠ 0) :
    spinodal3YFinal b dy kappa conc conca concb diff eta i0 b'.lo1 i2 ≠
      spinodal3YFinal b' dy kappa conc conca concb diff eta i0 b'.lo1 i2 := by
  rw [(c31_violation_spinodal_3d b' dy kappa conc conca concb diff eta i0 b'.lo1 i2 h0' h2').1 le_rfl hb']
  rw [hb, (c31_violation_spinodal_3d b dy kappa conc conca concb diff eta i0 0 i2 h0 h2).2, ← hb]
  exact hne

example : spinodal3Y 1 0 (fun _ j _ => (j : ℝ)) (fun _ _ _ => 0) (fun _ _ _ => 0) (fun _ _ _ => 1) (fun _ _ _ => 0) 0 4 0 ≠ 0 := by
  norm_num [spinodal3Y]

/-- **C31**: the 2D spinodal flux is antisymmetric bookkeeping of face values and periodic with the data. -/
theorem c31_spinodal_2d_periodic (n : ℤ) (dx kappa : ℝ) (conc conca concb diff eta : Field2) (h1 : PerX n conc)
    (h2 : PerX n conca) (h3 : PerX n concb) (h4 : PerX n diff) (h5 : PerX n eta) :
    PerX n (spinodalX dx kappa conc conca concb diff eta) := by
  intro a b
  have sh : ∀ v : Field2, PerX n v → v (a + n - 1) b = v (a - 1) b := by
    intro v hv; rw [show a + n - 1 = (a - 1) + n by ring]; exact hv _ _
  simp only [spinodalX, h1 a, h2 a, h3 a, h4 a, h5 a, sh conc h1, sh conca h2, sh concb h3, sh eta h5]

/-! ## C50: anti-trapping currents -/

/-- **C50**: the two-phase current is bounded by the rejected amount: `|j| ≤ |α (cl - ca) dφ/dt|`, and
vanishes where the phases have equal composition or the interface does not move. -/
theorem c50_bounded (alpha : ℝ) (g : ℝ × ℝ) (cl ca dpdt : ℝ) :
    |antitrap2 alpha g g.1 cl ca dpdt| ≤ |alpha * (cl - ca) * dpdt| ∧
    |antitrap2 alpha g g.2 cl ca dpdt| ≤ |alpha * (cl - ca) * dpdt| := by
  have key : ∀ n : ℝ, n * n ≤ g.1 * g.1 + g.2 * g.2 →
      |antitrap2 alpha g n cl ca dpdt| ≤ |alpha * (cl - ca) * dpdt| := by
    intro n hn
    unfold antitrap2
    simp only
    split_ifs with h
    · have ht : (0 : ℝ) < tol2 := by unfold tol2; norm_num
      have hp : 0 < g.1 * g.1 + g.2 * g.2 := by
        rw [abs_of_nonneg (by nlinarith [mul_self_nonneg g.1, mul_self_nonneg g.2])] at h
        linarith
      have hs : 0 < Real.sqrt (g.1 * g.1 + g.2 * g.2) := Real.sqrt_pos.mpr hp
      have hq : |n / Real.sqrt (g.1 * g.1 + g.2 * g.2)| ≤ 1 := by
        rw [abs_div, abs_of_pos hs, div_le_one hs]
        exact Real.abs_le_sqrt (by rw [sq]; exact hn)
      have e : alpha * (n / Real.sqrt (g.1 * g.1 + g.2 * g.2)) * (cl - ca) * dpdt =
          n / Real.sqrt (g.1 * g.1 + g.2 * g.2) * (alpha * (cl - ca) * dpdt) := by ring
      rw [e, abs_mul]
      exact mul_le_of_le_one_left (abs_nonneg _) hq
    · rw [abs_zero]; exact abs_nonneg _
  exact ⟨key _ (by nlinarith [mul_self_nonneg g.2]), key _ (by nlinarith [mul_self_nonneg g.1])⟩

theorem sqrt_mul_self_add (g : ℝ × ℝ) (h : |g.1 * g.1 + g.2 * g.2| > tol2) :
    0 < g.1 * g.1 + g.2 * g.2 ∧ 0 < Real.sqrt (g.1 * g.1 + g.2 * g.2) ∧
    Real.sqrt (g.1 * g.1 + g.2 * g.2) * Real.sqrt (g.1 * g.1 + g.2 * g.2) = g.1 * g.1 + g.2 * g.2 := by
  have ht : (0 : ℝ) < tol2 := by unfold tol2; norm_num
  have hn : 0 ≤ g.1 * g.1 + g.2 * g.2 := by nlinarith [mul_self_nonneg g.1, mul_self_nonneg g.2]
  have hp : 0 < g.1 * g.1 + g.2 * g.2 := by
    rw [abs_of_nonneg hn] at h; linarith
  exact ⟨hp, Real.sqrt_pos.mpr hp, Real.mul_self_sqrt hn⟩

/-- **C50**: the multi-order-parameter current of a solid-liquid interface (solid gradient `g`, liquid
gradient `-g`) is the two-phase one. -/
theorem c50_multi_agrees (alpha : ℝ) (g : ℝ × ℝ) (n cl ca dpdt : ℝ) :
    antitrapMulti alpha (-g.1, -g.2) (-n) g cl ca dpdt = antitrap2 alpha g n cl ca dpdt := by
  unfold antitrapMulti antitrap2
  have hn : 0 ≤ g.1 * g.1 + g.2 * g.2 := by nlinarith [mul_self_nonneg g.1, mul_self_nonneg g.2]
  simp only [neg_mul_neg, abs_of_nonneg hn]
  split_ifs <;> ring

/-- **C50 (violation)**: the three-phase current of the same interface (third phase absent) is the
*opposite* of the two-phase one. -/
theorem c50_violation_three_phase_sign (alpha : ℝ) (g : ℝ × ℝ) (n cl ca dpdt : ℝ) :
    antitrap3 alpha (-g.1, -g.2) (-n) g cl ca dpdt = -antitrap2 alpha g n cl ca dpdt := by
  unfold antitrap3 antitrap2
  simp only [neg_mul_neg]
  split_ifs with h
  · obtain ⟨hp, hs, hss⟩ := sqrt_mul_self_add g h
    have e : -1 * (g.1 * -g.1 + g.2 * -g.2) / (Real.sqrt (g.1 * g.1 + g.2 * g.2) * Real.sqrt (g.1 * g.1 + g.2 * g.2)) = 1 := by
      rw [hss, div_eq_one_iff_eq hp.ne']; ring
    rw [e]
    ring
  · simp

theorem antitrap3_zero (alpha : ℝ) (g : ℝ × ℝ) (n cl cp dpdt : ℝ) : antitrap3 alpha g n (0, 0) cl cp dpdt = 0 := by
  have ht : ¬ ((0 : ℝ) > tol2) := by unfold tol2; norm_num
  unfold antitrap3
  simp [ht]

/-- **C50 (violation)**: as fields: with solid fraction `φ`, liquid fraction `1 - φ` and no third phase, the
three-phase routine adds on every x and y face the opposite of what the two-phase routine adds, while the
multi-order-parameter routine (solid, liquid) adds the same. -/
theorem c50_violation_fields (dx dy alpha : ℝ) (phi cl ca cb dphi flux : Field2) (i j : ℤ) :
    let ph3 : ℕ → Field2 := fun k => if k = 1 then (fun a b => 1 - phi a b) else if k = 2 then phi else fun _ _ => 0
    let dp3 : ℕ → Field2 := fun k => if k = 1 then (fun a b => -dphi a b) else if k = 2 then dphi else fun _ _ => 0
    let ph2 : ℕ → Field2 := fun k => if k = 1 then phi else fun a b => 1 - phi a b
    let dp2 : ℕ → Field2 := fun k => if k = 1 then dphi else fun a b => -dphi a b
    (addAntitrap3X dx dy alpha ph3 cl ca cb dp3 flux i j - flux i j =
      -(addAntitrap2X dx dy alpha phi cl ca dphi flux i j - flux i j)) ∧
    (addAntitrap3Y dx dy alpha ph3 cl ca cb dp3 flux i j - flux i j =
      -(addAntitrap2Y dx dy alpha phi cl ca dphi flux i j - flux i j)) ∧
    addAntitrapMultiX dx dy alpha 2 ph2 cl ca dp2 flux i j = addAntitrap2X dx dy alpha phi cl ca dphi flux i j ∧
    addAntitrapMultiY dx dy alpha 2 ph2 cl ca dp2 flux i j = addAntitrap2Y dx dy alpha phi cl ca dphi flux i j := by
  intro ph3 dp3 ph2 dp2
  have gx : gradX dx dy (fun a b => 1 - phi a b) i j = (-(gradX dx dy phi i j).1, -(gradX dx dy phi i j).2) := by
    unfold gradX; ext <;> simp only <;> ring
  have gy : gradY dx dy (fun a b => 1 - phi a b) i j = (-(gradY dx dy phi i j).1, -(gradY dx dy phi i j).2) := by
    unfold gradY; ext <;> simp only <;> ring
  have gx0 : gradX dx dy (fun _ _ => 0) i j = (0, 0) := by unfold gradX; simp
  have gy0 : gradY dx dy (fun _ _ => 0) i j = (0, 0) := by unfold gradY; simp
  refine ⟨?_, ?_, ?_, ?_⟩
  · simp only [addAntitrap3X, addAntitrap2X, ph3, dp3, if_true, show (2 : ℕ) ≠ 1 by norm_num, if_false,
      show (3 : ℕ) ≠ 1 by norm_num, show (3 : ℕ) ≠ 2 by norm_num, gx, gx0, antitrap3_zero, add_zero, add_sub_cancel_left,
      c50_violation_three_phase_sign]
  · simp only [addAntitrap3Y, addAntitrap2Y, ph3, dp3, if_true, show (2 : ℕ) ≠ 1 by norm_num, if_false,
      show (3 : ℕ) ≠ 1 by norm_num, show (3 : ℕ) ≠ 2 by norm_num, gy, gy0, antitrap3_zero, add_zero, add_sub_cancel_left,
      c50_violation_three_phase_sign]
  · simp only [addAntitrapMultiX, addAntitrap2X, ph2, dp2, show (2 : ℕ) - 1 = 1 from rfl, Finset.Icc_self,
      Finset.sum_singleton, if_true, show (2 : ℕ) ≠ 1 by norm_num, if_false, gx, c50_multi_agrees]
  · simp only [addAntitrapMultiY, addAntitrap2Y, ph2, dp2, show (2 : ℕ) - 1 = 1 from rfl, Finset.Icc_self,
      Finset.sum_singleton, if_true, show (2 : ℕ) ≠ 1 by norm_num, if_false, gy, c50_multi_agrees]

/-- The current of `c50_violation_three_phase_sign` is not zero in general. -/
example : antitrap2 1 (1, 0) 1 1 0 1 = 1 := by
  unfold antitrap2 tol2
  norm_num

/-! ## C51: scatter loops -/

theorem addAt_apply (f : ℤ × ℤ → ℝ) (k : ℤ × ℤ) (v : ℝ) (x : ℤ × ℤ) :
    addAt f k v x = f x + if x = k then v else 0 := by
  unfold addAt; split_ifs <;> simp

theorem foldl_addAt (L : List (ℤ × ℤ)) (k1 k2 : ℤ × ℤ → ℤ × ℤ) (v1 v2 : ℤ × ℤ → ℝ) (f : ℤ × ℤ → ℝ) (x : ℤ × ℤ) :
    L.foldl (fun f c => addAt (addAt f (k1 c) (v1 c)) (k2 c) (v2 c)) f x =
      f x + (L.map fun c => (if x = k1 c then v1 c else 0) + (if x = k2 c then v2 c else 0)).sum := by
  induction L generalizing f with
  | nil => simp
  | cons c L ih => simp only [List.foldl_cons, ih, List.map_cons, List.sum_cons, addAt_apply]; ring

theorem mem_loop2 (lo0 hi0 lo1 hi1 : ℤ) (c : ℤ × ℤ) :
    c ∈ loop2 lo0 hi0 lo1 hi1 ↔ (lo0 ≤ c.1 ∧ c.1 ≤ hi0) ∧ (lo1 ≤ c.2 ∧ c.2 ≤ hi1) := by
  unfold loop2
  simp only [List.mem_flatMap, List.mem_range, List.mem_map]
  constructor
  · rintro ⟨b, hb, a, ha, rfl⟩
    simp only
    omega
  · rintro ⟨⟨h1, h2⟩, h3, h4⟩
    refine ⟨(c.2 - lo1).toNat, by omega, (c.1 - lo0).toNat, by omega, ?_⟩
    ext <;> simp only <;> omega

theorem nodup_loop2 (lo0 hi0 lo1 hi1 : ℤ) : (loop2 lo0 hi0 lo1 hi1).Nodup := by
  unfold loop2
  rw [List.nodup_flatMap]
  refine ⟨fun b _ => ?_, ?_⟩
  · refine List.Nodup.map ?_ List.nodup_range
    intro a a' h; simp only [Prod.mk.injEq] at h; omega
  · refine List.Pairwise.imp ?_ List.nodup_range
    intro b b' hbb c hc hc'
    simp only [List.mem_map] at hc hc'
    obtain ⟨a, _, rfl⟩ := hc
    obtain ⟨a', _, h⟩ := hc'
    simp only [Prod.mk.injEq] at h
    exact hbb (by omega)

theorem sum_single (L : List (ℤ × ℤ)) (hL : L.Nodup) (c0 : ℤ × ℤ) (hc : c0 ∈ L) (P : ℤ × ℤ → Prop) [DecidablePred P]
    (hP : ∀ c, P c ↔ c = c0) (v : ℤ × ℤ → ℝ) : (L.map fun c => if P c then v c else 0).sum = v c0 := by
  induction L with
  | nil => simp at hc
  | cons a L ih =>
    simp only [List.map_cons, List.sum_cons]
    rw [List.nodup_cons] at hL
    rcases List.mem_cons.mp hc with rfl | h
    · rw [if_pos ((hP c0).mpr rfl)]
      have : (L.map fun c => if P c then v c else 0) = L.map fun _ => (0 : ℝ) := by
        refine List.map_congr_left fun c hc' => ?_
        rw [if_neg]
        intro h; rw [hP] at h; subst h; exact hL.1 hc'
      rw [this]; simp
    · rw [if_neg (by rw [hP]; rintro rfl; exact hL.1 h), ih hL.2 h, zero_add]

/-- **C51**: the scatter loop leaves on every face of the patch the difference of the chemical potentials
of the two neighbouring cells, times mobility and face coefficient, added to what was there. -/
theorem c51_scatter (f0 l0 f1 l1 : ℤ) (h mobility : ℝ) (diff mu : ℤ → ℤ → ℝ) (flux : ℤ × ℤ → ℝ) (i j : ℤ) :
    (f0 ≤ i → i ≤ l0 + 1 → f1 ≤ j → j ≤ l1 →
      scatterX f0 l0 f1 l1 h mobility diff mu flux (i, j) =
        flux (i, j) + mobility * diff i j * ((mu i j - mu (i - 1) j) / h)) ∧
    (f0 ≤ i → i ≤ l0 → f1 ≤ j → j ≤ l1 + 1 →
      scatterY f0 l0 f1 l1 h mobility diff mu flux (i, j) =
        flux (i, j) + mobility * diff i j * ((mu i j - mu i (j - 1)) / h)) := by
  constructor
  · intro h1 h2 h3 h4
    unfold scatterX
    rw [foldl_addAt, List.sum_map_add]
    rw [sum_single _ (nodup_loop2 _ _ _ _) (i, j) (by rw [mem_loop2]; simp only; omega) (fun c => (i, j) = (c.1, c.2))
      (fun c => by constructor <;> intro h <;> exact h.symm)
      (fun c => mobility * diff c.1 c.2 * (1 / h) * mu c.1 c.2)]
    rw [sum_single _ (nodup_loop2 _ _ _ _) (i - 1, j) (by rw [mem_loop2]; simp only; omega)
      (fun c => (i, j) = (c.1 + 1, c.2))
      (fun c => by
        constructor
        · intro h; simp only [Prod.mk.injEq] at h; ext <;> simp only <;> omega
        · rintro rfl; simp)
      (fun c => -(mobility * diff (c.1 + 1) c.2 * (1 / h) * mu c.1 c.2))]
    simp only [sub_add_cancel]
    ring
  · intro h1 h2 h3 h4
    unfold scatterY
    rw [foldl_addAt, List.sum_map_add]
    rw [sum_single _ (nodup_loop2 _ _ _ _) (i, j) (by rw [mem_loop2]; simp only; omega) (fun c => (i, j) = (c.1, c.2))
      (fun c => by constructor <;> intro h <;> exact h.symm)
      (fun c => mobility * diff c.1 c.2 * (1 / h) * mu c.1 c.2)]
    rw [sum_single _ (nodup_loop2 _ _ _ _) (i, j - 1) (by rw [mem_loop2]; simp only; omega)
      (fun c => (i, j) = (c.1, c.2 + 1))
      (fun c => by
        constructor
        · intro h; simp only [Prod.mk.injEq] at h; ext <;> simp only <;> omega
        · rintro rfl; simp)
      (fun c => -(mobility * diff c.1 (c.2 + 1) * (1 / h) * mu c.1 c.2))]
    simp only [sub_add_cancel]
    ring

/-- **C51**: outside the faces of the patch grown by one the loop writes nothing (so one ghost face is
enough and necessary: faces `first-1` and `last+2` are written). -/
theorem c51_footprint (f0 l0 f1 l1 : ℤ) (h mobility : ℝ) (diff mu : ℤ → ℤ → ℝ) (flux : ℤ × ℤ → ℝ) (i j : ℤ)
    (hout : ¬((f0 - 1 ≤ i ∧ i ≤ l0 + 2) ∧ f1 - 1 ≤ j ∧ j ≤ l1 + 1)) :
    scatterX f0 l0 f1 l1 h mobility diff mu flux (i, j) = flux (i, j) := by
  unfold scatterX
  rw [foldl_addAt]
  have : ((loop2 (f0 - 1) (l0 + 1) (f1 - 1) (l1 + 1)).map fun c =>
      (if (i, j) = (c.1, c.2) then mobility * diff c.1 c.2 * (1 / h) * mu c.1 c.2 else 0)
      + (if (i, j) = (c.1 + 1, c.2) then -(mobility * diff (c.1 + 1) c.2 * (1 / h) * mu c.1 c.2) else 0)) =
      (loop2 (f0 - 1) (l0 + 1) (f1 - 1) (l1 + 1)).map fun _ => (0 : ℝ) := by
    refine List.map_congr_left fun c hc => ?_
    rw [mem_loop2] at hc
    rw [if_neg, if_neg, add_zero]
    · intro he; simp only [Prod.mk.injEq] at he; omega
    · intro he; simp only [Prod.mk.injEq] at he; omega
  rw [this]; simp

/-- **C51**: the bulk part of the Cahn-Hilliard potential is the derivative of the double well
`well_scale (c - ca)² (cb - c)²`, zero in both wells. -/
theorem c51_mu_ch (ca cb w c : ℝ) :
    HasDerivAt (fun c : ℝ => w * (c - ca) ^ 2 * (cb - c) ^ 2) (2 * w * (c - ca) * (cb - c) * (cb + ca - 2 * c)) c := by
  have h1 : HasDerivAt (fun c : ℝ => (c - ca)) 1 c := (hasDerivAt_id c).sub_const ca
  have h2 : HasDerivAt (fun c : ℝ => (cb - c)) (-1) c := (hasDerivAt_id c).const_sub cb
  refine (((h1.pow 2).const_mul w).mul (h2.pow 2)).congr_deriv ?_
  simp only [Pi.pow_apply]
  push_cast
  ring

/-- **C51**: the bulk part of the sintering potential is the derivative with respect to `c` of
`A c²(1-c)² + B(c² + 6(1-c) Σφ² - 4(2-c) Σφ³ + 3 (Σφ²)²)`. -/
theorem c51_mu_wang (a b c s2 s3 : ℝ) :
    HasDerivAt (fun c : ℝ => a * c ^ 2 * (1 - c) ^ 2 + b * (c ^ 2 + 6 * (1 - c) * s2 - 4 * (2 - c) * s3 + 3 * s2 ^ 2))
      (2 * a * c * (1 - c) * (1 - 2 * c) + 2 * b * (c - 3 * s2 + 2 * s3)) c := by
  have h1 : HasDerivAt (fun c : ℝ => c) 1 c := hasDerivAt_id c
  have h2 : HasDerivAt (fun c : ℝ => (1 - c)) (-1) c := (hasDerivAt_id c).const_sub 1
  have h3 : HasDerivAt (fun c : ℝ => (2 - c)) (-1) c := (hasDerivAt_id c).const_sub 2
  have := (((h1.pow 2).const_mul a).mul (h2.pow 2)).add
    ((((((h1.pow 2)).add ((h2.const_mul 6).mul_const s2)).sub ((h3.const_mul 4).mul_const s3)).add_const
      (3 * s2 ^ 2)).const_mul b)
  refine this.congr_deriv ?_
  simp only [Pi.pow_apply]
  push_cast
  ring

/-! ## C52 -/

/-- **C52 (violation)**: the preconditioner reads the diagonal entry `(ic, ic)` of the `n` by `n` diffusion
matrix (slot `ic*(n+1)`, 0-based) only for the first and the last species; with three or more species the
middle ones use an off-diagonal entry. -/
theorem c52_violation_slot (n ic : ℕ) (h : ic < n) :
    precondSlot ic = slot n (ic + 1) (ic + 1) - 1 ↔ ic = 0 ∨ ic + 1 = n := by
  unfold precondSlot slot
  have e1 : (ic + 1) * (ic + 1) - 1 = ic * (ic + 2) := by
    have : (ic + 1) * (ic + 1) = ic * (ic + 2) + 1 := by ring
    omega
  have e2 : ic + 1 + (ic + 1 - 1) * n - 1 = ic * (n + 1) := by
    have : ic + 1 + ic * n = ic * (n + 1) + 1 := by ring
    simp only [Nat.add_sub_cancel]
    omega
  rw [e1, e2]
  constructor
  · intro h'
    rcases Nat.eq_zero_or_pos ic with h0 | h0
    · exact Or.inl h0
    · right
      have := Nat.eq_of_mul_eq_mul_left h0 h'
      omega
  · rintro (rfl | h')
    · simp
    · rw [show ic + 2 = n + 1 by omega]

/-- **C52**: with one or two species the slot is the diagonal one. -/
theorem c52_slot_partial (n ic : ℕ) (h : ic < n) (hn : n ≤ 2) : precondSlot ic = slot n (ic + 1) (ic + 1) - 1 :=
  (c52_violation_slot n ic h).mpr (by omega)

example : precondSlot 1 ≠ slot 3 2 2 - 1 := by decide

end AMPE.Flux.Props
