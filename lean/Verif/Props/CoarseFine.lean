import Verif.Proofs.CoarseFine
import Mathlib.Tactic.LinearCombination
import Mathlib.Tactic.NormNum
import Mathlib.Tactic.IntervalCases
import Mathlib.Algebra.BigOperators.Group.Finset.Basic
import Mathlib.Algebra.BigOperators.Ring.Finset
import Mathlib.Algebra.BigOperators.Intervals
import Mathlib.Algebra.Order.BigOperators.Group.Finset

/-!
# C99: flux through a coarse/fine boundary

Specification: if the cells of both levels hold the values of a linear function at their own centres, the flux through every face
of the boundary is the coefficient times the slope of the function; the rest of the fluxes is not touched; the coarse cell
receives what leaves the fine cells, and the exchange never increases the difference between the two sides.
-/

namespace AMPE.CoarseFine.Props

open AMPE.CoarseFine Finset

/-- Centre of a fine cell; centre of the coarse cell (ratio `r`) that contains fine cell `i`. -/
noncomputable def fine (h : ℝ) (i : ℤ) : ℝ := (i + 1 / 2) * h
noncomputable def coarse (r : ℤ) (h : ℝ) (i : ℤ) : ℝ := ((i / r : ℤ) + 1 / 2) * (r * h)

theorem normal_lo (r : ℤ) (hr : 1 ≤ r) (h : ℝ) (n : ℤ) (hn : r ∣ n + 1) :
    fine h (n + 1) - coarse r h n = (1 + r) / 2 * h := by
  obtain ⟨c, hc⟩ := hn
  have e : n / r = c - 1 := by
    rw [show n = (r - 1) + r * (c - 1) by linarith, Int.add_mul_ediv_left _ _ (by omega),
      Int.ediv_eq_zero_of_lt (by omega) (by omega)]
    ring
  have hn : (n : ℝ) + 1 = r * c := by exact_mod_cast hc
  unfold fine coarse
  rw [e]; push_cast
  linear_combination h * hn

theorem normal_hi (r : ℤ) (hr : 1 ≤ r) (h : ℝ) (n : ℤ) (hn : r ∣ n) :
    coarse r h n - fine h (n - 1) = (1 + r) / 2 * h := by
  obtain ⟨c, rfl⟩ := hn
  have e : r * c / r = c := Int.mul_ediv_cancel_left _ (by omega)
  unfold fine coarse
  rw [e]; push_cast
  ring

/-- The opposite fine cell is the mirror image with respect to the coarse centre. -/
theorem mirror (r : ℤ) (h : ℝ) (j : ℤ) :
    fine h ((place r j).1 + opp r (place r j).2) - fine h j = -2 * (fine h j - coarse r h j) := by
  have e : ((j : ℤ) : ℝ) = r * (j / r : ℤ) + (j % r : ℤ) := by
    have := Int.emod_add_mul_ediv j r
    have h2 : (j : ℝ) = ((j % r + r * (j / r) : ℤ) : ℝ) := by rw [this]
    rw [h2]; push_cast; ring
  unfold fine coarse place opp
  push_cast
  linear_combination (-h : ℝ) * 2 * e + 4 * h * e

theorem mirror_range (b e r j : ℤ) (hr : 1 ≤ r) (hb : r ∣ b) (he : r ∣ e + 1) (h1 : b ≤ j) (h2 : j ≤ e) :
    b ≤ (place r j).1 + opp r (place r j).2 ∧ (place r j).1 + opp r (place r j).2 ≤ e := by
  have hp := place_mem b e r j hr hb h1 h2
  have h3 := Int.emod_nonneg j (show r ≠ 0 by omega)
  have h4 := Int.emod_lt_of_pos j (show 0 < r by omega)
  have hq : ((place r j).1, opp r (place r j).2) ∈ rows b e r := by
    rw [mem_rows _ _ _ hr] at hp ⊢
    refine ⟨hp.1, ?_, ?_⟩ <;> simp only [opp, place] <;> omega
  exact row_range b e r hr hb he _ hq

/-- A linear function in the plane. -/
structure Lin2 where
  c : ℝ
  a : ℝ
  b : ℝ

def Lin2.at (L : Lin2) (x y : ℝ) : ℝ := L.c + L.a * x + L.b * y

theorem core_lo (r : ℤ) (hr : 1 ≤ r) (D D0 h ug u uo N T : ℝ) (hN : u - ug = (1 + r) / 2 * N + T) (hT : uo - u = -2 * T) :
    longwt r * (1 / h * D * (u - ug)) + tranwt r * D0 * (uo - u) / h =
      D * N / h + 2 * (D - D0) * T / ((1 + r) * h) := by
  have h1 : (1 + r : ℝ) ≠ 0 := by
    have : (1 : ℝ) ≤ r := by exact_mod_cast hr
    positivity
  rw [hN, hT]
  unfold longwt tranwt
  rcases eq_or_ne h 0 with rfl | hh
  · simp
  · field_simp
    ring

theorem core_hi (r : ℤ) (hr : 1 ≤ r) (D D0 h ug u uo N T : ℝ) (hN : ug - u = (1 + r) / 2 * N - T) (hT : uo - u = -2 * T) :
    longwt r * (1 / h * D * (ug - u)) - tranwt r * D0 * (uo - u) / h =
      D * N / h - 2 * (D - D0) * T / ((1 + r) * h) := by
  have h1 : (1 + r : ℝ) ≠ 0 := by
    have : (1 : ℝ) ≤ r := by exact_mod_cast hr
    positivity
  rw [hN, hT]
  unfold longwt tranwt
  rcases eq_or_ne h 0 with rfl | hh
  · simp
  · field_simp
    ring

/-- The rows (columns) touched by the routine are whole coarse cells. -/
structure Whole2 (A : Arg2) (b : Bdry2) : Prop where
  r0 : 1 ≤ A.r0
  r1 : 1 ≤ A.r1
  xlo : A.r1 ∣ max b.lo1 A.j0
  xup : A.r1 ∣ min b.up1 A.j1 + 1
  ylo : A.r0 ∣ max b.lo0 A.i0
  yup : A.r0 ∣ min b.up0 A.i1 + 1

/-- Faces of the boundary box in the patch. -/
def InJ (A : Arg2) (b : Bdry2) (j : ℤ) : Prop := max b.lo1 A.j0 ≤ j ∧ j ≤ min b.up1 A.j1
def InI (A : Arg2) (b : Bdry2) (i : ℤ) : Prop := max b.lo0 A.i0 ≤ i ∧ i ≤ min b.up0 A.i1

/-- Values of the linear function on the two sides of an x face `n | n + 1` cells and of a y face. -/
def FineX (L : Lin2) (hx hy : ℝ) (A : Arg2) (b : Bdry2) (n : ℤ) : Prop :=
  ∀ j, InJ A b j → A.u (n, j) = L.at (fine hx n) (fine hy j)
def CoarseX (L : Lin2) (hx hy : ℝ) (A : Arg2) (b : Bdry2) (n : ℤ) : Prop :=
  ∀ j, InJ A b j → A.u (n, j) = L.at (coarse A.r0 hx n) (coarse A.r1 hy j)
def FineY (L : Lin2) (hx hy : ℝ) (A : Arg2) (b : Bdry2) (n : ℤ) : Prop :=
  ∀ i, InI A b i → A.u (i, n) = L.at (fine hx i) (fine hy n)
def CoarseY (L : Lin2) (hx hy : ℝ) (A : Arg2) (b : Bdry2) (n : ℤ) : Prop :=
  ∀ i, InI A b i → A.u (i, n) = L.at (coarse A.r0 hx i) (coarse A.r1 hy n)

/-- Fluxes at the four kinds of boundary when the coefficient of the component is `d` and the one used by the correction is that
of the arguments. -/
theorem linear2 (A : Arg2) (b : Bdry2) (hw : Whole2 A b) (L : Lin2) (hx hy : ℝ) (d e : ℤ × ℤ → ℝ) :
    (A.r0 ∣ b.up0 + 1 → FineX L hx hy A b (b.up0 + 1) → CoarseX L hx hy A b b.up0 → ∀ j, InJ A b j →
      (ewing2 A 0 b (raw2 A d e)).x (b.up0 + 1, j) = d (b.up0 + 1, j) * (L.a * hx) / A.dx0 +
        2 * (d (b.up0 + 1, j) - A.xdc (b.up0 + 1, j)) * (L.b * (fine hy j - coarse A.r1 hy j)) / ((1 + A.r0) * A.dx0)) ∧
    (A.r0 ∣ b.lo0 → FineX L hx hy A b (b.lo0 - 1) → CoarseX L hx hy A b b.lo0 → ∀ j, InJ A b j →
      (ewing2 A 1 b (raw2 A d e)).x (b.lo0, j) = d (b.lo0, j) * (L.a * hx) / A.dx0 -
        2 * (d (b.lo0, j) - A.xdc (b.lo0, j)) * (L.b * (fine hy j - coarse A.r1 hy j)) / ((1 + A.r0) * A.dx0)) ∧
    (A.r1 ∣ b.up1 + 1 → FineY L hx hy A b (b.up1 + 1) → CoarseY L hx hy A b b.up1 → ∀ i, InI A b i →
      (ewing2 A 2 b (raw2 A d e)).y (i, b.up1 + 1) = e (i, b.up1 + 1) * (L.b * hy) / A.dx1 +
        2 * (e (i, b.up1 + 1) - A.ydc (i, b.up1 + 1)) * (L.a * (fine hx i - coarse A.r0 hx i)) / ((1 + A.r1) * A.dx1)) ∧
    (A.r1 ∣ b.lo1 → FineY L hx hy A b (b.lo1 - 1) → CoarseY L hx hy A b b.lo1 → ∀ i, InI A b i →
      (ewing2 A 3 b (raw2 A d e)).y (i, b.lo1) = e (i, b.lo1) * (L.b * hy) / A.dx1 -
        2 * (e (i, b.lo1) - A.ydc (i, b.lo1)) * (L.a * (fine hx i - coarse A.r0 hx i)) / ((1 + A.r1) * A.dx1)) := by
  refine ⟨?_, ?_, ?_, ?_⟩
  · intro hn hf hc j hj
    have hs := (sweep_rows (max b.lo1 A.j0) (min b.up1 A.j1) A.r1 hw.r1 hw.xlo hw.xup (fun j => (b.up0 + 1, j))
      (fun x y h => (Prod.mk.inj h).2) (fun a v => longwt A.r0 * v + tranwt A.r0 * A.xdc (b.up0 + 1, a.1 + a.2) *
        (A.u (b.up0 + 1, a.1 + opp A.r1 a.2) - A.u (b.up0 + 1, a.1 + a.2)) / A.dx0) (raw2 A d e).x).1 j hj.1 hj.2
    have hm := mirror_range _ _ _ j hw.r1 hw.xlo hw.xup hj.1 hj.2
    have hp : (place A.r1 j).1 + (place A.r1 j).2 = j := by unfold place; simp
    beta_reduce at hs
    rw [hp] at hs
    refine hs.trans ?_
    simp only [raw2, add_sub_cancel_right]
    refine core_lo A.r0 hw.r0 _ _ _ _ _ _ (L.a * hx) _ ?_ ?_
    · rw [hf j hj, hc j hj]
      have := normal_lo A.r0 hw.r0 hx b.up0 hn
      simp only [Lin2.at]
      linear_combination L.a * this
    · rw [hf j hj, hf _ hm]
      simp only [Lin2.at]
      linear_combination L.b * mirror A.r1 hy j
  · intro hn hf hc j hj
    have hs := (sweep_rows (max b.lo1 A.j0) (min b.up1 A.j1) A.r1 hw.r1 hw.xlo hw.xup (fun j => (b.lo0, j))
      (fun x y h => (Prod.mk.inj h).2) (fun a v => longwt A.r0 * v - tranwt A.r0 * A.xdc (b.lo0, a.1 + a.2) *
        (A.u (b.lo0 - 1, a.1 + opp A.r1 a.2) - A.u (b.lo0 - 1, a.1 + a.2)) / A.dx0) (raw2 A d e).x).1 j hj.1 hj.2
    have hm := mirror_range _ _ _ j hw.r1 hw.xlo hw.xup hj.1 hj.2
    have hp : (place A.r1 j).1 + (place A.r1 j).2 = j := by unfold place; simp
    beta_reduce at hs
    rw [hp] at hs
    refine hs.trans ?_
    simp only [raw2]
    refine core_hi A.r0 hw.r0 _ _ _ _ _ _ (L.a * hx) _ ?_ ?_
    · rw [hf j hj, hc j hj]
      have := normal_hi A.r0 hw.r0 hx b.lo0 hn
      simp only [Lin2.at]
      linear_combination L.a * this
    · rw [hf j hj, hf _ hm]
      simp only [Lin2.at]
      linear_combination L.b * mirror A.r1 hy j
  · intro hn hf hc i hi
    have hs := (sweep_rows (max b.lo0 A.i0) (min b.up0 A.i1) A.r0 hw.r0 hw.ylo hw.yup (fun i => (i, b.up1 + 1))
      (fun x y h => (Prod.mk.inj h).1) (fun a v => longwt A.r1 * v + tranwt A.r1 * A.ydc (a.1 + a.2, b.up1 + 1) *
        (A.u (a.1 + opp A.r0 a.2, b.up1 + 1) - A.u (a.1 + a.2, b.up1 + 1)) / A.dx1) (raw2 A d e).y).1 i hi.1 hi.2
    have hm := mirror_range _ _ _ i hw.r0 hw.ylo hw.yup hi.1 hi.2
    have hp : (place A.r0 i).1 + (place A.r0 i).2 = i := by unfold place; simp
    beta_reduce at hs
    rw [hp] at hs
    refine hs.trans ?_
    simp only [raw2, add_sub_cancel_right]
    refine core_lo A.r1 hw.r1 _ _ _ _ _ _ (L.b * hy) _ ?_ ?_
    · rw [hf i hi, hc i hi]
      have := normal_lo A.r1 hw.r1 hy b.up1 hn
      simp only [Lin2.at]
      linear_combination L.b * this
    · rw [hf i hi, hf _ hm]
      simp only [Lin2.at]
      linear_combination L.a * mirror A.r0 hx i
  · intro hn hf hc i hi
    have hs := (sweep_rows (max b.lo0 A.i0) (min b.up0 A.i1) A.r0 hw.r0 hw.ylo hw.yup (fun i => (i, b.lo1))
      (fun x y h => (Prod.mk.inj h).1) (fun a v => longwt A.r1 * v - tranwt A.r1 * A.ydc (a.1 + a.2, b.lo1) *
        (A.u (a.1 + opp A.r0 a.2, b.lo1 - 1) - A.u (a.1 + a.2, b.lo1 - 1)) / A.dx1) (raw2 A d e).y).1 i hi.1 hi.2
    have hm := mirror_range _ _ _ i hw.r0 hw.ylo hw.yup hi.1 hi.2
    have hp : (place A.r0 i).1 + (place A.r0 i).2 = i := by unfold place; simp
    beta_reduce at hs
    rw [hp] at hs
    refine hs.trans ?_
    simp only [raw2]
    refine core_hi A.r1 hw.r1 _ _ _ _ _ _ (L.b * hy) _ ?_ ?_
    · rw [hf i hi, hc i hi]
      have := normal_hi A.r1 hw.r1 hy b.lo1 hn
      simp only [Lin2.at]
      linear_combination L.b * this
    · rw [hf i hi, hf _ hm]
      simp only [Lin2.at]
      linear_combination L.a * mirror A.r0 hx i

/-- **C99** (2D) At each of the four kinds of boundary the corrected flux of a linear function is the coefficient times the slope
normal to the boundary, for every refinement ratio, direction, coefficient field and position within the coarse cell, if the
spacing passed is that of the fine level. -/
theorem c99_exact2 (A : Arg2) (b : Bdry2) (hw : Whole2 A b) (L : Lin2) (h0 : A.dx0 ≠ 0) (h1 : A.dx1 ≠ 0) :
    (A.r0 ∣ b.up0 + 1 → FineX L A.dx0 A.dx1 A b (b.up0 + 1) → CoarseX L A.dx0 A.dx1 A b b.up0 → ∀ j, InJ A b j →
      (ewing2 A 0 b (raw2 A A.xdc A.ydc)).x (b.up0 + 1, j) = A.xdc (b.up0 + 1, j) * L.a) ∧
    (A.r0 ∣ b.lo0 → FineX L A.dx0 A.dx1 A b (b.lo0 - 1) → CoarseX L A.dx0 A.dx1 A b b.lo0 → ∀ j, InJ A b j →
      (ewing2 A 1 b (raw2 A A.xdc A.ydc)).x (b.lo0, j) = A.xdc (b.lo0, j) * L.a) ∧
    (A.r1 ∣ b.up1 + 1 → FineY L A.dx0 A.dx1 A b (b.up1 + 1) → CoarseY L A.dx0 A.dx1 A b b.up1 → ∀ i, InI A b i →
      (ewing2 A 2 b (raw2 A A.xdc A.ydc)).y (i, b.up1 + 1) = A.ydc (i, b.up1 + 1) * L.b) ∧
    (A.r1 ∣ b.lo1 → FineY L A.dx0 A.dx1 A b (b.lo1 - 1) → CoarseY L A.dx0 A.dx1 A b b.lo1 → ∀ i, InI A b i →
      (ewing2 A 3 b (raw2 A A.xdc A.ydc)).y (i, b.lo1) = A.ydc (i, b.lo1) * L.b) := by
  obtain ⟨a0, a1, a2, a3⟩ := linear2 A b hw L A.dx0 A.dx1 A.xdc A.ydc
  refine ⟨fun q1 q2 q3 j hj => ?_, fun q1 q2 q3 j hj => ?_, fun q1 q2 q3 j hj => ?_, fun q1 q2 q3 j hj => ?_⟩
  · rw [a0 q1 q2 q3 j hj, sub_self]; field_simp; ring
  · rw [a1 q1 q2 q3 j hj, sub_self]; field_simp; ring
  · rw [a2 q1 q2 q3 j hj, sub_self]; field_simp; ring
  · rw [a3 q1 q2 q3 j hj, sub_self]; field_simp; ring

/-- **C99** The spacing passed is that of the coarsest level (C59): the flux of a linear function then is the exact one times the
ratio of the spacings, as for the faces inside the level, so the correction itself adds no further error. -/
theorem c99_spacing_partial (A : Arg2) (b : Bdry2) (hw : Whole2 A b) (L : Lin2) (hx hy : ℝ) (hn : A.r0 ∣ b.up0 + 1)
    (hf : FineX L hx hy A b (b.up0 + 1)) (hc : CoarseX L hx hy A b b.up0) (j : ℤ) (hj : InJ A b j) :
    (ewing2 A 0 b (raw2 A A.xdc A.ydc)).x (b.up0 + 1, j) = A.xdc (b.up0 + 1, j) * L.a * (hx / A.dx0) ∧
    ∀ i k, A.u (i, k) = L.at (fine hx i) (fine hy k) → A.u (i - 1, k) = L.at (fine hx (i - 1)) (fine hy k) →
      (raw2 A A.xdc A.ydc).x (i, k) = A.xdc (i, k) * L.a * (hx / A.dx0) := by
  constructor
  · rw [(linear2 A b hw L hx hy A.xdc A.ydc).1 hn hf hc j hj, sub_self]; ring
  · intro i k e1 e2
    simp only [raw2, e1, e2, Lin2.at, fine]
    push_cast
    ring

/-- **C99** The correction changes the faces of the boundary box only. -/
theorem c99_untouched2 (A : Arg2) (b : Bdry2) (hw : Whole2 A b) (F : Flux2) :
    ((ewing2 A 0 b F).y = F.y ∧ ∀ p : ℤ × ℤ, ¬ (p.1 = b.up0 + 1 ∧ InJ A b p.2) → (ewing2 A 0 b F).x p = F.x p) ∧
    ((ewing2 A 1 b F).y = F.y ∧ ∀ p : ℤ × ℤ, ¬ (p.1 = b.lo0 ∧ InJ A b p.2) → (ewing2 A 1 b F).x p = F.x p) ∧
    ((ewing2 A 2 b F).x = F.x ∧ ∀ p : ℤ × ℤ, ¬ (p.2 = b.up1 + 1 ∧ InI A b p.1) → (ewing2 A 2 b F).y p = F.y p) ∧
    ((ewing2 A 3 b F).x = F.x ∧ ∀ p : ℤ × ℤ, ¬ (p.2 = b.lo1 ∧ InI A b p.1) → (ewing2 A 3 b F).y p = F.y p) := by
  refine ⟨⟨rfl, fun p hp => ?_⟩, ⟨rfl, fun p hp => ?_⟩, ⟨rfl, fun p hp => ?_⟩, ⟨rfl, fun p hp => ?_⟩⟩
  · simp only [ewing2]
    exact (sweep_rows _ _ _ hw.r1 hw.xlo hw.xup (fun j => (b.up0 + 1, j)) (fun x y h => (Prod.mk.inj h).2) _ F.x).2 p
      (fun j h1 h2 h => hp (by subst h; exact ⟨rfl, h1, h2⟩))
  · simp only [ewing2]
    exact (sweep_rows _ _ _ hw.r1 hw.xlo hw.xup (fun j => (b.lo0, j)) (fun x y h => (Prod.mk.inj h).2) _ F.x).2 p
      (fun j h1 h2 h => hp (by subst h; exact ⟨rfl, h1, h2⟩))
  · simp only [ewing2]
    exact (sweep_rows _ _ _ hw.r0 hw.ylo hw.yup (fun i => (i, b.up1 + 1)) (fun x y h => (Prod.mk.inj h).1) _ F.y).2 p
      (fun j h1 h2 h => hp (by subst h; exact ⟨rfl, h1, h2⟩))
  · simp only [ewing2]
    exact (sweep_rows _ _ _ hw.r0 hw.ylo hw.yup (fun i => (i, b.lo1)) (fun x y h => (Prod.mk.inj h).1) _ F.y).2 p
      (fun j h1 h2 h => hp (by subst h; exact ⟨rfl, h1, h2⟩))

/-- **C99** (violated for systems whose components have different coefficients) The correction of every component takes the
coefficient of the first one.  The flux of a linear function then is exact exactly where the coefficients agree, or the
function does not vary along the boundary, or the face lies opposite the coarse centre. -/
theorem c99_violation_components (A : Arg2) (b : Bdry2) (hw : Whole2 A b) (L : Lin2) (d e : ℤ × ℤ → ℝ) (h0 : A.dx0 ≠ 0)
    (hn : A.r0 ∣ b.up0 + 1) (hf : FineX L A.dx0 A.dx1 A b (b.up0 + 1)) (hc : CoarseX L A.dx0 A.dx1 A b b.up0) (j : ℤ)
    (hj : InJ A b j) :
    (ewing2 A 0 b (raw2 A d e)).x (b.up0 + 1, j) = d (b.up0 + 1, j) * L.a ↔
      d (b.up0 + 1, j) = A.xdc (b.up0 + 1, j) ∨ L.b = 0 ∨ fine A.dx1 j = coarse A.r1 A.dx1 j := by
  rw [(linear2 A b hw L A.dx0 A.dx1 d e).1 hn hf hc j hj]
  have h1 : (1 + A.r0 : ℝ) ≠ 0 := by
    have : (1 : ℝ) ≤ A.r0 := by exact_mod_cast hw.r0
    positivity
  rw [show d (b.up0 + 1, j) * (L.a * A.dx0) / A.dx0 = d (b.up0 + 1, j) * L.a by field_simp, add_eq_left, div_eq_zero_iff]
  simp only [mul_eq_zero, h1, h0, or_self, or_false, OfNat.ofNat_ne_zero, false_or, sub_eq_zero]

/-- Exchange across a boundary, one coarse face of `r` fine faces: `F` the flux from the coarse cell towards larger values, i.e.
`F p` pulls the fine value `w p` and the coarse value `g` together. -/
def Exchange (D h : ℝ) (r0 : ℤ) (r : ℕ) (F w : ℕ → ℝ) (g : ℝ) : Prop :=
  ∑ p ∈ range r, F p = 2 * D / ((1 + r0) * h) * ∑ p ∈ range r, (w p - g) ∧
  ∑ p ∈ range r, F p * (w p - g) = D / (2 * ((1 + r0) * h)) * ∑ p ∈ range r, (w p + w (r - 1 - p) - 2 * g) ^ 2

theorem exchange_of (D h : ℝ) (r0 : ℤ) (hr0 : 1 ≤ r0) (r : ℕ) (F w : ℕ → ℝ) (g : ℝ)
    (hF : ∀ p < r, F p = longwt r0 * (1 / h * D * (w p - g)) + tranwt r0 * D * (w (r - 1 - p) - w p) / h) :
    Exchange D h r0 r F w g := by
  have h1 : (1 + r0 : ℝ) ≠ 0 := by
    have : (1 : ℝ) ≤ r0 := by exact_mod_cast hr0
    positivity
  have refl : ∀ f : ℕ → ℝ, ∑ p ∈ range r, f (r - 1 - p) = ∑ p ∈ range r, f p := fun f => sum_range_reflect f r
  constructor
  · have e : ∀ p ∈ range r, F p = 2 * D / ((1 + r0) * h) * (w p - g) + D / ((1 + r0) * h) * (w (r - 1 - p) - w p) := by
      intro p hp
      rw [hF p (mem_range.mp hp)]
      unfold longwt tranwt
      rcases eq_or_ne h 0 with rfl | hh
      · simp
      · field_simp
    rw [sum_congr rfl e, sum_add_distrib, ← mul_sum, ← mul_sum, sum_sub_distrib (fun p => w (r - 1 - p)) w, refl w,
      sub_self, mul_zero, add_zero]
  · have e : ∀ p ∈ range r, F p * (w p - g) = D / ((1 + r0) * h) * ((w p - g) ^ 2 + (w p - g) * (w (r - 1 - p) - g)) := by
      intro p hp
      rw [hF p (mem_range.mp hp)]
      unfold longwt tranwt
      rcases eq_or_ne h 0 with rfl | hh
      · simp
      · field_simp
        ring
    have e2 : ∀ p ∈ range r, (w p + w (r - 1 - p) - 2 * g) ^ 2 =
        (w p - g) ^ 2 + 2 * ((w p - g) * (w (r - 1 - p) - g)) + (w (r - 1 - p) - g) ^ 2 := fun p _ => by ring
    rw [sum_congr rfl e, sum_congr rfl e2, ← mul_sum, sum_add_distrib, sum_add_distrib, sum_add_distrib, ← mul_sum,
      refl (fun p => (w p - g) ^ 2)]
    rw [show D / (2 * ((1 + r0) * h)) = D / ((1 + r0) * h) / 2 by rw [div_div]; ring]
    ring

theorem place_block (r J : ℤ) (hJ : r ∣ J) (p : ℕ) (hp : (p : ℤ) < r) : place r (J + p) = (J, (p : ℤ)) := by
  obtain ⟨c, rfl⟩ := hJ
  have : (r * c + (p : ℤ)) % r = p := by
    rw [add_comm, Int.add_mul_emod_self_left, Int.emod_eq_of_lt (by omega) hp]
  unfold place
  rw [this]; simp

/-- **C99** With one coefficient on a coarse face, the fluxes through its fine faces add up to the two-point flux between the
coarse value and the mean of the fine values over the true distance of the centres, `(1 + r)/2` spacings, and the exchange is
dissipative: it is a sum of squares, whatever the values (with positive coefficient it never moves the sides apart).  This
holds on all four kinds of boundary. -/
theorem c99_exchange2 (A : Arg2) (b : Bdry2) (hw : Whole2 A b) (D g : ℝ) (J : ℤ) (e : ℤ × ℤ → ℝ) (r : ℕ) :
    (A.r1 = r → A.r1 ∣ J → InJ A b J → (∀ p < r, A.xdc (b.up0 + 1, J + p) = D) → (∀ p < r, A.u (b.up0, J + p) = g) →
      Exchange D A.dx0 A.r0 r (fun p => (ewing2 A 0 b (raw2 A A.xdc e)).x (b.up0 + 1, J + p))
        (fun p => A.u (b.up0 + 1, J + p)) g) ∧
    (A.r1 = r → A.r1 ∣ J → InJ A b J → (∀ p < r, A.xdc (b.lo0, J + p) = D) → (∀ p < r, A.u (b.lo0, J + p) = g) →
      Exchange D A.dx0 A.r0 r (fun p => - (ewing2 A 1 b (raw2 A A.xdc e)).x (b.lo0, J + p))
        (fun p => A.u (b.lo0 - 1, J + p)) g) ∧
    (A.r0 = r → A.r0 ∣ J → InI A b J → (∀ p < r, A.ydc (J + p, b.up1 + 1) = D) → (∀ p < r, A.u (J + p, b.up1) = g) →
      Exchange D A.dx1 A.r1 r (fun p => (ewing2 A 2 b (raw2 A e A.ydc)).y (J + p, b.up1 + 1))
        (fun p => A.u (J + p, b.up1 + 1)) g) ∧
    (A.r0 = r → A.r0 ∣ J → InI A b J → (∀ p < r, A.ydc (J + p, b.lo1) = D) → (∀ p < r, A.u (J + p, b.lo1) = g) →
      Exchange D A.dx1 A.r1 r (fun p => - (ewing2 A 3 b (raw2 A e A.ydc)).y (J + p, b.lo1))
        (fun p => A.u (J + p, b.lo1 - 1)) g) := by
  have cast : ∀ p < r, ((r - 1 - p : ℕ) : ℤ) = r - p - 1 := fun p hp => by omega
  have rangeJ : ∀ (lo up : ℤ), A.r1 = r → A.r1 ∣ lo → A.r1 ∣ up + 1 → A.r1 ∣ J → lo ≤ J → J ≤ up → ∀ p < r,
      lo ≤ J + (p : ℤ) ∧ J + (p : ℤ) ≤ up := by
    intro lo up hr h1 h2 h3 h4 h5 p hp
    have hm : (J, (p : ℤ)) ∈ rows lo up A.r1 :=
      (mem_rows _ _ _ hw.r1 _).mpr ⟨⟨h4, h5, dvd_sub h3 h1⟩, by simp, by simp only; omega⟩
    exact row_range lo up A.r1 hw.r1 h1 h2 _ hm
  have rangeI : ∀ (lo up : ℤ), A.r0 = r → A.r0 ∣ lo → A.r0 ∣ up + 1 → A.r0 ∣ J → lo ≤ J → J ≤ up → ∀ p < r,
      lo ≤ J + (p : ℤ) ∧ J + (p : ℤ) ≤ up := by
    intro lo up hr h1 h2 h3 h4 h5 p hp
    have hm : (J, (p : ℤ)) ∈ rows lo up A.r0 :=
      (mem_rows _ _ _ hw.r0 _).mpr ⟨⟨h4, h5, dvd_sub h3 h1⟩, by simp, by simp only; omega⟩
    exact row_range lo up A.r0 hw.r0 h1 h2 _ hm
  refine ⟨?_, ?_, ?_, ?_⟩
  · intro hr hJ hj hD hg
    refine exchange_of D A.dx0 A.r0 hw.r0 r _ _ g fun p hp => ?_
    obtain ⟨q1, q2⟩ := rangeJ _ _ hr hw.xlo hw.xup hJ hj.1 hj.2 p hp
    have hs := (sweep_rows (max b.lo1 A.j0) (min b.up1 A.j1) A.r1 hw.r1 hw.xlo hw.xup (fun j => (b.up0 + 1, j))
      (fun x y h => (Prod.mk.inj h).2) (fun a v => longwt A.r0 * v + tranwt A.r0 * A.xdc (b.up0 + 1, a.1 + a.2) *
        (A.u (b.up0 + 1, a.1 + opp A.r1 a.2) - A.u (b.up0 + 1, a.1 + a.2)) / A.dx0) (raw2 A A.xdc e).x).1 _ q1 q2
    refine hs.trans ?_
    rw [place_block A.r1 J hJ p (by omega)]
    simp only [raw2, add_sub_cancel_right, hD p hp, hg p hp, cast p hp, opp, hr]
  · intro hr hJ hj hD hg
    refine exchange_of D A.dx0 A.r0 hw.r0 r _ _ g fun p hp => ?_
    obtain ⟨q1, q2⟩ := rangeJ _ _ hr hw.xlo hw.xup hJ hj.1 hj.2 p hp
    have hs := (sweep_rows (max b.lo1 A.j0) (min b.up1 A.j1) A.r1 hw.r1 hw.xlo hw.xup (fun j => (b.lo0, j))
      (fun x y h => (Prod.mk.inj h).2) (fun a v => longwt A.r0 * v - tranwt A.r0 * A.xdc (b.lo0, a.1 + a.2) *
        (A.u (b.lo0 - 1, a.1 + opp A.r1 a.2) - A.u (b.lo0 - 1, a.1 + a.2)) / A.dx0) (raw2 A A.xdc e).x).1 _ q1 q2
    refine (congrArg Neg.neg hs).trans ?_
    rw [place_block A.r1 J hJ p (by omega)]
    simp only [raw2, hD p hp, hg p hp, cast p hp, opp, hr]
    ring
  · intro hr hJ hj hD hg
    refine exchange_of D A.dx1 A.r1 hw.r1 r _ _ g fun p hp => ?_
    obtain ⟨q1, q2⟩ := rangeI _ _ hr hw.ylo hw.yup hJ hj.1 hj.2 p hp
    have hs := (sweep_rows (max b.lo0 A.i0) (min b.up0 A.i1) A.r0 hw.r0 hw.ylo hw.yup (fun i => (i, b.up1 + 1))
      (fun x y h => (Prod.mk.inj h).1) (fun a v => longwt A.r1 * v + tranwt A.r1 * A.ydc (a.1 + a.2, b.up1 + 1) *
        (A.u (a.1 + opp A.r0 a.2, b.up1 + 1) - A.u (a.1 + a.2, b.up1 + 1)) / A.dx1) (raw2 A e A.ydc).y).1 _ q1 q2
    refine hs.trans ?_
    rw [place_block A.r0 J hJ p (by omega)]
    simp only [raw2, add_sub_cancel_right, hD p hp, hg p hp, cast p hp, opp, hr]
  · intro hr hJ hj hD hg
    refine exchange_of D A.dx1 A.r1 hw.r1 r _ _ g fun p hp => ?_
    obtain ⟨q1, q2⟩ := rangeI _ _ hr hw.ylo hw.yup hJ hj.1 hj.2 p hp
    have hs := (sweep_rows (max b.lo0 A.i0) (min b.up0 A.i1) A.r0 hw.r0 hw.ylo hw.yup (fun i => (i, b.lo1))
      (fun x y h => (Prod.mk.inj h).1) (fun a v => longwt A.r1 * v - tranwt A.r1 * A.ydc (a.1 + a.2, b.lo1) *
        (A.u (a.1 + opp A.r0 a.2, b.lo1 - 1) - A.u (a.1 + a.2, b.lo1 - 1)) / A.dx1) (raw2 A e A.ydc).y).1 _ q1 q2
    refine (congrArg Neg.neg hs).trans ?_
    rw [place_block A.r0 J hJ p (by omega)]
    simp only [raw2, hD p hp, hg p hp, cast p hp, opp, hr]
    ring

/-! ### Other choices of the discretization -/

/-- **C99** (violated for the choice `CONSTANT_REFINE`, which is accepted) Without the correction the flux of a linear function
is `(1 + r)/2` times the slope plus a term of the variation along the boundary. -/
theorem c99_violation_constant_refine (A : Arg2) (b : Bdry2) (hw : Whole2 A b) (L : Lin2) (h0 : A.dx0 ≠ 0) (ln lnMin : ℤ)
    (bs : List (ℕ × Bdry2)) (hn : A.r0 ∣ b.up0 + 1) (hf : FineX L A.dx0 A.dx1 A b (b.up0 + 1))
    (hc : CoarseX L A.dx0 A.dx1 A b b.up0) (j : ℤ) (hj : InJ A b j) :
    (facFlux2 "CONSTANT_REFINE" ln lnMin A A.xdc A.ydc bs).x (b.up0 + 1, j) = A.xdc (b.up0 + 1, j) *
      ((1 + A.r0) / 2 * L.a + L.b * (fine A.dx1 j - coarse A.r1 A.dx1 j) / A.dx0) := by
  have e : facFlux2 "CONSTANT_REFINE" ln lnMin A A.xdc A.ydc bs = raw2 A A.xdc A.ydc := by
    unfold facFlux2; rw [if_neg (by simp)]
  rw [e]
  simp only [raw2, add_sub_cancel_right]
  rw [hf j hj, hc j hj]
  have h1 := normal_lo A.r0 hw.r0 A.dx0 b.up0 hn
  simp only [Lin2.at]
  have h2 : fine A.dx0 (b.up0 + 1) = coarse A.r0 A.dx0 b.up0 + (1 + A.r0) / 2 * A.dx0 := by linarith
  rw [h2]
  field_simp
  ring

/-- **C99** With a refinement that is exact for linear functions the flux needs no correction, and gets none. -/
theorem c99_linear_refine (A : Arg2) (L : Lin2) (h0 : A.dx0 ≠ 0) (ln lnMin : ℤ) (m : String) (hm : m ≠ "Ewing")
    (bs : List (ℕ × Bdry2)) (p : ℤ × ℤ) (h1 : A.u p = L.at (fine A.dx0 p.1) (fine A.dx1 p.2))
    (h2 : A.u (p.1 - 1, p.2) = L.at (fine A.dx0 (p.1 - 1)) (fine A.dx1 p.2)) :
    (facFlux2 m ln lnMin A A.xdc A.ydc bs).x p = A.xdc p * L.a := by
  have e : facFlux2 m ln lnMin A A.xdc A.ydc bs = raw2 A A.xdc A.ydc := by
    unfold facFlux2; rw [if_neg (fun h => hm h.1)]
  rw [e]
  simp only [raw2, h1, h2, Lin2.at, fine]
  push_cast
  field_simp
  ring

/-- **C99** On the coarsest level nothing is corrected; on finer ones the default applies the correction of every boundary box,
and the ghost cells are filled with the coarse values it expects. -/
theorem c99_default (A : Arg2) (d e : ℤ × ℤ → ℝ) (ln lnMin : ℤ) (bs : List (ℕ × Bdry2)) :
    (ln ≤ lnMin → facFlux2 "Ewing" ln lnMin A d e bs = raw2 A d e) ∧
    (lnMin < ln → ∀ n b, facFlux2 "Ewing" ln lnMin A d e [(n, b)] = ewing2 A n b (raw2 A d e)) ∧
    refineOp "Ewing" = "CONSTANT_REFINE" ∧ ∀ m, m ≠ "Ewing" → refineOp m = m := by
  refine ⟨fun h => ?_, fun h n b => ?_, rfl, fun m hm => if_neg hm⟩
  · unfold facFlux2; rw [if_neg (by rintro ⟨-, h'⟩; omega)]
  · unfold facFlux2; rw [if_pos ⟨rfl, h⟩]; rfl

/-- **C99** (violated) The solver of the orientations has no correction: with its default, on every hierarchy with more than one
level the run ends with an error when the flux of a finer level is needed; it goes on exactly if the input asks for another
discretization. -/
theorem c99_violation_orientation (entry : Option String) (ln lnMin : ℤ) (h : lnMin < ln) (raw : Flux2) :
    (quatFlux (quatMethod none) ln lnMin raw = none) ∧
    (quatFlux (quatMethod entry) ln lnMin raw ≠ none ↔ ∃ m, entry = some m ∧ m ≠ "Ewing") := by
  refine ⟨by simp [quatFlux, quatMethod, h], ?_⟩
  unfold quatFlux
  cases entry with
  | none => simp [quatMethod, h]
  | some m =>
    simp only [quatMethod, Option.getD_some, h, and_true]
    by_cases hm : m = "Ewing" <;> simp [hm]

/-! ### 3D -/

/-- A linear function in space. -/
structure Lin3 where
  c : ℝ
  a : ℝ
  b : ℝ
  d : ℝ

def Lin3.at (L : Lin3) (x y z : ℝ) : ℝ := L.c + L.a * x + L.b * y + L.d * z

/-- The faces touched by the routine belong to whole coarse cells. -/
structure Whole3 (A : Arg3) (b : Bdry3) : Prop where
  r0 : 1 ≤ A.r0
  r1 : 1 ≤ A.r1
  r2 : 1 ≤ A.r2
  lo0 : A.r0 ∣ max b.lo0 A.i0
  up0 : A.r0 ∣ min b.up0 A.i1 + 1
  lo1 : A.r1 ∣ max b.lo1 A.j0
  up1 : A.r1 ∣ min b.up1 A.j1 + 1
  lo2 : A.r2 ∣ max b.lo2 A.k0
  up2 : A.r2 ∣ min b.up2 A.k1 + 1

def In0 (A : Arg3) (b : Bdry3) (i : ℤ) : Prop := max b.lo0 A.i0 ≤ i ∧ i ≤ min b.up0 A.i1
def In1 (A : Arg3) (b : Bdry3) (j : ℤ) : Prop := max b.lo1 A.j0 ≤ j ∧ j ≤ min b.up1 A.j1
def In2 (A : Arg3) (b : Bdry3) (k : ℤ) : Prop := max b.lo2 A.k0 ≤ k ∧ k ≤ min b.up2 A.k1

/-- Fine and coarse value of the function in (the coarse cell of) a fine cell. -/
noncomputable def atFine (L : Lin3) (A : Arg3) (i j k : ℤ) : ℝ := L.at (fine A.dx0 i) (fine A.dx1 j) (fine A.dx2 k)
noncomputable def atCoarse (L : Lin3) (A : Arg3) (i j k : ℤ) : ℝ :=
  L.at (coarse A.r0 A.dx0 i) (coarse A.r1 A.dx1 j) (coarse A.r2 A.dx2 k)

/-- **C99** (3D) The same at the six kinds of boundary. -/
theorem c99_exact3 (A : Arg3) (b : Bdry3) (hw : Whole3 A b) (L : Lin3) (h0 : A.dx0 ≠ 0) (h1 : A.dx1 ≠ 0) (h2 : A.dx2 ≠ 0) :
    (A.r0 ∣ b.up0 + 1 → (∀ j k, In1 A b j → In2 A b k → A.u (b.up0 + 1, j, k) = atFine L A (b.up0 + 1) j k) →
      (∀ j k, In1 A b j → In2 A b k → A.u (b.up0, j, k) = atCoarse L A b.up0 j k) → ∀ j k, In1 A b j → In2 A b k →
      (ewing3 A 0 b (raw3 A A.xdc A.ydc A.zdc)).x (b.up0 + 1, j, k) = A.xdc (b.up0 + 1, j, k) * L.a) ∧
    (A.r0 ∣ b.lo0 → (∀ j k, In1 A b j → In2 A b k → A.u (b.lo0 - 1, j, k) = atFine L A (b.lo0 - 1) j k) →
      (∀ j k, In1 A b j → In2 A b k → A.u (b.lo0, j, k) = atCoarse L A b.lo0 j k) → ∀ j k, In1 A b j → In2 A b k →
      (ewing3 A 1 b (raw3 A A.xdc A.ydc A.zdc)).x (b.lo0, j, k) = A.xdc (b.lo0, j, k) * L.a) ∧
    (A.r1 ∣ b.up1 + 1 → (∀ i k, In0 A b i → In2 A b k → A.u (i, b.up1 + 1, k) = atFine L A i (b.up1 + 1) k) →
      (∀ i k, In0 A b i → In2 A b k → A.u (i, b.up1, k) = atCoarse L A i b.up1 k) → ∀ i k, In0 A b i → In2 A b k →
      (ewing3 A 2 b (raw3 A A.xdc A.ydc A.zdc)).y (i, b.up1 + 1, k) = A.ydc (i, b.up1 + 1, k) * L.b) ∧
    (A.r1 ∣ b.lo1 → (∀ i k, In0 A b i → In2 A b k → A.u (i, b.lo1 - 1, k) = atFine L A i (b.lo1 - 1) k) →
      (∀ i k, In0 A b i → In2 A b k → A.u (i, b.lo1, k) = atCoarse L A i b.lo1 k) → ∀ i k, In0 A b i → In2 A b k →
      (ewing3 A 3 b (raw3 A A.xdc A.ydc A.zdc)).y (i, b.lo1, k) = A.ydc (i, b.lo1, k) * L.b) ∧
    (A.r2 ∣ b.up2 + 1 → (∀ i j, In0 A b i → In1 A b j → A.u (i, j, b.up2 + 1) = atFine L A i j (b.up2 + 1)) →
      (∀ i j, In0 A b i → In1 A b j → A.u (i, j, b.up2) = atCoarse L A i j b.up2) → ∀ i j, In0 A b i → In1 A b j →
      (ewing3 A 4 b (raw3 A A.xdc A.ydc A.zdc)).z (i, j, b.up2 + 1) = A.zdc (i, j, b.up2 + 1) * L.d) ∧
    (A.r2 ∣ b.lo2 → (∀ i j, In0 A b i → In1 A b j → A.u (i, j, b.lo2 - 1) = atFine L A i j (b.lo2 - 1)) →
      (∀ i j, In0 A b i → In1 A b j → A.u (i, j, b.lo2) = atCoarse L A i j b.lo2) → ∀ i j, In0 A b i → In1 A b j →
      (ewing3 A 5 b (raw3 A A.xdc A.ydc A.zdc)).z (i, j, b.lo2) = A.zdc (i, j, b.lo2) * L.d) := by
  refine ⟨?_, ?_, ?_, ?_, ?_, ?_⟩
  · intro hn hf hc j k hj hk
    have hs := (sweep_quads (max b.lo2 A.k0) (min b.up2 A.k1) A.r2 (max b.lo1 A.j0) (min b.up1 A.j1) A.r1 hw.r2 hw.r1
      hw.lo2 hw.up2 hw.lo1 hw.up1 (fun k j => (b.up0 + 1, j, k)) (fun _ _ _ _ h => by simpa [and_comm] using h) (fun a v => longwt A.r0 * v + tranwt A.r0 * A.xdc (b.up0 + 1, a.2.1 + a.2.2, a.1.1 + a.1.2) *
        (A.u (b.up0 + 1, a.2.1 + opp A.r1 a.2.2, a.1.1 + opp A.r2 a.1.2)
          - A.u (b.up0 + 1, a.2.1 + a.2.2, a.1.1 + a.1.2)) / A.dx0)
      (raw3 A A.xdc A.ydc A.zdc).x).1 k j hk.1 hk.2 hj.1 hj.2
    have mk := mirror_range _ _ _ k hw.r2 hw.lo2 hw.up2 hk.1 hk.2
    have mj := mirror_range _ _ _ j hw.r1 hw.lo1 hw.up1 hj.1 hj.2
    have p1 : (place A.r2 k).1 + (place A.r2 k).2 = k := by unfold place; simp
    have p2 : (place A.r1 j).1 + (place A.r1 j).2 = j := by unfold place; simp
    beta_reduce at hs
    rw [p1, p2] at hs
    refine hs.trans ?_
    simp only [raw3, add_sub_cancel_right]
    refine (core_lo A.r0 hw.r0 _ _ _ _ _ _ (L.a * A.dx0)
      (L.d * (fine A.dx2 k - coarse A.r2 A.dx2 k) +
        L.b * (fine A.dx1 j - coarse A.r1 A.dx1 j)) ?_ ?_).trans ?_
    · rw [hf j k hj hk, hc j k hj hk]
      have := normal_lo A.r0 hw.r0 A.dx0 b.up0 hn
      simp only [atFine, atCoarse, Lin3.at]
      linear_combination L.a * this
    · rw [hf j k hj hk, hf _ _ mj mk]
      simp only [atFine, Lin3.at]
      linear_combination L.d * mirror A.r2 A.dx2 k + L.b * mirror A.r1 A.dx1 j
    · rw [sub_self]
      have := h0
      field_simp
      ring
  · intro hn hf hc j k hj hk
    have hs := (sweep_quads (max b.lo2 A.k0) (min b.up2 A.k1) A.r2 (max b.lo1 A.j0) (min b.up1 A.j1) A.r1 hw.r2 hw.r1
      hw.lo2 hw.up2 hw.lo1 hw.up1 (fun k j => (b.lo0, j, k)) (fun _ _ _ _ h => by simpa [and_comm] using h) (fun a v => longwt A.r0 * v - tranwt A.r0 * A.xdc (b.lo0, a.2.1 + a.2.2, a.1.1 + a.1.2) *
        (A.u (b.lo0 - 1, a.2.1 + opp A.r1 a.2.2, a.1.1 + opp A.r2 a.1.2)
          - A.u (b.lo0 - 1, a.2.1 + a.2.2, a.1.1 + a.1.2)) / A.dx0)
      (raw3 A A.xdc A.ydc A.zdc).x).1 k j hk.1 hk.2 hj.1 hj.2
    have mk := mirror_range _ _ _ k hw.r2 hw.lo2 hw.up2 hk.1 hk.2
    have mj := mirror_range _ _ _ j hw.r1 hw.lo1 hw.up1 hj.1 hj.2
    have p1 : (place A.r2 k).1 + (place A.r2 k).2 = k := by unfold place; simp
    have p2 : (place A.r1 j).1 + (place A.r1 j).2 = j := by unfold place; simp
    beta_reduce at hs
    rw [p1, p2] at hs
    refine hs.trans ?_
    simp only [raw3]
    refine (core_hi A.r0 hw.r0 _ _ _ _ _ _ (L.a * A.dx0)
      (L.d * (fine A.dx2 k - coarse A.r2 A.dx2 k) +
        L.b * (fine A.dx1 j - coarse A.r1 A.dx1 j)) ?_ ?_).trans ?_
    · rw [hf j k hj hk, hc j k hj hk]
      have := normal_hi A.r0 hw.r0 A.dx0 b.lo0 hn
      simp only [atFine, atCoarse, Lin3.at]
      linear_combination L.a * this
    · rw [hf j k hj hk, hf _ _ mj mk]
      simp only [atFine, Lin3.at]
      linear_combination L.d * mirror A.r2 A.dx2 k + L.b * mirror A.r1 A.dx1 j
    · rw [sub_self]
      have := h0
      field_simp
      ring
  · intro hn hf hc i k hi hk
    have hs := (sweep_quads (max b.lo0 A.i0) (min b.up0 A.i1) A.r0 (max b.lo2 A.k0) (min b.up2 A.k1) A.r2 hw.r0 hw.r2
      hw.lo0 hw.up0 hw.lo2 hw.up2 (fun i k => (i, b.up1 + 1, k)) (fun _ _ _ _ h => by simpa [and_comm] using h) (fun a v => longwt A.r1 * v + tranwt A.r1 * A.ydc (a.1.1 + a.1.2, b.up1 + 1, a.2.1 + a.2.2) *
        (A.u (a.1.1 + opp A.r0 a.1.2, b.up1 + 1, a.2.1 + opp A.r2 a.2.2)
          - A.u (a.1.1 + a.1.2, b.up1 + 1, a.2.1 + a.2.2)) / A.dx1)
      (raw3 A A.xdc A.ydc A.zdc).y).1 i k hi.1 hi.2 hk.1 hk.2
    have mi := mirror_range _ _ _ i hw.r0 hw.lo0 hw.up0 hi.1 hi.2
    have mk := mirror_range _ _ _ k hw.r2 hw.lo2 hw.up2 hk.1 hk.2
    have p1 : (place A.r0 i).1 + (place A.r0 i).2 = i := by unfold place; simp
    have p2 : (place A.r2 k).1 + (place A.r2 k).2 = k := by unfold place; simp
    beta_reduce at hs
    rw [p1, p2] at hs
    refine hs.trans ?_
    simp only [raw3, add_sub_cancel_right]
    refine (core_lo A.r1 hw.r1 _ _ _ _ _ _ (L.b * A.dx1)
      (L.a * (fine A.dx0 i - coarse A.r0 A.dx0 i) +
        L.d * (fine A.dx2 k - coarse A.r2 A.dx2 k)) ?_ ?_).trans ?_
    · rw [hf i k hi hk, hc i k hi hk]
      have := normal_lo A.r1 hw.r1 A.dx1 b.up1 hn
      simp only [atFine, atCoarse, Lin3.at]
      linear_combination L.b * this
    · rw [hf i k hi hk, hf _ _ mi mk]
      simp only [atFine, Lin3.at]
      linear_combination L.a * mirror A.r0 A.dx0 i + L.d * mirror A.r2 A.dx2 k
    · rw [sub_self]
      have := h1
      field_simp
      ring
  · intro hn hf hc i k hi hk
    have hs := (sweep_quads (max b.lo0 A.i0) (min b.up0 A.i1) A.r0 (max b.lo2 A.k0) (min b.up2 A.k1) A.r2 hw.r0 hw.r2
      hw.lo0 hw.up0 hw.lo2 hw.up2 (fun i k => (i, b.lo1, k)) (fun _ _ _ _ h => by simpa [and_comm] using h) (fun a v => longwt A.r1 * v - tranwt A.r1 * A.ydc (a.1.1 + a.1.2, b.lo1, a.2.1 + a.2.2) *
        (A.u (a.1.1 + opp A.r0 a.1.2, b.lo1 - 1, a.2.1 + opp A.r2 a.2.2)
          - A.u (a.1.1 + a.1.2, b.lo1 - 1, a.2.1 + a.2.2)) / A.dx1)
      (raw3 A A.xdc A.ydc A.zdc).y).1 i k hi.1 hi.2 hk.1 hk.2
    have mi := mirror_range _ _ _ i hw.r0 hw.lo0 hw.up0 hi.1 hi.2
    have mk := mirror_range _ _ _ k hw.r2 hw.lo2 hw.up2 hk.1 hk.2
    have p1 : (place A.r0 i).1 + (place A.r0 i).2 = i := by unfold place; simp
    have p2 : (place A.r2 k).1 + (place A.r2 k).2 = k := by unfold place; simp
    beta_reduce at hs
    rw [p1, p2] at hs
    refine hs.trans ?_
    simp only [raw3]
    refine (core_hi A.r1 hw.r1 _ _ _ _ _ _ (L.b * A.dx1)
      (L.a * (fine A.dx0 i - coarse A.r0 A.dx0 i) +
        L.d * (fine A.dx2 k - coarse A.r2 A.dx2 k)) ?_ ?_).trans ?_
    · rw [hf i k hi hk, hc i k hi hk]
      have := normal_hi A.r1 hw.r1 A.dx1 b.lo1 hn
      simp only [atFine, atCoarse, Lin3.at]
      linear_combination L.b * this
    · rw [hf i k hi hk, hf _ _ mi mk]
      simp only [atFine, Lin3.at]
      linear_combination L.a * mirror A.r0 A.dx0 i + L.d * mirror A.r2 A.dx2 k
    · rw [sub_self]
      have := h1
      field_simp
      ring
  · intro hn hf hc i j hi hj
    have hs := (sweep_quads (max b.lo0 A.i0) (min b.up0 A.i1) A.r0 (max b.lo1 A.j0) (min b.up1 A.j1) A.r1 hw.r0 hw.r1
      hw.lo0 hw.up0 hw.lo1 hw.up1 (fun i j => (i, j, b.up2 + 1)) (fun _ _ _ _ h => by simpa [and_comm] using h) (fun a v => longwt A.r2 * v + tranwt A.r2 * A.zdc (a.1.1 + a.1.2, a.2.1 + a.2.2, b.up2 + 1) *
        (A.u (a.1.1 + opp A.r0 a.1.2, a.2.1 + opp A.r1 a.2.2, b.up2 + 1)
          - A.u (a.1.1 + a.1.2, a.2.1 + a.2.2, b.up2 + 1)) / A.dx2)
      (raw3 A A.xdc A.ydc A.zdc).z).1 i j hi.1 hi.2 hj.1 hj.2
    have mi := mirror_range _ _ _ i hw.r0 hw.lo0 hw.up0 hi.1 hi.2
    have mj := mirror_range _ _ _ j hw.r1 hw.lo1 hw.up1 hj.1 hj.2
    have p1 : (place A.r0 i).1 + (place A.r0 i).2 = i := by unfold place; simp
    have p2 : (place A.r1 j).1 + (place A.r1 j).2 = j := by unfold place; simp
    beta_reduce at hs
    rw [p1, p2] at hs
    refine hs.trans ?_
    simp only [raw3, add_sub_cancel_right]
    refine (core_lo A.r2 hw.r2 _ _ _ _ _ _ (L.d * A.dx2)
      (L.a * (fine A.dx0 i - coarse A.r0 A.dx0 i) +
        L.b * (fine A.dx1 j - coarse A.r1 A.dx1 j)) ?_ ?_).trans ?_
    · rw [hf i j hi hj, hc i j hi hj]
      have := normal_lo A.r2 hw.r2 A.dx2 b.up2 hn
      simp only [atFine, atCoarse, Lin3.at]
      linear_combination L.d * this
    · rw [hf i j hi hj, hf _ _ mi mj]
      simp only [atFine, Lin3.at]
      linear_combination L.a * mirror A.r0 A.dx0 i + L.b * mirror A.r1 A.dx1 j
    · rw [sub_self]
      have := h2
      field_simp
      ring
  · intro hn hf hc i j hi hj
    have hs := (sweep_quads (max b.lo0 A.i0) (min b.up0 A.i1) A.r0 (max b.lo1 A.j0) (min b.up1 A.j1) A.r1 hw.r0 hw.r1
      hw.lo0 hw.up0 hw.lo1 hw.up1 (fun i j => (i, j, b.lo2)) (fun _ _ _ _ h => by simpa [and_comm] using h) (fun a v => longwt A.r2 * v - tranwt A.r2 * A.zdc (a.1.1 + a.1.2, a.2.1 + a.2.2, b.lo2) *
        (A.u (a.1.1 + opp A.r0 a.1.2, a.2.1 + opp A.r1 a.2.2, b.lo2 - 1)
          - A.u (a.1.1 + a.1.2, a.2.1 + a.2.2, b.lo2 - 1)) / A.dx2)
      (raw3 A A.xdc A.ydc A.zdc).z).1 i j hi.1 hi.2 hj.1 hj.2
    have mi := mirror_range _ _ _ i hw.r0 hw.lo0 hw.up0 hi.1 hi.2
    have mj := mirror_range _ _ _ j hw.r1 hw.lo1 hw.up1 hj.1 hj.2
    have p1 : (place A.r0 i).1 + (place A.r0 i).2 = i := by unfold place; simp
    have p2 : (place A.r1 j).1 + (place A.r1 j).2 = j := by unfold place; simp
    beta_reduce at hs
    rw [p1, p2] at hs
    refine hs.trans ?_
    simp only [raw3]
    refine (core_hi A.r2 hw.r2 _ _ _ _ _ _ (L.d * A.dx2)
      (L.a * (fine A.dx0 i - coarse A.r0 A.dx0 i) +
        L.b * (fine A.dx1 j - coarse A.r1 A.dx1 j)) ?_ ?_).trans ?_
    · rw [hf i j hi hj, hc i j hi hj]
      have := normal_hi A.r2 hw.r2 A.dx2 b.lo2 hn
      simp only [atFine, atCoarse, Lin3.at]
      linear_combination L.d * this
    · rw [hf i j hi hj, hf _ _ mi mj]
      simp only [atFine, Lin3.at]
      linear_combination L.a * mirror A.r0 A.dx0 i + L.b * mirror A.r1 A.dx1 j
    · rw [sub_self]
      have := h2
      field_simp
      ring

/-- **C99** (3D) The correction changes the faces of the boundary box only. -/
theorem c99_untouched3 (A : Arg3) (b : Bdry3) (hw : Whole3 A b) (F : Flux3) :
    ((ewing3 A 0 b F).y = F.y ∧ (ewing3 A 0 b F).z = F.z ∧
      ∀ p : ℤ × ℤ × ℤ, ¬ (p.1 = b.up0 + 1 ∧ In1 A b p.2.1 ∧ In2 A b p.2.2) →
        (ewing3 A 0 b F).x p = F.x p) ∧
    ((ewing3 A 1 b F).y = F.y ∧ (ewing3 A 1 b F).z = F.z ∧
      ∀ p : ℤ × ℤ × ℤ, ¬ (p.1 = b.lo0 ∧ In1 A b p.2.1 ∧ In2 A b p.2.2) →
        (ewing3 A 1 b F).x p = F.x p) ∧
    ((ewing3 A 2 b F).x = F.x ∧ (ewing3 A 2 b F).z = F.z ∧
      ∀ p : ℤ × ℤ × ℤ, ¬ (p.2.1 = b.up1 + 1 ∧ In0 A b p.1 ∧ In2 A b p.2.2) →
        (ewing3 A 2 b F).y p = F.y p) ∧
    ((ewing3 A 3 b F).x = F.x ∧ (ewing3 A 3 b F).z = F.z ∧
      ∀ p : ℤ × ℤ × ℤ, ¬ (p.2.1 = b.lo1 ∧ In0 A b p.1 ∧ In2 A b p.2.2) →
        (ewing3 A 3 b F).y p = F.y p) ∧
    ((ewing3 A 4 b F).x = F.x ∧ (ewing3 A 4 b F).y = F.y ∧
      ∀ p : ℤ × ℤ × ℤ, ¬ (p.2.2 = b.up2 + 1 ∧ In0 A b p.1 ∧ In1 A b p.2.1) →
        (ewing3 A 4 b F).z p = F.z p) ∧
    ((ewing3 A 5 b F).x = F.x ∧ (ewing3 A 5 b F).y = F.y ∧
      ∀ p : ℤ × ℤ × ℤ, ¬ (p.2.2 = b.lo2 ∧ In0 A b p.1 ∧ In1 A b p.2.1) →
        (ewing3 A 5 b F).z p = F.z p) := by
  refine ⟨?_, ?_, ?_, ?_, ?_, ?_⟩
  · refine ⟨rfl, rfl, fun p hp => ?_⟩
    simp only [ewing3]
    exact (sweep_quads _ _ _ _ _ _ hw.r2 hw.r1 hw.lo2 hw.up2 hw.lo1 hw.up1 (fun k j => (b.up0 + 1, j, k))
      (fun _ _ _ _ h => by simpa [and_comm] using h) _ F.x).2 p
      (fun _ _ h1 h2 h3 h4 h => hp (by subst h; exact ⟨rfl, ⟨h3, h4⟩, ⟨h1, h2⟩⟩))
  · refine ⟨rfl, rfl, fun p hp => ?_⟩
    simp only [ewing3]
    exact (sweep_quads _ _ _ _ _ _ hw.r2 hw.r1 hw.lo2 hw.up2 hw.lo1 hw.up1 (fun k j => (b.lo0, j, k))
      (fun _ _ _ _ h => by simpa [and_comm] using h) _ F.x).2 p
      (fun _ _ h1 h2 h3 h4 h => hp (by subst h; exact ⟨rfl, ⟨h3, h4⟩, ⟨h1, h2⟩⟩))
  · refine ⟨rfl, rfl, fun p hp => ?_⟩
    simp only [ewing3]
    exact (sweep_quads _ _ _ _ _ _ hw.r0 hw.r2 hw.lo0 hw.up0 hw.lo2 hw.up2 (fun i k => (i, b.up1 + 1, k))
      (fun _ _ _ _ h => by simpa [and_comm] using h) _ F.y).2 p
      (fun _ _ h1 h2 h3 h4 h => hp (by subst h; exact ⟨rfl, ⟨h1, h2⟩, ⟨h3, h4⟩⟩))
  · refine ⟨rfl, rfl, fun p hp => ?_⟩
    simp only [ewing3]
    exact (sweep_quads _ _ _ _ _ _ hw.r0 hw.r2 hw.lo0 hw.up0 hw.lo2 hw.up2 (fun i k => (i, b.lo1, k))
      (fun _ _ _ _ h => by simpa [and_comm] using h) _ F.y).2 p
      (fun _ _ h1 h2 h3 h4 h => hp (by subst h; exact ⟨rfl, ⟨h1, h2⟩, ⟨h3, h4⟩⟩))
  · refine ⟨rfl, rfl, fun p hp => ?_⟩
    simp only [ewing3]
    exact (sweep_quads _ _ _ _ _ _ hw.r0 hw.r1 hw.lo0 hw.up0 hw.lo1 hw.up1 (fun i j => (i, j, b.up2 + 1))
      (fun _ _ _ _ h => by simpa [and_comm] using h) _ F.z).2 p
      (fun _ _ h1 h2 h3 h4 h => hp (by subst h; exact ⟨rfl, ⟨h1, h2⟩, ⟨h3, h4⟩⟩))
  · refine ⟨rfl, rfl, fun p hp => ?_⟩
    simp only [ewing3]
    exact (sweep_quads _ _ _ _ _ _ hw.r0 hw.r1 hw.lo0 hw.up0 hw.lo1 hw.up1 (fun i j => (i, j, b.lo2))
      (fun _ _ _ _ h => by simpa [and_comm] using h) _ F.z).2 p
      (fun _ _ h1 h2 h3 h4 h => hp (by subst h; exact ⟨rfl, ⟨h1, h2⟩, ⟨h3, h4⟩⟩))

/-! ### The hypotheses are met -/

/-- A patch of `4 × 4` cells with ratio 2, coarse cells on its left, and the function `1 + 2 x + 3 y`. -/
noncomputable def sample2 : Arg2 :=
  ⟨4, 7, 4, 7, 2, 2, fun _ => 5, fun _ => 5,
    fun p => if p.1 < 4 then Lin2.at ⟨1, 2, 3⟩ (coarse 2 (1 / 10) p.1) (coarse 2 (1 / 10) p.2)
      else Lin2.at ⟨1, 2, 3⟩ (fine (1 / 10) p.1) (fine (1 / 10) p.2), 1 / 10, 1 / 10⟩

def left2 : Bdry2 := ⟨3, 3, 4, 7⟩

theorem whole_sample2 : Whole2 sample2 left2 := by
  constructor <;> norm_num [sample2, left2]

example (j : ℤ) (h : 4 ≤ j ∧ j ≤ 7) :
    (ewing2 sample2 0 left2 (raw2 sample2 sample2.xdc sample2.ydc)).x (4, j) = 5 * 2 :=
  (c99_exact2 sample2 left2 whole_sample2 ⟨1, 2, 3⟩ (by norm_num [sample2]) (by norm_num [sample2])).1
    (by norm_num [sample2, left2]) (fun _ _ => by norm_num [sample2, left2]) (fun _ _ => by norm_num [sample2, left2]) j
    (by simpa [InJ, sample2, left2] using h)

/-- The same in space. -/
noncomputable def sample3 : Arg3 :=
  ⟨4, 7, 4, 7, 4, 7, 2, 2, 2, fun _ => 5, fun _ => 5, fun _ => 5,
    fun p => if p.1 < 4 then Lin3.at ⟨1, 2, 3, 4⟩ (coarse 2 (1 / 10) p.1) (coarse 2 (1 / 10) p.2.1) (coarse 2 (1 / 10) p.2.2)
      else Lin3.at ⟨1, 2, 3, 4⟩ (fine (1 / 10) p.1) (fine (1 / 10) p.2.1) (fine (1 / 10) p.2.2), 1 / 10, 1 / 10, 1 / 10⟩

def left3 : Bdry3 := ⟨3, 3, 4, 7, 4, 7⟩

theorem whole_sample3 : Whole3 sample3 left3 := by
  constructor <;> norm_num [sample3, left3]

example (j k : ℤ) (h : 4 ≤ j ∧ j ≤ 7) (h' : 4 ≤ k ∧ k ≤ 7) :
    (ewing3 sample3 0 left3 (raw3 sample3 sample3.xdc sample3.ydc sample3.zdc)).x (4, j, k) = 5 * 2 :=
  (c99_exact3 sample3 left3 whole_sample3 ⟨1, 2, 3, 4⟩ (by norm_num [sample3]) (by norm_num [sample3])
    (by norm_num [sample3])).1
    (by norm_num [sample3, left3]) (fun _ _ _ _ => by norm_num [sample3, left3, atFine])
    (fun _ _ _ _ => by norm_num [sample3, left3, atCoarse]) j k
    (by simpa [In1, sample3, left3] using h) (by simpa [In2, sample3, left3] using h')

end AMPE.CoarseFine.Props
