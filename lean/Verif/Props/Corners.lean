import Verif.Model.Corners
import Mathlib.Tactic.Linarith
import Mathlib.Tactic.NormNum
import Mathlib.Tactic.FinCases

/-!
# C154: the generator of four grains in the corners

Positions: cell `(i, j, k)` has its centre at `(i + 1/2, j + 1/2, k + 1/2)`.
-/

namespace AMPE.Corners.Props

open AMPE.Corners

/-! ## Specification -/

/-- The cell lies left of the middle of the domain (or on it). -/
def Left (nx i : ℕ) : Prop := 2 * i + 1 ≤ nx
/-- The cell lies in the lower half. -/
def Lower (ny j : ℕ) : Prop := 2 * j + 1 ≤ ny

instance (nx i : ℕ) : Decidable (Left nx i) := inferInstanceAs (Decidable (_ ≤ _))
instance (ny j : ℕ) : Decidable (Lower ny j) := inferInstanceAs (Decidable (_ ≤ _))

/-- The corner whose quarter of the domain holds the cell: lower left, upper left, lower right, upper right. -/
def IsQuarter (nx ny i j : ℕ) (g : Fin 4) : Prop :=
  match g with
  | 0 => Left nx i ∧ Lower ny j
  | 1 => Left nx i ∧ ¬ Lower ny j
  | 2 => ¬ Left nx i ∧ Lower ny j
  | 3 => ¬ Left nx i ∧ ¬ Lower ny j

/-- The cell lies in the ball of half the width of the domain about a corner. -/
def InBall (nx ny i j k : ℕ) : Prop :=
  ∃ cx ∈ ({0, (nx : ℝ)} : Set ℝ), ∃ cy ∈ ({0, (ny : ℝ)} : Set ℝ),
    (i + 1 / 2 - cx) ^ 2 + (j + 1 / 2 - cy) ^ 2 + (k : ℝ) ^ 2 ≤ ((nx : ℝ) / 2) ^ 2

/-! ## Lemmas -/

theorem near' (x1 y1 z1 x2 y2 z2 r : ℝ) :
    distancemax x1 y1 z1 x2 y2 z2 ≤ r ↔ x1 - x2 ≤ r ∧ y1 - y2 ≤ r ∧ z1 - z2 ≤ r := by
  simp only [distancemax]
  split_ifs
  all_goals
    constructor
    · intro h
      exact ⟨by linarith, by linarith, by linarith⟩
    · rintro ⟨h1, h2, h3⟩
      linarith

theorem half (a n : ℕ) : ((a : ℝ) + 0.5 ≤ n / 2) ↔ 2 * a + 1 ≤ n := by
  rw [show ((a : ℝ) + 0.5 ≤ n / 2) ↔ (2 * (a : ℝ) + 1 ≤ n) by constructor <;> intro h <;> linarith]
  exact_mod_cast Iff.rfl

theorem deep (k n : ℕ) : ((k : ℝ) ≤ n / 2) ↔ 2 * k ≤ n := by
  rw [show ((k : ℝ) ≤ n / 2) ↔ (2 * (k : ℝ) ≤ n) by constructor <;> intro h <;> linarith]
  exact_mod_cast Iff.rfl

/-- Which grain the script finds. -/
theorem grain_eq (nx ny i j k : ℕ) (hi : i < nx) (hj : j < ny) :
    grain nx ny i j k = if nx < 2 * k then none
      else if Left nx i then (if Lower nx j then some 0 else some 1) else (if Lower nx j then some 2 else some 3) := by
  have hi' : (i : ℝ) + 1 ≤ nx := by exact_mod_cast hi
  have hj' : (j : ℝ) + 1 ≤ ny := by exact_mod_cast hj
  have n0 : (0 : ℝ) ≤ nx := Nat.cast_nonneg _
  have e0 : distancemax (i + 0.5) (j + 0.5) (k + 0.5) (centre nx ny 0).1 (centre nx ny 0).2.1 (centre nx ny 0).2.2 ≤ radius nx ↔
      Left nx i ∧ Lower nx j ∧ 2 * k ≤ nx := by
    rw [near', Left, Lower, ← half, ← half, ← deep]
    simp only [centre, radius, sub_zero, add_sub_cancel_right]
  have e1 : distancemax (i + 0.5) (j + 0.5) (k + 0.5) (centre nx ny 1).1 (centre nx ny 1).2.1 (centre nx ny 1).2.2 ≤ radius nx ↔
      Left nx i ∧ 2 * k ≤ nx := by
    rw [near', Left, ← half, ← deep]
    simp only [centre, radius, sub_zero, add_sub_cancel_right]
    exact ⟨fun h => ⟨h.1, h.2.2⟩, fun h => ⟨h.1, by linarith, h.2⟩⟩
  have e2 : distancemax (i + 0.5) (j + 0.5) (k + 0.5) (centre nx ny 2).1 (centre nx ny 2).2.1 (centre nx ny 2).2.2 ≤ radius nx ↔
      Lower nx j ∧ 2 * k ≤ nx := by
    rw [near', Lower, ← half, ← deep]
    simp only [centre, radius, sub_zero, add_sub_cancel_right]
    exact ⟨fun h => ⟨h.2.1, h.2.2⟩, fun h => ⟨by linarith, h.1, h.2⟩⟩
  have e3 : distancemax (i + 0.5) (j + 0.5) (k + 0.5) (centre nx ny 3).1 (centre nx ny 3).2.1 (centre nx ny 3).2.2 ≤ radius nx ↔
      2 * k ≤ nx := by
    rw [near', ← deep]
    simp only [centre, radius, add_sub_cancel_right]
    exact ⟨fun h => h.2.2, fun h => ⟨by linarith, by linarith, h⟩⟩
  have l4 : List.finRange 4 = [0, 1, 2, 3] := rfl
  simp only [grain, l4, List.find?_cons, List.find?_nil, e0, e1, e2, e3]
  by_cases hk : 2 * k ≤ nx <;> by_cases hl : Left nx i <;> by_cases hy : Lower nx j <;> simp [hk, hl, hy, not_lt.2, lt_of_not_ge]

theorem list4 (qlen : ℕ) (q : Fin 4 → ℝ) : (List.range qlen).mapM (entry q) = if qlen ≤ 4 then some ((List.ofFn q).take qlen) else none := by
  by_cases h : qlen ≤ 4
  · rw [if_pos h]
    have : qlen = 0 ∨ qlen = 1 ∨ qlen = 2 ∨ qlen = 3 ∨ qlen = 4 := by omega
    rcases this with rfl | rfl | rfl | rfl | rfl <;> simp [List.range_succ, entry, List.ofFn_succ] <;> rfl
  · rw [if_neg h]
    obtain ⟨r, rfl⟩ := Nat.exists_eq_add_of_lt (not_le.1 h)
    rw [show 4 + r + 1 = 5 + r by omega, List.range_add, List.mapM_append]
    simp [List.range_succ, entry]

theorem cell_eq (qlen nx ny i j k : ℕ) (hi : i < nx) (hj : j < ny) (hk : 2 * k ≤ nx) (hq : qlen ≤ 4) :
    ∃ g, grain nx ny i j k = some g ∧ cellQuat qlen nx ny i j k = some ((List.ofFn (quatInside g)).take qlen) := by
  have e := grain_eq nx ny i j k hi hj
  rw [if_neg (not_lt.2 hk)] at e
  have : ∃ g, grain nx ny i j k = some g := by
    rw [e]
    split_ifs <;> exact ⟨_, rfl⟩
  obtain ⟨g, hg⟩ := this
  refine ⟨g, hg, ?_⟩
  rw [cellQuat, hg]
  simp only [list4, if_pos hq]

/-! ## C154 -/

open Classical in
/-- **C154** (phase): a cell is solid exactly if it lies in the ball about a corner; other cells are liquid. -/
theorem c154_phase (nx ny i j k : ℕ) : (phase nx ny i j k = 1 ↔ InBall nx ny i j k) ∧ (phase nx ny i j k = 0 ↔ ¬ InBall nx ny i j k) := by
  have key : ∀ g : Fin 4, √(distance2 (i + 0.5) (j + 0.5) (k + 0.5) (centre nx ny g).1 (centre nx ny g).2.1 (centre nx ny g).2.2) - radius nx ≤ 0 ↔
      (i + 1 / 2 - (centre nx ny g).1) ^ 2 + (j + 1 / 2 - (centre nx ny g).2.1) ^ 2 + (k : ℝ) ^ 2 ≤ ((nx : ℝ) / 2) ^ 2 := by
    intro g
    rw [sub_nonpos, Real.sqrt_le_left (by unfold radius; positivity)]
    have hz : (centre nx ny g).2.2 = 1 / 2 := by fin_cases g <;> norm_num [centre]
    simp only [distance2, radius, hz]
    norm_num
  have l4 : List.finRange 4 = [0, 1, 2, 3] := rfl
  have c0 := key 0
  have c1 := key 1
  have c2 := key 2
  have c3 := key 3
  have hb : InBall nx ny i j k ↔ ∃ g : Fin 4, (i + 1 / 2 - (centre nx ny g).1) ^ 2 + (j + 1 / 2 - (centre nx ny g).2.1) ^ 2 + (k : ℝ) ^ 2
      ≤ ((nx : ℝ) / 2) ^ 2 := by
    constructor
    · rintro ⟨cx, rfl | rfl, cy, rfl | rfl, h⟩
      · exact ⟨0, h⟩
      · exact ⟨1, h⟩
      · exact ⟨2, h⟩
      · exact ⟨3, h⟩
    · rintro ⟨g, h⟩
      fin_cases g
      · exact ⟨0, Or.inl rfl, 0, Or.inl rfl, h⟩
      · exact ⟨0, Or.inl rfl, ny, Or.inr rfl, h⟩
      · exact ⟨nx, Or.inr rfl, 0, Or.inl rfl, h⟩
      · exact ⟨nx, Or.inr rfl, ny, Or.inr rfl, h⟩
  have val : phase nx ny i j k = if InBall nx ny i j k then 1 else 0 := by
    rw [hb]
    simp only [phase, l4, List.foldl_cons, List.foldl_nil, key]
    generalize hP : (fun g : Fin 4 => (i + 1 / 2 - (centre nx ny g).1) ^ 2 + (j + 1 / 2 - (centre nx ny g).2.1) ^ 2 + (k : ℝ) ^ 2
      ≤ ((nx : ℝ) / 2) ^ 2) = P
    have ex : (∃ g, P g) ↔ P 0 ∨ P 1 ∨ P 2 ∨ P 3 := by
      simp [Fin.exists_fin_succ]
    have val : ∀ g, ((i + 1 / 2 - (centre nx ny g).1) ^ 2 + (j + 1 / 2 - (centre nx ny g).2.1) ^ 2 + (k : ℝ) ^ 2
      ≤ ((nx : ℝ) / 2) ^ 2) = P g := fun g => congrFun hP g
    simp only [val, ex]
    by_cases h0 : P 0 <;> by_cases h1 : P 1 <;> by_cases h2 : P 2 <;> by_cases h3 : P 3 <;> simp [h0, h1, h2, h3]
  rw [val]
  by_cases h : InBall nx ny i j k <;> simp [h]

/-- **C154** (no solid without a crystal): every solid cell of the domain gets the orientation of a grain. -/
theorem c154_solid_filled (nx ny i j k : ℕ) (hi : i < nx) (hj : j < ny) (h : phase nx ny i j k = 1) : ∃ g, grain nx ny i j k = some g := by
  have hb := (c154_phase nx ny i j k).1.1 h
  have hk : 2 * k ≤ nx := by
    rw [← deep]
    obtain ⟨cx, -, cy, -, hle⟩ := hb
    refine abs_le_of_sq_le_sq' ?_ (by positivity) |>.2
    nlinarith [sq_nonneg ((i : ℝ) + 1 / 2 - cx), sq_nonneg ((j : ℝ) + 1 / 2 - cy)]
  obtain ⟨g, hg, -⟩ := cell_eq 4 nx ny i j k hi hj hk le_rfl
  exact ⟨g, hg⟩

/-- **C154** (quarters; partial): in a domain as high as wide, cells not deeper than half the width get the grain of the corner of their
quarter, and with four components the orientation of unit length listed for it.  Missing from the full claim: see the violations. -/
theorem c154_quarters_partial (n i j k : ℕ) (hi : i < n) (hj : j < n) (hk : 2 * k ≤ n) :
    ∃ g, IsQuarter n n i j g ∧ grain n n i j k = some g ∧ cellQuat 4 n n i j k = some (List.ofFn (quatInside g)) ∧
      ∑ m, quatInside g m ^ 2 = 1 := by
  obtain ⟨g, hg, hq⟩ := cell_eq 4 n n i j k hi hj hk le_rfl
  refine ⟨g, ?_, hg, by rw [hq]; simp, ?_⟩
  · rw [grain_eq n n i j k hi hj, if_neg (not_lt.2 hk)] at hg
    by_cases hl : Left n i <;> by_cases hy : Lower n j <;> simp only [hl, hy, if_true, if_false, Option.some.injEq] at hg <;> subst hg <;>
      exact ⟨hl, hy⟩
  · fin_cases g <;> simp [quatInside, Fin.sum_univ_succ] <;> norm_num

/-- **C154** (violation: three crystals, not four): left of the middle the orientation does not depend on the height: the two grains on
the left are one crystal, whatever the sizes and the number of components. -/
theorem c154_violation_left (qlen nx ny i j i' j' k : ℕ) (hi : i < nx) (hj : j < ny) (hi' : i' < nx) (hj' : j' < ny) (hl : Left nx i)
    (hl' : Left nx i') : cellQuat qlen nx ny i j k = cellQuat qlen nx ny i' j' k := by
  have e : quatInside 0 = quatInside 1 := rfl
  unfold cellQuat
  rw [grain_eq nx ny i j k hi hj, grain_eq nx ny i' j' k hi' hj']
  simp only [if_pos hl, if_pos hl']
  by_cases hk : nx < 2 * k
  · simp only [if_pos hk]
  · simp only [if_neg hk]
    split_ifs <;> simp only [e]

/-- **C154** (violation: the border between lower and upper grains): on the right, cells get the lower grain exactly up to half the
*width* of the domain. -/
theorem c154_violation_border (nx ny i j k : ℕ) (hi : i < nx) (hj : j < ny) (hk : 2 * k ≤ nx) (hr : ¬ Left nx i) :
    (grain nx ny i j k = some 2 ↔ Lower nx j) ∧ (grain nx ny i j k = some 3 ↔ ¬ Lower nx j) := by
  rw [grain_eq nx ny i j k hi hj, if_neg (not_lt.2 hk), if_neg hr]
  by_cases hy : Lower nx j <;> simp [hy]

/-- **C154** (violation: flat domains): in a domain at least twice as wide as high, the whole right half belongs to the lower right grain;
there is no grain in the upper right corner. -/
theorem c154_violation_flat (nx ny i : ℕ) (hi : i < nx) (hr : ¬ Left nx i) (h : 2 * ny ≤ nx) (j k : ℕ) (hj : j < ny) (hk : 2 * k ≤ nx) :
    grain nx ny i j k = some 2 :=
  (c154_violation_border nx ny i j k hi hj hk hr).1.2 (by unfold Lower; omega)

/-- **C154** (violation: lengths): with fewer than four components, the orientation stored in the solid has length² `qlen / 4`, not 1. -/
theorem c154_violation_length (qlen nx ny i j k : ℕ) (hi : i < nx) (hj : j < ny) (hk : 2 * k ≤ nx) (hq : qlen < 4) :
    ∃ q, cellQuat qlen nx ny i j k = some q ∧ q.length = qlen ∧ (q.map (· ^ 2)).sum = (qlen : ℝ) / 4 ∧ (q.map (· ^ 2)).sum ≠ 1 := by
  obtain ⟨g, -, e⟩ := cell_eq qlen nx ny i j k hi hj hk hq.le
  have s : (((List.ofFn (quatInside g)).take qlen).map (· ^ 2)).sum = (qlen : ℝ) / 4 := by
    have : qlen = 0 ∨ qlen = 1 ∨ qlen = 2 ∨ qlen = 3 := by omega
    rcases this with rfl | rfl | rfl | rfl <;> fin_cases g <;> simp [quatInside, List.ofFn_succ] <;> norm_num
  refine ⟨_, e, by simp; omega, s, ?_⟩
  rw [s]
  have : (qlen : ℝ) ≤ 3 := by exact_mod_cast Nat.lt_succ_iff.1 hq
  intro h
  linarith

/-- **C154** (violation: deep cells): cells deeper than half the width get no orientation but zeros. -/
theorem c154_violation_deep (qlen nx ny i j k : ℕ) (hi : i < nx) (hj : j < ny) (hk : nx < 2 * k) :
    cellQuat qlen nx ny i j k = some (List.replicate qlen 0) := by
  unfold cellQuat
  rw [grain_eq nx ny i j k hi hj, if_pos hk]

/-- **C154** (components): the script finishes exactly if at most four components are asked for. -/
theorem c154_runs (qlen nx ny nz : ℕ) (hx : 0 < nx) (hy : 0 < ny) (hz : 0 < nz) : (run qlen nx ny nz).isSome ↔ qlen ≤ 4 := by
  unfold run
  constructor
  · intro h
    by_contra hq
    split_ifs at h with hall
    · have := hall 0 hx 0 hy 0 hz
      have e := grain_eq nx ny 0 0 0 hx hy
      have l : Left nx 0 := by unfold Left; omega
      have w : Lower nx 0 := by unfold Lower; omega
      rw [if_neg (by omega), if_pos l, if_pos w] at e
      rw [cellQuat, e] at this
      simp only [list4, if_neg hq] at this
      exact absurd this (by simp)
    · exact absurd h (by simp)
  · intro hq
    rw [if_pos]
    · rfl
    · intro i hi j hj k _
      by_cases hk : 2 * k ≤ nx
      · obtain ⟨g, -, e⟩ := cell_eq qlen nx ny i j k hi hj hk hq
        rw [e]; rfl
      · rw [c154_violation_deep qlen nx ny i j k hi hj (by omega)]; rfl

/-- A cell of the upper right quarter of an 8 × 8 domain. -/
example : ∃ g, IsQuarter 8 8 6 5 g ∧ grain 8 8 6 5 0 = some g := by
  obtain ⟨g, h1, h2, -⟩ := c154_quarters_partial 8 6 5 0 (by norm_num) (by norm_num) (by norm_num)
  exact ⟨g, h1, h2⟩

/-- A cell at the top of an 8 × 4 domain has the grain of the lower right corner. -/
example : grain 8 4 7 3 0 = some 2 := c154_violation_flat 8 4 7 (by norm_num) (by unfold Left; omega) (by norm_num) 3 0 (by norm_num) (by norm_num)

end AMPE.Corners.Props
