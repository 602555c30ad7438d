import Verif.Model.Profiles
import Mathlib.Tactic.Linarith
import Mathlib.Tactic.FieldSimp
import Mathlib.Tactic.Ring
import Mathlib.Tactic.NormNum
import Mathlib.Tactic.Positivity
import Mathlib.Algebra.BigOperators.Ring.Finset
import Mathlib.Algebra.BigOperators.Intervals

/-!
# C163: linear initial profiles
-/

namespace AMPE.Profiles.Props

open AMPE.Profiles

/-! ## Specification -/

/-- Value at the middle of column `i` of `nx` of the profile that is `c` in the middle of the domain and `c + d` at its ends, linear in between. -/
noncomputable def wanted (c d : ℝ) (nx i : ℕ) : ℝ := c + d * (|((i : ℝ) + 1 / 2) / nx - 1 / 2| * 2)

/-! ## Theorems -/

/-- **C163**: the temperature added to a file rises linearly across the domain. -/
theorem c163_ramp (nx i : ℕ) (h : 0 < nx) : ramp nx i = 817.15 + 40 * ((i + 1 / 2) / nx) := by
  have : (nx : ℝ) ≠ 0 := by positivity
  unfold ramp
  field_simp
  ring

theorem sum_mid (n : ℕ) : ∑ i ∈ Finset.range n, ((i : ℝ) + 1 / 2) = (n : ℝ) ^ 2 / 2 := by
  induction n with
  | zero => simp
  | succ n ih =>
    rw [Finset.sum_range_succ, ih]
    push_cast
    ring

/-- **C163**: its mean is the one set in the script, for any number of columns, and it stays within 20 degrees of it. -/
theorem c163_ramp_mean (nx : ℕ) (h : 0 < nx) : (∑ i ∈ Finset.range nx, ramp nx i) / nx = 837.15 ∧ ∀ i < nx, |ramp nx i - 837.15| < 20 := by
  have h0 : (0 : ℝ) < nx := by positivity
  constructor
  · have e : ∀ i ∈ Finset.range nx, ramp nx i = 817.15 + 40 / nx * ((i : ℝ) + 1 / 2) := fun i _ => by
      rw [c163_ramp nx i h]
      ring
    rw [Finset.sum_congr rfl e, Finset.sum_add_distrib, ← Finset.mul_sum, sum_mid, Finset.sum_const, Finset.card_range, nsmul_eq_mul]
    field_simp
    norm_num
  · intro i hi
    rw [c163_ramp nx i h]
    have h1 : ((i : ℝ) + 1) ≤ nx := by exact_mod_cast hi
    have a : 0 < ((i : ℝ) + 1 / 2) / nx := by positivity
    have b : ((i : ℝ) + 1 / 2) / nx < 1 := by
      rw [div_lt_one h0]
      linarith
    rw [abs_lt]
    constructor <;> linarith

theorem tent_even (c d : ℝ) (m i : ℕ) (hm : 0 < m) : tent c d (2 * m) i = some (wanted c d (2 * m) i) := by
  have e : cx (2 * m) = m := by unfold cx; omega
  have h0 : (0 : ℝ) < m := by positivity
  unfold tent wanted
  rw [e]
  dsimp only
  rw [if_neg (by omega)]
  have : |((i : ℝ) + 0.5) - m| = |((i : ℝ) + 1 / 2) / ((2 * m : ℕ) : ℝ) - 1 / 2| * 2 * m := by
    push_cast
    rw [show ((i : ℝ) + 0.5) - m = (((i : ℝ) + 1 / 2) / (2 * m) - 1 / 2) * (2 * m) by field_simp; ring, abs_mul, abs_of_pos (by positivity : (0 : ℝ) < 2 * m)]
    ring
  rw [this]
  congr 2
  rw [← mul_assoc]
  exact mul_div_cancel_right₀ _ h0.ne'

/-- **C163** (partial): for an even number of columns the composition has 0.02 in the middle and 0.06 at the ends, the temperature 860 and 800.  Missing: odd
numbers, see below. -/
theorem c163_tent_partial (nx i : ℕ) (h : 0 < nx) (he : nx % 2 = 0) :
    conc nx i = some (wanted 0.02 0.04 nx i) ∧ temp nx i = some (wanted 860 (-60) nx i) := by
  obtain ⟨m, rfl⟩ : ∃ m, nx = 2 * m := ⟨nx / 2, by omega⟩
  exact ⟨tent_even _ _ _ _ (by omega), tent_even _ _ _ _ (by omega)⟩

/-- **C163**: then the two halves mirror each other. -/
theorem c163_mirror_partial (nx i : ℕ) (he : nx % 2 = 0) (hi : i < nx) : conc nx (nx - 1 - i) = conc nx i ∧ temp nx (nx - 1 - i) = temp nx i := by
  have h : 0 < nx := by omega
  have h0 : (0 : ℝ) < nx := by positivity
  rw [(c163_tent_partial nx _ h he).1, (c163_tent_partial nx i h he).1, (c163_tent_partial nx _ h he).2, (c163_tent_partial nx i h he).2]
  have e : ((nx - 1 - i : ℕ) : ℝ) = nx - 1 - i := by
    rw [Nat.cast_sub (by omega), Nat.cast_sub (by omega)]
    simp
  have : |(((nx - 1 - i : ℕ) : ℝ) + 1 / 2) / nx - 1 / 2| = |((i : ℝ) + 1 / 2) / nx - 1 / 2| := by
    rw [e, ← abs_neg]
    congr 1
    field_simp
    ring
  unfold wanted
  rw [this]
  exact ⟨rfl, rfl⟩

theorem tent_odd (c d : ℝ) (m i : ℕ) (hm : 0 < m) : tent c d (2 * m + 1) i = some (c + d * |(i : ℝ) + 1 / 2 - m| / m) := by
  have e : cx (2 * m + 1) = m := by unfold cx; omega
  unfold tent
  rw [e]
  dsimp only
  rw [if_neg (by omega)]
  norm_num

/-- **C163, violated**: for an odd number of columns the tip is half a column off: the first and the last column differ, and the last one is beyond the
values meant for the ends. -/
theorem c163_violation_odd (m : ℕ) (hm : 0 < m) : conc (2 * m + 1) 0 = some (0.06 - 0.02 / (m : ℝ)) ∧ conc (2 * m + 1) (2 * m) = some (0.06 + 0.02 / (m : ℝ)) ∧
    temp (2 * m + 1) 0 = some (800 + 30 / (m : ℝ)) ∧ temp (2 * m + 1) (2 * m) = some (800 - 30 / (m : ℝ)) := by
  have h0 : (0 : ℝ) < m := by positivity
  have h1 : (1 : ℝ) ≤ m := by exact_mod_cast hm
  have a : |((0 : ℕ) : ℝ) + 1 / 2 - m| = m - 1 / 2 := by
    rw [Nat.cast_zero, abs_of_neg (by linarith)]
    ring
  have b : |((2 * m : ℕ) : ℝ) + 1 / 2 - m| = m + 1 / 2 := by
    push_cast
    rw [abs_of_pos (by linarith)]
    ring
  unfold conc temp
  rw [tent_odd _ _ _ _ hm, tent_odd _ _ _ _ hm, tent_odd _ _ _ _ hm, tent_odd _ _ _ _ hm, a, b]
  refine ⟨?_, ?_, ?_, ?_⟩ <;> congr 1 <;> field_simp <;> ring

/-- **C163, violated**: a single column ends in a division by zero. -/
theorem c163_violation_single (i : ℕ) : conc 1 i = none ∧ temp 1 i = none := by
  unfold conc temp tent cx
  exact ⟨if_pos rfl, if_pos rfl⟩

/-! ## Examples -/

example : ramp 4 0 = 822.15 := by
  rw [c163_ramp 4 0 (by norm_num)]
  norm_num

example : conc 4 0 = some 0.05 := by
  rw [(c163_tent_partial 4 0 (by norm_num) (by norm_num)).1]
  unfold wanted
  norm_num [abs_of_nonneg, abs_of_neg]

end AMPE.Profiles.Props
