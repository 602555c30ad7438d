import Verif.Proofs.Quat
import Mathlib.Algebra.Quaternion
import Mathlib.Data.Matrix.Mul
import Mathlib.LinearAlgebra.Matrix.Determinant.Basic
import Mathlib.LinearAlgebra.Matrix.Notation
import Mathlib.Analysis.Calculus.Deriv.Mul
import Mathlib.Analysis.Calculus.Deriv.Pow
import Mathlib.Analysis.SpecialFunctions.Trigonometric.DerivHyp
import Mathlib.Analysis.Calculus.Deriv.MeanValue
import Mathlib.Tactic.IntervalCases
import Mathlib.Tactic.FinCases

/-!
# C14 - C16, C49: orientation symmetry, symmetry search, rotation matrices, gradient floor
-/

namespace AMPE.Quat.Props

open AMPE.Quat

/-! ## C14 -/

/-- Specification: the orientation as a Mathlib quaternion. -/
def toH (q : Q4) : Quaternion ℝ := ⟨q.q1, q.q2, q.q3, q.q4⟩

@[simp] theorem toH_re (q : Q4) : (toH q).re = q.q1 := rfl
@[simp] theorem toH_imI (q : Q4) : (toH q).imI = q.q2 := rfl
@[simp] theorem toH_imJ (q : Q4) : (toH q).imJ = q.q3 := rfl
@[simp] theorem toH_imK (q : Q4) : (toH q).imK = q.q4 := rfl

/-- The code's product is the Hamilton product. -/
theorem c14_product_is_hamilton (a b : Q4) : toH (quatmult4 a b) = toH a * toH b := by
  apply Quaternion.ext
  · rw [Quaternion.re_mul]; simp only [toH_re, toH_imI, toH_imJ, toH_imK, quatmult4]
  · rw [Quaternion.imI_mul]; simp only [toH_re, toH_imI, toH_imJ, toH_imK, quatmult4]
  · rw [Quaternion.imJ_mul]; simp only [toH_re, toH_imI, toH_imJ, toH_imK, quatmult4]; ring
  · rw [Quaternion.imK_mul]; simp only [toH_re, toH_imI, toH_imJ, toH_imK, quatmult4]; ring

/-- Specification: squared length of an orientation. -/
def lenSq (q : Q4) : ℝ := q.q1 ^ 2 + q.q2 ^ 2 + q.q3 ^ 2 + q.q4 ^ 2

theorem lenSq_eq (q : Q4) : lenSq q = quatmagsq4 q := by simp only [lenSq, quatmagsq4]; ring

theorem rotate4_pos {q : Q4} {i : ℤ} (h1 : 1 ≤ i) (h2 : i ≤ 48) :
    quatsymmrotate4 q i = some (quatmult4 q (qr4 i), i) := by
  have hc : checkIndex 48 conj4 i = some i := by
    unfold checkIndex; rw [if_neg (by omega), if_neg (by omega)]
  simp only [quatsymmrotate4, hc, Option.map_some]
  split_ifs with h
  · rw [h, qr4_one, mult4_one]
  · rfl

theorem rotate4_neg {q : Q4} {i : ℤ} (h1 : 1 ≤ i) (h2 : i ≤ 48) :
    quatsymmrotate4 q (-i) = some (quatmult4 q (qr4 (conj4.getD (i - 1).toNat 0)),
      conj4.getD (i - 1).toNat 0) := by
  obtain ⟨⟨r1, r2⟩, _⟩ := conj4_spec h1 h2
  have hc : checkIndex 48 conj4 (-i) = some (conj4.getD (i - 1).toNat 0) := by
    unfold checkIndex; rw [if_neg (by omega), if_pos (by omega)]; simp
  simp only [quatsymmrotate4, hc, Option.map_some]
  split_ifs with h
  · rw [h, qr4_one, mult4_one]
  · rfl

/-- **C14**: a rotation request aborts exactly for index 0 and indices beyond 48 in magnitude. -/
theorem c14_aborts_iff (q : Q4) (i : ℤ) : quatsymmrotate4 q i = none ↔ i = 0 ∨ 48 < |i| := by
  simp only [quatsymmrotate4, Option.map_eq_none_iff]
  exact checkIndex_eq

theorem valid_cases {n i : ℤ} (h : ¬ (i = 0 ∨ n < |i|)) :
    (1 ≤ i ∧ i ≤ n) ∨ (1 ≤ -i ∧ -i ≤ n) := by
  push Not at h
  obtain ⟨h0, h1⟩ := h
  rw [abs_le] at h1
  omega

/-- **C14**: every symmetry rotation keeps the length of the orientation. -/
theorem c14_length (q q' : Q4) (i i' : ℤ) (h : quatsymmrotate4 q i = some (q', i')) :
    lenSq q' = lenSq q := by
  have hv : ¬ (i = 0 ∨ 48 < |i|) := by rw [← c14_aborts_iff q i, h]; simp
  rw [lenSq_eq, lenSq_eq]
  rcases valid_cases hv with ⟨h1, h2⟩ | ⟨h1, h2⟩
  · rw [rotate4_pos h1 h2] at h
    simp only [Option.some.injEq, Prod.mk.injEq] at h
    rw [← h.1, magsq4_mult, qr4_unit h1 h2, mul_one]
  · have := rotate4_neg (q := q) h1 h2
    rw [neg_neg, h] at this
    obtain ⟨⟨r1, r2⟩, _⟩ := conj4_spec h1 h2
    simp only [Option.some.injEq, Prod.mk.injEq] at this
    rw [this.1, magsq4_mult, qr4_unit r1 r2, mul_one]

/-- **C14**: rotating with index `i` and then with `-i` gives back the original orientation, for
positive and negative `i`. -/
theorem c14_inverse (q q' : Q4) (i i' : ℤ) (h : quatsymmrotate4 q i = some (q', i')) :
    ∃ j, quatsymmrotate4 q' (-i) = some (q, j) := by
  have hv : ¬ (i = 0 ∨ 48 < |i|) := by rw [← c14_aborts_iff q i, h]; simp
  rcases valid_cases hv with ⟨h1, h2⟩ | ⟨h1, h2⟩
  · rw [rotate4_pos h1 h2] at h
    simp only [Option.some.injEq, Prod.mk.injEq] at h
    obtain ⟨_, e, _⟩ := conj4_spec h1 h2
    have hr := rotate4_neg (q := q') h1 h2
    rw [← h.1, mult4_assoc, e, mult4_one] at hr
    rw [← h.1]
    exact ⟨_, hr⟩
  · have := rotate4_neg (q := q) h1 h2
    rw [neg_neg, h] at this
    obtain ⟨_, _, e⟩ := conj4_spec h1 h2
    simp only [Option.some.injEq, Prod.mk.injEq] at this
    have hr := rotate4_pos (q := q') h1 h2
    rw [this.1, mult4_assoc, e, mult4_one] at hr
    rw [this.1]
    exact ⟨_, hr⟩

/-- **C14**: the index returned by reference names the rotation that was applied: requesting it
again performs the same rotation, on every orientation. -/
theorem c14_index_returned (q q' p p' : Q4) (i i' : ℤ) (h : quatsymmrotate4 q i = some (q', i'))
    (hp : quatsymmrotate4 p i = some (p', i')) :
    1 ≤ i' ∧ i' ≤ 48 ∧ quatsymmrotate4 p i' = some (p', i') := by
  have hv : ¬ (i = 0 ∨ 48 < |i|) := by rw [← c14_aborts_iff q i, h]; simp
  rcases valid_cases hv with ⟨h1, h2⟩ | ⟨h1, h2⟩
  · have h3 := rotate4_pos (q := p) h1 h2
    rw [hp] at h3
    simp only [Option.some.injEq, Prod.mk.injEq] at h3
    obtain ⟨rfl, rfl⟩ := h3
    exact ⟨h1, h2, rotate4_pos h1 h2⟩
  · have h3 := rotate4_neg (q := p) h1 h2
    rw [neg_neg, hp] at h3
    obtain ⟨⟨r1, r2⟩, _⟩ := conj4_spec h1 h2
    simp only [Option.some.injEq, Prod.mk.injEq] at h3
    obtain ⟨rfl, rfl⟩ := h3
    exact ⟨r1, r2, rotate4_pos r1 r2⟩

/-- **C14** (group): rotating by `i` and then by `j` is rotating by some listed `k`, the same `k` for
all orientations. -/
theorem c14_closed (i j : ℤ) (hi : 1 ≤ i ∧ i ≤ 48) (hj : 1 ≤ j ∧ j ≤ 48) :
    ∃ k : ℤ, (1 ≤ k ∧ k ≤ 48) ∧ ∀ q : Q4,
      (quatsymmrotate4 q i).bind (fun r => (quatsymmrotate4 r.1 j).map Prod.fst) =
        (quatsymmrotate4 q k).map Prod.fst := by
  obtain ⟨k, k1, k2, e⟩ := qr4_closed hi.1 hi.2 hj.1 hj.2
  refine ⟨k, ⟨k1, k2⟩, fun q => ?_⟩
  simp only [rotate4_pos hi.1 hi.2, rotate4_pos hj.1 hj.2, rotate4_pos k1 k2, Option.bind_some,
    Option.map_some, mult4_assoc, e]

/-- **C14** (group): index 1 is the identity. -/
theorem c14_identity (q : Q4) : quatsymmrotate4 q 1 = some (q, 1) := by
  rw [rotate4_pos (by norm_num) (by norm_num), qr4_one, mult4_one]

/-! ### Completeness of the rotation table -/

/-- Specification: the rotation maps the coordinate axes to coordinate axes (a signed permutation
matrix), that is, it is a symmetry of the cube. -/
def MapsCubeToItself (q : Q4) : Prop :=
  ∀ i j, quatrotationmatrix q i j = -1 ∨ quatrotationmatrix q i j = 0 ∨ quatrotationmatrix q i j = 1

theorem isq_cases (A1 A2 A3 A4 : Fin 5) (h : A1.val + A2.val + A3.val + A4.val = 4)
    (h12 : ∃ B : Fin 5, A1.val * A2.val = B.val * B.val) (h13 : ∃ B : Fin 5, A1.val * A3.val = B.val * B.val)
    (h14 : ∃ B : Fin 5, A1.val * A4.val = B.val * B.val) (h23 : ∃ B : Fin 5, A2.val * A3.val = B.val * B.val)
    (h24 : ∃ B : Fin 5, A2.val * A4.val = B.val * B.val) (h34 : ∃ B : Fin 5, A3.val * A4.val = B.val * B.val) :
    ∃ k : Fin 5, (k = 1 ∨ k = 2 ∨ k = 4) ∧ (A1 = 0 ∨ A1 = k) ∧ (A2 = 0 ∨ A2 = k) ∧ (A3 = 0 ∨ A3 = k) ∧
      (A4 = 0 ∨ A4 = k) := by
  revert A1 A2 A3 A4; decide +kernel

/-- Integer sign of a real number. -/
noncomputable def sgn (x : ℝ) : ℤ := if 0 < x then 1 else if x < 0 then -1 else 0

theorem sgn_cases (x : ℝ) (k : ℝ) (hk : 0 < k) (h : 4 * x ^ 2 = 0 ∨ 4 * x ^ 2 = k) :
    x = (sgn x : ℝ) * (Real.sqrt k / 2) ∧ (sgn x = 0 ∨ sgn x = 1 ∨ sgn x = -1) ∧
    (4 * x ^ 2 = k * (sgn x : ℝ) ^ 2) := by
  rcases h with h | h
  · have : x = 0 := by nlinarith
    subst this; simp [sgn]
  · have hs := Real.sq_sqrt hk.le
    have hp := Real.sqrt_pos.mpr hk
    unfold sgn
    rcases lt_trichotomy x 0 with hx | hx | hx
    · rw [if_neg (not_lt.mpr hx.le), if_pos hx]
      have : (2 * x) ^ 2 = (Real.sqrt k) ^ 2 := by rw [hs]; linarith
      rcases sq_eq_sq_iff_eq_or_eq_neg.mp this with e | e
      · linarith
      · refine ⟨by push_cast; linarith, by simp, by push_cast; linarith⟩
    · subst hx; norm_num at h; linarith
    · rw [if_pos hx]
      have : (2 * x) ^ 2 = (Real.sqrt k) ^ 2 := by rw [hs]; linarith
      rcases sq_eq_sq_iff_eq_or_eq_neg.mp this with e | e
      · refine ⟨by push_cast; linarith, by simp, by push_cast; linarith⟩
      · linarith

theorem four_sq_int (a : ℝ) (n : ℤ) (h : 4 * a ^ 2 = n) (hn : n ≤ 4) :
    ∃ A : Fin 5, 4 * a ^ 2 = (A.val : ℝ) := by
  have h0 : 0 ≤ n := by
    have : (0:ℝ) ≤ n := by rw [← h]; positivity
    exact_mod_cast this
  refine ⟨⟨n.toNat, by omega⟩, ?_⟩
  rw [h]
  have : ((n.toNat : ℤ) : ℝ) = (n : ℝ) := by rw [Int.toNat_of_nonneg h0]
  rw [← this, Int.cast_natCast]

theorem prod_sq (a b : ℝ) (A B : Fin 5) (n : ℤ) (ha : 4 * a ^ 2 = (A.val : ℝ)) (hb : 4 * b ^ 2 = (B.val : ℝ))
    (h : 4 * (a * b) = n) : ∃ C : Fin 5, A.val * B.val = C.val * C.val := by
  have e : ((A.val * B.val : ℕ) : ℝ) = ((n.natAbs * n.natAbs : ℕ) : ℝ) := by
    push_cast
    rw [← ha, ← hb]
    have : ((n.natAbs : ℝ)) * (n.natAbs : ℝ) = (n : ℝ) * n := by
      have h2 : ((n.natAbs * n.natAbs : ℕ) : ℤ) = n * n := Int.natAbs_mul_self
      have h3 : (((n.natAbs * n.natAbs : ℕ) : ℤ) : ℝ) = ((n * n : ℤ) : ℝ) := by rw [h2]
      rw [Int.cast_natCast] at h3
      push_cast at h3
      exact h3
    rw [this, ← h]; ring
  have e' : A.val * B.val = n.natAbs * n.natAbs := by exact_mod_cast e
  have hA := A.isLt
  have hB := B.isLt
  have hle : n.natAbs ≤ 4 := by
    by_contra hc
    have h5 : 5 ≤ n.natAbs := by omega
    have h1 : 25 ≤ n.natAbs * n.natAbs := Nat.mul_le_mul h5 h5
    have h2 : A.val * B.val ≤ 4 * 4 := Nat.mul_le_mul (by omega) (by omega)
    omega
  exact ⟨⟨n.natAbs, by omega⟩, e'⟩

/-- **C14** (completeness): every unit orientation whose rotation matrix maps the cube to itself is
one of the 48 listed rotations. -/
theorem c14_table_complete (q : Q4) (hu : lenSq q = 1) (hc : MapsCubeToItself q) :
    ∃ k : ℤ, 1 ≤ k ∧ k ≤ 48 ∧ qr4 k = q := by
  obtain ⟨a, b, c, d⟩ := q
  have hint : ∀ i j, ∃ r : ℤ, quatrotationmatrix ⟨a, b, c, d⟩ i j = r := by
    intro i j
    rcases hc i j with h | h | h
    · exact ⟨-1, by rw [h]; norm_num⟩
    · exact ⟨0, by rw [h]; norm_num⟩
    · exact ⟨1, by rw [h]; norm_num⟩
  choose r hr using hint
  simp only [lenSq] at hu
  have h00 := hr 0 0
  have h01 := hr 0 1
  have h02 := hr 0 2
  have h10 := hr 1 0
  have h11 := hr 1 1
  have h12 := hr 1 2
  have h20 := hr 2 0
  have h21 := hr 2 1
  have h22 := hr 2 2
  simp only [quatrotationmatrix, Matrix.cons_val_zero, Matrix.cons_val_one, Matrix.cons_val]
    at h00 h01 h02 h10 h11 h12 h20 h21 h22
  have ea : 4 * a ^ 2 = ((1 + r 0 0 + r 1 1 + r 2 2 : ℤ) : ℝ) := by push_cast; rw [← h00, ← h11, ← h22, ← hu]; ring
  have eb : 4 * b ^ 2 = ((1 + r 0 0 - r 1 1 - r 2 2 : ℤ) : ℝ) := by push_cast; rw [← h00, ← h11, ← h22, ← hu]; ring
  have ec : 4 * c ^ 2 = ((1 - r 0 0 + r 1 1 - r 2 2 : ℤ) : ℝ) := by push_cast; rw [← h00, ← h11, ← h22, ← hu]; ring
  have ed : 4 * d ^ 2 = ((1 - r 0 0 - r 1 1 + r 2 2 : ℤ) : ℝ) := by push_cast; rw [← h00, ← h11, ← h22, ← hu]; ring
  have le4 : ∀ (x : ℝ) (n : ℤ), 4 * x ^ 2 = n → x ^ 2 ≤ 1 → n ≤ 4 := by
    intro x n h hx
    have : (n : ℝ) ≤ 4 := by rw [← h]; linarith
    exact_mod_cast this
  obtain ⟨A, hA⟩ := four_sq_int a _ ea (le4 a _ ea (by nlinarith [sq_nonneg b, sq_nonneg c, sq_nonneg d]))
  obtain ⟨B, hB⟩ := four_sq_int b _ eb (le4 b _ eb (by nlinarith [sq_nonneg a, sq_nonneg c, sq_nonneg d]))
  obtain ⟨C, hC⟩ := four_sq_int c _ ec (le4 c _ ec (by nlinarith [sq_nonneg a, sq_nonneg b, sq_nonneg d]))
  obtain ⟨D, hD⟩ := four_sq_int d _ ed (le4 d _ ed (by nlinarith [sq_nonneg a, sq_nonneg b, sq_nonneg c]))
  have hsum : A.val + B.val + C.val + D.val = 4 := by
    have : ((A.val + B.val + C.val + D.val : ℕ) : ℝ) = 4 := by
      push_cast; rw [← hA, ← hB, ← hC, ← hD]; linarith
    exact_mod_cast this
  obtain ⟨k, hk, kA, kB, kC, kD⟩ := isq_cases A B C D hsum
    (prod_sq a b A B (r 2 1 - r 1 2) hA hB (by push_cast; rw [← h21, ← h12]; ring))
    (prod_sq a c A C (r 0 2 - r 2 0) hA hC (by push_cast; rw [← h02, ← h20]; ring))
    (prod_sq a d A D (r 1 0 - r 0 1) hA hD (by push_cast; rw [← h10, ← h01]; ring))
    (prod_sq b c B C (r 1 0 + r 0 1) hB hC (by push_cast; rw [← h10, ← h01]; ring))
    (prod_sq b d B D (r 0 2 + r 2 0) hB hD (by push_cast; rw [← h02, ← h20]; ring))
    (prod_sq c d C D (r 2 1 + r 1 2) hC hD (by push_cast; rw [← h21, ← h12]; ring))
  have hkpos : (0:ℝ) < (k.val : ℝ) := by
    rcases hk with rfl | rfl | rfl <;> norm_num
  have conv : ∀ (x : ℝ) (X : Fin 5), 4 * x ^ 2 = (X.val : ℝ) → (X = 0 ∨ X = k) →
      (4 * x ^ 2 = 0 ∨ 4 * x ^ 2 = (k.val : ℝ)) := by
    intro x X hX h
    rcases h with rfl | rfl
    · left; rw [hX]; simp
    · right; exact hX
  obtain ⟨xa, sa, qa⟩ := sgn_cases a k.val hkpos (conv a A hA kA)
  obtain ⟨xb, sb, qb⟩ := sgn_cases b k.val hkpos (conv b B hB kB)
  obtain ⟨xc, sc, qc⟩ := sgn_cases c k.val hkpos (conv c C hC kC)
  obtain ⟨xd, sd, qd⟩ := sgn_cases d k.val hkpos (conv d D hD kD)
  -- the sign quadruple is in the table
  have hnk : (k.val : ℝ) * (inorm (sgn a, sgn b, sgn c, sgn d) : ℝ) = 4 := by
    simp only [inorm]; push_cast; linear_combination 4 * hu - qa - qb - qc - qd
  have hnk' : (k.val : ℤ) * inorm (sgn a, sgn b, sgn c, sgn d) = 4 := by exact_mod_cast hnk
  have hin : inorm (sgn a, sgn b, sgn c, sgn d) = 1 ∨ inorm (sgn a, sgn b, sgn c, sgn d) = 2 ∨
      inorm (sgn a, sgn b, sgn c, sgn d) = 4 := by
    rcases hk with rfl | rfl | rfl <;> norm_num at hnk' <;> omega
  have habs : ∀ s : ℤ, (s = 0 ∨ s = 1 ∨ s = -1) → s.natAbs ≤ 1 := by
    intro s hs; rcases hs with rfl | rfl | rfl <;> decide
  have htab : isTab (sgn a, sgn b, sgn c, sgn d) = true := by
    simp only [isTab, Bool.and_eq_true, decide_eq_true_eq, Bool.or_eq_true, beq_iff_eq]
    exact ⟨⟨⟨⟨habs _ sa, habs _ sb⟩, habs _ sc⟩, habs _ sd⟩, by
      rcases hin with h | h | h <;> simp [h]⟩
  obtain ⟨n, n1, n2, en⟩ := index_of_mem (mem_raw_of_isTab _ htab)
  refine ⟨n, n1, n2, ?_⟩
  rw [en]
  have hge : (1:ℝ) ≤ quatmagsq4 (ofInt (sgn a, sgn b, sgn c, sgn d)) := by
    rw [magsq_ofInt]; rcases hin with h | h | h <;> rw [h] <;> norm_num
  rw [norm4_of_ge hge, magsq_ofInt]
  have hf : 1 / Real.sqrt ((inorm (sgn a, sgn b, sgn c, sgn d) : ℤ) : ℝ) = Real.sqrt k.val / 2 := by
    have hi : ((inorm (sgn a, sgn b, sgn c, sgn d) : ℤ) : ℝ) = 4 / k.val := by
      rw [eq_div_iff hkpos.ne']; linarith
    have h4 : Real.sqrt 4 = 2 := by rw [show (4:ℝ) = 2 ^ 2 by norm_num]; exact Real.sqrt_sq (by norm_num)
    rw [hi, Real.sqrt_div (by norm_num), h4]
    field_simp
  rw [hf]
  ext
  · simp only [smul4, ofInt]; rw [mul_comm]; exact xa.symm
  · simp only [smul4, ofInt]; rw [mul_comm]; exact xb.symm
  · simp only [smul4, ofInt]; rw [mul_comm]; exact xc.symm
  · simp only [smul4, ofInt]; rw [mul_comm]; exact xd.symm

/-- Integer version of the rotation matrix times the squared norm. -/
def irot (v : ℤ × ℤ × ℤ × ℤ) : List ℤ :=
  [v.1 * v.1 + v.2.1 * v.2.1 - v.2.2.1 * v.2.2.1 - v.2.2.2 * v.2.2.2,
   2 * (v.2.1 * v.2.2.1 - v.1 * v.2.2.2), 2 * (v.1 * v.2.2.1 + v.2.1 * v.2.2.2),
   2 * (v.1 * v.2.2.2 + v.2.1 * v.2.2.1),
   v.1 * v.1 - v.2.1 * v.2.1 + v.2.2.1 * v.2.2.1 - v.2.2.2 * v.2.2.2,
   2 * (v.2.2.1 * v.2.2.2 - v.1 * v.2.1),
   2 * (v.2.1 * v.2.2.2 - v.1 * v.2.2.1), 2 * (v.1 * v.2.1 + v.2.2.1 * v.2.2.2),
   v.1 * v.1 - v.2.1 * v.2.1 - v.2.2.1 * v.2.2.1 + v.2.2.2 * v.2.2.2]

theorem irot_check : ∀ v ∈ rawqr4, ∀ e ∈ irot v, e = - inorm v ∨ e = 0 ∨ e = inorm v := by
  decide +kernel

/-- **C14**: each of the 48 listed rotations maps the cube to itself (converse of
`c14_table_complete`). -/
theorem c14_table_sound (k : ℤ) (h1 : 1 ≤ k) (h2 : k ≤ 48) :
    lenSq (qr4 k) = 1 ∧ MapsCubeToItself (qr4 k) := by
  refine ⟨by rw [lenSq_eq]; exact qr4_unit h1 h2, ?_⟩
  obtain ⟨v, hv, e, _⟩ := qr4_eq h1 h2
  have hn := raw_norm v hv
  have hge : (1:ℝ) ≤ quatmagsq4 (ofInt v) := by rw [magsq_ofInt]; exact_mod_cast hn
  have hpos : (0:ℝ) < (inorm v : ℝ) := by exact_mod_cast (by omega : 0 < inorm v)
  have hs : (1 / Real.sqrt (inorm v : ℝ)) * (1 / Real.sqrt (inorm v : ℝ)) = 1 / (inorm v : ℝ) := by
    rw [div_mul_div_comm, Real.mul_self_sqrt hpos.le, one_mul]
  rw [e, norm4_of_ge hge, magsq_ofInt]
  have key : ∀ x ∈ irot v, ((x : ℤ) : ℝ) * (1 / (inorm v : ℝ)) = -1 ∨
      ((x : ℤ) : ℝ) * (1 / (inorm v : ℝ)) = 0 ∨ ((x : ℤ) : ℝ) * (1 / (inorm v : ℝ)) = 1 := by
    intro x hx
    rcases irot_check v hv x hx with h | h | h
    · left; rw [h]; push_cast; field_simp
    · right; left; rw [h]; simp
    · right; right; rw [h]; field_simp
  have m : ∀ n (hn : n < 9), (irot v)[n]'hn ∈ irot v := fun n hn => List.getElem_mem hn
  set s := 1 / Real.sqrt (inorm v : ℝ)
  have conv : ∀ (t : ℝ) (x : ℤ), x ∈ irot v → t = (x : ℝ) * (s * s) → (t = -1 ∨ t = 0 ∨ t = 1) := by
    intro t x hx ht
    rw [ht, hs]; exact key x hx
  intro i j
  fin_cases i <;> fin_cases j
  · exact conv _ _ (m 0 (by decide)) (by simp [quatrotationmatrix, smul4, ofInt, irot]; ring)
  · exact conv _ _ (m 1 (by decide)) (by simp [quatrotationmatrix, smul4, ofInt, irot]; ring)
  · exact conv _ _ (m 2 (by decide)) (by simp [quatrotationmatrix, smul4, ofInt, irot]; ring)
  · exact conv _ _ (m 3 (by decide)) (by simp [quatrotationmatrix, smul4, ofInt, irot]; ring)
  · exact conv _ _ (m 4 (by decide)) (by simp [quatrotationmatrix, smul4, ofInt, irot]; ring)
  · exact conv _ _ (m 5 (by decide)) (by simp [quatrotationmatrix, smul4, ofInt, irot]; ring)
  · exact conv _ _ (m 6 (by decide)) (by simp [quatrotationmatrix, smul4, ofInt, irot]; ring)
  · exact conv _ _ (m 7 (by decide)) (by simp [quatrotationmatrix, smul4, ofInt, irot]; ring)
  · exact conv _ _ (m 8 (by decide)) (by simp [quatrotationmatrix, smul4, ofInt, irot]; ring)

/-! ### Two-component and angle representations -/

theorem rotate2_pos {q : Q2} {i : ℤ} (h1 : 1 ≤ i) (h2 : i ≤ 4) :
    quatsymmrotate2 q i = some (quatmult2 q (qr2 i), i) := by
  have hc : checkIndex 4 conj2 i = some i := by
    unfold checkIndex; rw [if_neg (by omega), if_neg (by omega)]
  simp only [quatsymmrotate2, hc, Option.map_some]
  split_ifs with h
  · rw [h, qr2_val.1, mult2_one]
  · rfl

theorem rotate2_neg {q : Q2} {i : ℤ} (h1 : 1 ≤ i) (h2 : i ≤ 4) :
    quatsymmrotate2 q (-i) = some (quatmult2 q (qr2 (conj2.getD (i - 1).toNat 0)),
      conj2.getD (i - 1).toNat 0) := by
  obtain ⟨⟨r1, r2⟩, _⟩ := conj2_spec h1 h2
  have hc : checkIndex 4 conj2 (-i) = some (conj2.getD (i - 1).toNat 0) := by
    unfold checkIndex; rw [if_neg (by omega), if_pos (by omega)]; simp
  simp only [quatsymmrotate2, hc, Option.map_some]
  split_ifs with h
  · rw [h, qr2_val.1, mult2_one]
  · rfl

/-- **C14** (two components): invalid indices abort; lengths are kept; `-i` undoes `i`. -/
theorem c14_two_components (q : Q2) (i : ℤ) :
    (quatsymmrotate2 q i = none ↔ i = 0 ∨ 4 < |i|) ∧
    ∀ q' i', quatsymmrotate2 q i = some (q', i') →
      q'.q1 ^ 2 + q'.q2 ^ 2 = q.q1 ^ 2 + q.q2 ^ 2 ∧ ∃ j, quatsymmrotate2 q' (-i) = some (q, j) := by
  have hab : quatsymmrotate2 q i = none ↔ i = 0 ∨ 4 < |i| := by
    simp only [quatsymmrotate2, Option.map_eq_none_iff]; exact checkIndex_eq
  refine ⟨hab, fun q' i' h => ?_⟩
  have hv : ¬ (i = 0 ∨ 4 < |i|) := by rw [← hab, h]; simp
  have hl : ∀ p : Q2, p.q1 ^ 2 + p.q2 ^ 2 = quatmagsq2 p := by intro p; simp only [quatmagsq2]; ring
  rcases valid_cases hv with ⟨h1, h2⟩ | ⟨h1, h2⟩
  · rw [rotate2_pos h1 h2] at h
    simp only [Option.some.injEq, Prod.mk.injEq] at h
    obtain ⟨_, e, _⟩ := conj2_spec h1 h2
    have hr := rotate2_neg (q := q') h1 h2
    rw [← h.1, mult2_assoc, e, mult2_one] at hr
    refine ⟨?_, by rw [← h.1]; exact ⟨_, hr⟩⟩
    rw [hl, hl, ← h.1, magsq2_mult, qr2_unit h1 h2, mul_one]
  · have := rotate2_neg (q := q) h1 h2
    rw [neg_neg, h] at this
    obtain ⟨⟨r1, r2⟩, _, e⟩ := conj2_spec h1 h2
    simp only [Option.some.injEq, Prod.mk.injEq] at this
    have hr := rotate2_pos (q := q') h1 h2
    rw [this.1, mult2_assoc, e, mult2_one] at hr
    refine ⟨?_, by rw [this.1]; exact ⟨_, hr⟩⟩
    rw [hl, hl, this.1, magsq2_mult, qr2_unit r1 r2, mul_one]

/-- **C14** (two components, group): composition stays in the list. -/
theorem c14_two_components_closed (i j : ℤ) (hi : 1 ≤ i ∧ i ≤ 4) (hj : 1 ≤ j ∧ j ≤ 4) :
    ∃ k : ℤ, (1 ≤ k ∧ k ≤ 4) ∧ ∀ q : Q2,
      (quatsymmrotate2 q i).bind (fun r => (quatsymmrotate2 r.1 j).map Prod.fst) =
        (quatsymmrotate2 q k).map Prod.fst := by
  obtain ⟨k, k1, k2, e⟩ := qr2_closed hi.1 hi.2 hj.1 hj.2
  refine ⟨k, ⟨k1, k2⟩, fun q => ?_⟩
  simp only [rotate2_pos hi.1 hi.2, rotate2_pos hj.1 hj.2, rotate2_pos k1 k2, Option.bind_some,
    Option.map_some, mult2_assoc, e]

/-- **C14** (angle): invalid indices abort; the rotation shifts by a multiple of pi/2; `-i` undoes
`i`. -/
theorem c14_angle (q : ℝ) (i : ℤ) :
    (quatsymmrotate1 q i = none ↔ i = 0 ∨ 9 < |i|) ∧
    ∀ q' i', quatsymmrotate1 q i = some (q', i') →
      (∃ n : ℤ, q' = q + n * (Real.pi / 2)) ∧ ∃ j, quatsymmrotate1 q' (-i) = some (q, j) := by
  have hab : quatsymmrotate1 q i = none ↔ i = 0 ∨ 9 < |i| := by
    simp only [quatsymmrotate1, Option.map_eq_none_iff]; exact checkIndex_eq
  refine ⟨hab, fun q' i' h => ?_⟩
  have hv : ¬ (i = 0 ∨ 9 < |i|) := by rw [← hab, h]; simp
  have hp : ∀ (k : ℤ) (p : ℝ), 1 ≤ k → k ≤ 9 → quatsymmrotate1 p k = some (p + qr1 k, k) := by
    intro k p h1 h2
    simp only [quatsymmrotate1, checkIndex]
    rw [if_neg (by omega), if_neg (by omega)]; rfl
  have hn : ∀ (k : ℤ) (p : ℝ), 1 ≤ k → k ≤ 9 → quatsymmrotate1 p (-k) =
      some (p + qr1 (conj1.getD (k - 1).toNat 0), conj1.getD (k - 1).toNat 0) := by
    intro k p h1 h2
    simp only [quatsymmrotate1, checkIndex]
    rw [if_neg (by omega), if_pos (by omega)]; simp
  rcases valid_cases hv with ⟨h1, h2⟩ | ⟨h1, h2⟩
  · rw [hp i q h1 h2] at h
    simp only [Option.some.injEq, Prod.mk.injEq] at h
    obtain ⟨_, e⟩ := conj1_spec h1 h2
    have hr := hn i q' h1 h2
    rw [← h.1, add_assoc, e, add_zero] at hr
    exact ⟨⟨_, h.1.symm⟩, by rw [← h.1]; exact ⟨_, hr⟩⟩
  · have := hn (-i) q h1 h2
    rw [neg_neg, h] at this
    obtain ⟨⟨r1, r2⟩, e⟩ := conj1_spec h1 h2
    simp only [Option.some.injEq, Prod.mk.injEq] at this
    have hr := hp (-i) q' h1 h2
    rw [this.1, add_assoc, add_comm (qr1 (conj1.getD _ _)), e, add_zero] at hr
    exact ⟨⟨_, this.1⟩, by rw [this.1]; exact ⟨_, hr⟩⟩

/-! ## C15 -/

/-- Specification: the direction of a quaternion of non-negligible length. -/
noncomputable def direction (q : Q4) : Q4 :=
  ⟨q.q1 / Real.sqrt (lenSq q), q.q2 / Real.sqrt (lenSq q), q.q3 / Real.sqrt (lenSq q), q.q4 / Real.sqrt (lenSq q)⟩

/-- Specification: squared distance of the directions of two orientations. -/
noncomputable def distSq (p q : Q4) : ℝ :=
  ((direction q).q1 - (direction p).q1) ^ 2 + ((direction q).q2 - (direction p).q2) ^ 2 +
  ((direction q).q3 - (direction p).q3) ^ 2 + ((direction q).q4 - (direction p).q4) ^ 2

/-- The code's distance is the distance of directions, for orientations that are not numerically
zero. -/
theorem c15_distance (p q : Q4) (hp : (tiny : ℝ) ≤ Real.sqrt (lenSq p)) (hq : tiny ≤ Real.sqrt (lenSq q)) :
    quatdiffsq4 p q = distSq p q := by
  have hn : ∀ r : Q4, tiny ≤ Real.sqrt (lenSq r) → quatnorm4 r = direction r := by
    intro r hr
    rw [lenSq_eq, ← magn4_eq] at hr
    have hinv : quatmaginv4 r = 1 / Real.sqrt (lenSq r) := by
      rw [quatmaginv4, if_neg (not_lt.mpr hr), lenSq_eq]; rfl
    simp only [quatnorm4, hinv, direction]
    ext <;> simp only <;> ring
  simp only [quatdiffsq4, hn p hp, hn q hq, quatmagsq4, quatsub4, distSq]
  ring

theorem cand4_rotate {q1 q2 : Q4} {k : ℤ} (h1 : 1 ≤ k) (h2 : k ≤ 48) :
    quatsymmrotate4 q2 k = some ((cand4 q1 q2 k).1, k) ∧
    (cand4 q1 q2 k).2 = quatdiffsq4 q1 (cand4 q1 q2 k).1 := by
  rw [rotate4_pos h1 h2]
  unfold cand4
  split_ifs with h
  · rw [h, qr4_one, mult4_one]; exact ⟨rfl, rfl⟩
  · exact ⟨rfl, rfl⟩

/-- **C15** (quaternions): for every pair of orientations and every start index (zero, negative, out
of range included) the search returns a listed rotation together with exactly that rotation of the
second orientation; it is not farther from the first orientation than the start candidate; it is
within the acceptance threshold, or else the closest of all 48. -/
theorem c15_search4 (q1 q2 q' : Q4) (iq k : ℤ) (h : quatfindsymm4 q1 q2 iq = (q', k)) :
    (1 ≤ k ∧ k ≤ 48) ∧ quatsymmrotate4 q2 k = some (q', k) ∧
    (∀ s p, quatsymmrotate4 q2 iq = some (p, s) → quatdiffsq4 q1 q' ≤ quatdiffsq4 q1 p) ∧
    (iq = 0 ∨ 48 < |iq| → quatdiffsq4 q1 q' ≤ quatdiffsq4 q1 q2) ∧
    (quatdiffsq4 q1 q' ≤ thr4 ∨
      ∀ n p, quatsymmrotate4 q2 n = some (p, n) → quatdiffsq4 q1 q' ≤ quatdiffsq4 q1 p) := by
  have hs := startIndex_range 48 conj4 iq (by norm_num) (fun i h1 h2 => (conj4_spec h1 h2).1)
  have hsp := search_spec (cand4 q1 q2) thr4 48 conj4 iq hs
  rw [show search (cand4 q1 q2) thr4 48 conj4 iq = (q', k) from h] at hsp
  obtain ⟨hr, e, hle, hor⟩ := hsp
  obtain ⟨c1, c2⟩ := cand4_rotate (q1 := q1) (q2 := q2) hr.1 hr.2
  rw [c2, ← e] at hle hor
  rw [← e] at c1
  obtain ⟨s1, s2⟩ := cand4_rotate (q1 := q1) (q2 := q2) hs.1 hs.2
  rw [s2] at hle
  refine ⟨hr, c1, ?_, ?_, ?_⟩
  · intro s p hp
    have hv : ¬ (iq = 0 ∨ 48 < |iq|) := by rw [← c14_aborts_iff q2 iq, hp]; simp
    have hst : checkIndex 48 conj4 iq = some (startIndex 48 conj4 iq) := by
      have : ¬ (iq = 0 ∨ iq > 48 ∨ iq < -48) := by
        rcases valid_cases hv with h | h <;> omega
      unfold checkIndex startIndex
      rw [if_neg this]
      simp only [if_neg this]
    have : p = (cand4 q1 q2 (startIndex 48 conj4 iq)).1 := by
      simp only [quatsymmrotate4, hst, Option.map_some, Option.some.injEq, Prod.mk.injEq] at hp
      have s1' := s1
      rw [rotate4_pos hs.1 hs.2] at s1'
      simp only [Option.some.injEq, Prod.mk.injEq, and_true] at s1'
      push_cast at s1'
      rw [← s1', ← hp.1]
      split_ifs with h1
      · rw [h1, qr4_one, mult4_one]
      · rfl
    rw [this]; exact hle
  · intro hinv
    have : startIndex 48 conj4 iq = 1 := by
      have hc : iq = 0 ∨ iq > 48 ∨ iq < -48 := by
        rcases hinv with h | h
        · exact Or.inl h
        · right; rcases lt_abs.mp h with h | h
          · exact Or.inl h
          · right; omega
      unfold startIndex
      simp only [if_pos hc]; norm_num
    push_cast at hle
    rw [this] at hle
    simpa [cand4] using hle
  · rcases hor with h | h
    · exact Or.inl h
    · refine Or.inr fun n p hp => ?_
      have hv : ¬ (n = 0 ∨ 48 < |n|) := by rw [← c14_aborts_iff q2 n, hp]; simp
      rcases valid_cases hv with ⟨h1, h2⟩ | ⟨h1, h2⟩
      · obtain ⟨d1, d2⟩ := cand4_rotate (q1 := q1) (q2 := q2) h1 h2
        rw [hp] at d1
        simp only [Option.some.injEq, Prod.mk.injEq, and_true] at d1
        have := h n h1 h2
        rwa [d2, ← d1] at this
      · exfalso
        have h3 := rotate4_neg (q := q2) h1 h2
        rw [neg_neg, hp] at h3
        simp only [Option.some.injEq, Prod.mk.injEq] at h3
        have := (conj4_spec h1 h2).1
        omega

/-- **C15** (quaternions): if any listed rotation brings the second orientation within the threshold,
so does the returned one. -/
theorem c15_search4_finds (q1 q2 q' : Q4) (iq k : ℤ) (h : quatfindsymm4 q1 q2 iq = (q', k)) (n : ℤ) (p : Q4)
    (hp : quatsymmrotate4 q2 n = some (p, n)) (hd : quatdiffsq4 q1 p ≤ thr4) :
    quatdiffsq4 q1 q' ≤ thr4 := by
  obtain ⟨_, _, _, _, h | h⟩ := c15_search4 q1 q2 q' iq k h
  · exact h
  · exact (h n p hp).trans hd

/-- **C15** (two components). -/
theorem c15_search2 (q1 q2 q' : Q2) (iq k : ℤ) (h : quatfindsymm2 q1 q2 iq = (q', k)) :
    (1 ≤ k ∧ k ≤ 4) ∧ quatsymmrotate2 q2 k = some (q', k) ∧
    (iq = 0 ∨ 4 < |iq| → quatdiffsq2 q1 q' ≤ quatdiffsq2 q1 q2) ∧
    (quatdiffsq2 q1 q' ≤ thr2 ∨
      ∀ n p, 1 ≤ n → quatsymmrotate2 q2 n = some (p, n) → quatdiffsq2 q1 q' ≤ quatdiffsq2 q1 p) := by
  have hs := startIndex_range 4 conj2 iq (by norm_num) (fun i h1 h2 => (conj2_spec h1 h2).1)
  have hsp := search_spec (cand2 q1 q2) thr2 4 conj2 iq hs
  rw [show search (cand2 q1 q2) thr2 4 conj2 iq = (q', k) from h] at hsp
  obtain ⟨hr, e, hle, hor⟩ := hsp
  have hc : ∀ n : ℤ, 1 ≤ n → n ≤ 4 → quatsymmrotate2 q2 n = some ((cand2 q1 q2 n).1, n) ∧
      (cand2 q1 q2 n).2 = quatdiffsq2 q1 (cand2 q1 q2 n).1 := by
    intro n h1 h2
    rw [rotate2_pos h1 h2]
    unfold cand2
    split_ifs with h
    · rw [h, qr2_val.1, mult2_one]; exact ⟨rfl, rfl⟩
    · exact ⟨rfl, rfl⟩
  obtain ⟨c1, c2⟩ := hc k hr.1 hr.2
  rw [c2, ← e] at hle hor
  rw [← e] at c1
  refine ⟨hr, c1, ?_, ?_⟩
  · intro hinv
    have : startIndex 4 conj2 iq = 1 := by
      have hc : iq = 0 ∨ iq > 4 ∨ iq < -4 := by
        rcases hinv with h | h
        · exact Or.inl h
        · right; rcases lt_abs.mp h with h | h
          · exact Or.inl h
          · right; omega
      unfold startIndex
      simp only [if_pos hc]; norm_num
    push_cast at hle
    rw [this] at hle
    simpa [cand2] using hle
  · rcases hor with h | h
    · exact Or.inl h
    · refine Or.inr fun n p h1 hp => ?_
      have hv : ¬ (n = 0 ∨ 4 < |n|) := by rw [← (c14_two_components q2 n).1, hp]; simp
      have h2 : n ≤ 4 := by rcases valid_cases hv with h | h <;> omega
      obtain ⟨d1, d2⟩ := hc n h1 h2
      rw [hp] at d1
      simp only [Option.some.injEq, Prod.mk.injEq, and_true] at d1
      have := h n h1 h2
      rwa [d2, ← d1] at this

/-- **C15** (angle). -/
theorem c15_search1 (q1 q2 q' : ℝ) (iq k : ℤ) (h : quatfindsymm1 q1 q2 iq = (q', k)) :
    (1 ≤ k ∧ k ≤ 9) ∧ quatsymmrotate1 q2 k = some (q', k) ∧
    (iq = 0 ∨ 9 < |iq| → |q' - q1| ≤ |q2 - q1|) ∧
    (|q' - q1| ≤ Real.pi / 4 ∨ ∀ n : ℤ, -4 ≤ n → n ≤ 4 → |q' - q1| ≤ |q2 + n * (Real.pi / 2) - q1|) := by
  have hs := startIndex_range 9 conj1 iq (by norm_num) (fun i h1 h2 => (conj1_spec h1 h2).1)
  have hsp := search_spec (cand1 q1 q2) thr1 9 conj1 iq hs
  rw [show search (cand1 q1 q2) thr1 9 conj1 iq = (q', k) from h] at hsp
  obtain ⟨hr, e, hle, hor⟩ := hsp
  have hone : qr1 1 = 0 := by simp [qr1, rawqr1]
  have hc : ∀ n : ℤ, (cand1 q1 q2 n).1 = q2 + qr1 n ∧ (cand1 q1 q2 n).2 = |q2 + qr1 n - q1| := by
    intro n
    unfold cand1
    split_ifs with h
    · rw [h, hone]; simp
    · exact ⟨rfl, rfl⟩
  rw [(hc k).2] at hle hor
  rw [(hc k).1] at e
  rw [← e] at hle hor
  refine ⟨hr, ?_, ?_, ?_⟩
  · simp only [quatsymmrotate1, checkIndex]
    rw [if_neg (by omega), if_neg (by omega)]
    simp only at e
    simp [e]
  · intro hinv
    have : startIndex 9 conj1 iq = 1 := by
      have hc : iq = 0 ∨ iq > 9 ∨ iq < -9 := by
        rcases hinv with h | h
        · exact Or.inl h
        · right; rcases lt_abs.mp h with h | h
          · exact Or.inl h
          · right; omega
      unfold startIndex
      simp only [if_pos hc]; norm_num
    push_cast at hle
    rw [this, (hc 1).2, hone, add_zero] at hle
    exact hle
  · rcases hor with h | h
    · left; unfold thr1 at h; norm_num at h; linarith
    · right
      intro n hn1 hn2
      have hex : ∃ m : ℤ, 1 ≤ m ∧ m ≤ 9 ∧ rawqr1.getD (m - 1).toNat 0 = n := by
        have : n = -4 ∨ n = -3 ∨ n = -2 ∨ n = -1 ∨ n = 0 ∨ n = 1 ∨ n = 2 ∨ n = 3 ∨ n = 4 := by omega
        rcases this with rfl | rfl | rfl | rfl | rfl | rfl | rfl | rfl | rfl
        · exact ⟨9, by decide, by decide, by decide⟩
        · exact ⟨7, by decide, by decide, by decide⟩
        · exact ⟨5, by decide, by decide, by decide⟩
        · exact ⟨3, by decide, by decide, by decide⟩
        · exact ⟨1, by decide, by decide, by decide⟩
        · exact ⟨2, by decide, by decide, by decide⟩
        · exact ⟨4, by decide, by decide, by decide⟩
        · exact ⟨6, by decide, by decide, by decide⟩
        · exact ⟨8, by decide, by decide, by decide⟩
      obtain ⟨m, m1, m2, em⟩ := hex
      have := h m m1 m2
      rw [(hc m).2] at this
      unfold qr1 at this
      rwa [em] at this

/-! ## C16 -/

/-- The rotation matrix as a Mathlib matrix. -/
def rot (q : Q4) : Matrix (Fin 3) (Fin 3) ℝ := Matrix.of (quatrotationmatrix q)

/-- **C16**: a unit quaternion gives an orthogonal matrix of determinant one (in general the length
enters as its fourth and sixth power). -/
theorem c16_rotation (q : Q4) :
    rot q * (rot q).transpose = (lenSq q) ^ 2 • (1 : Matrix (Fin 3) (Fin 3) ℝ) ∧
    (rot q).det = (lenSq q) ^ 3 := by
  constructor
  · ext i j
    fin_cases i <;> fin_cases j <;>
      simp [rot, quatrotationmatrix, Matrix.mul_apply, Fin.sum_univ_three, lenSq] <;> ring
  · simp [rot, quatrotationmatrix, Matrix.det_fin_three, lenSq]
    ring

/-- **C16**: for unit quaternions. -/
theorem c16_rotation_unit (q : Q4) (h : lenSq q = 1) :
    rot q * (rot q).transpose = 1 ∧ (rot q).transpose * rot q = 1 ∧ (rot q).det = 1 := by
  obtain ⟨h1, h2⟩ := c16_rotation q
  rw [h] at h1 h2
  have h3 : rot q * (rot q).transpose = 1 := by simpa using h1
  exact ⟨h3, mul_eq_one_comm.mp h3, by simpa using h2⟩

/-- **C16**: opposite quaternions give the same matrix. -/
theorem c16_opposite (q : Q4) : rot ⟨-q.q1, -q.q2, -q.q3, -q.q4⟩ = rot q := by
  ext i j
  fin_cases i <;> fin_cases j <;> simp [rot, quatrotationmatrix]

/-- **C16**: products of quaternions give products of matrices. -/
theorem c16_multiplicative (p q : Q4) : rot (quatmult4 p q) = rot p * rot q := by
  ext i j
  fin_cases i <;> fin_cases j <;>
    simp [rot, quatrotationmatrix, quatmult4, Matrix.mul_apply, Fin.sum_univ_three] <;> ring

/-- A vector as a pure quaternion. -/
def pureH (v : Fin 3 → ℝ) : Quaternion ℝ := ⟨0, v 0, v 1, v 2⟩

/-- **C16**: the matrix is the rotation `v ↦ q v q*` of pure quaternions. -/
theorem c16_sandwich (q : Q4) (v : Fin 3 → ℝ) :
    toH q * pureH v * star (toH q) = pureH ((rot q).mulVec v) := by
  have e0 : (pureH v).re = 0 := rfl
  have e1 : (pureH v).imI = v 0 := rfl
  have e2 : (pureH v).imJ = v 1 := rfl
  have e3 : (pureH v).imK = v 2 := rfl
  apply Quaternion.ext
  · change _ = 0
    simp [e0, e1, e2, e3]; ring
  · change _ = (rot q).mulVec v 0
    simp [e0, e1, e2, e3, rot, quatrotationmatrix, Matrix.mulVec, dotProduct, Fin.sum_univ_three]; ring
  · change _ = (rot q).mulVec v 1
    simp [e0, e1, e2, e3, rot, quatrotationmatrix, Matrix.mulVec, dotProduct, Fin.sum_univ_three]; ring
  · change _ = (rot q).mulVec v 2
    simp [e0, e1, e2, e3, rot, quatrotationmatrix, Matrix.mulVec, dotProduct, Fin.sum_univ_three]; ring

/-- Replace component `m` of a quaternion. -/
def setComp (q : Q4) (m : Fin 4) (t : ℝ) : Q4 :=
  match m with
  | 0 => { q with q1 := t }
  | 1 => { q with q2 := t }
  | 2 => { q with q3 := t }
  | 3 => { q with q4 := t }

/-- Component `m`. -/
def comp (q : Q4) (m : Fin 4) : ℝ :=
  match m with
  | 0 => q.q1
  | 1 => q.q2
  | 2 => q.q3
  | 3 => q.q4

/-- Derivative of a quadratic polynomial. -/
theorem quad_deriv (f : ℝ → ℝ) (a b c x d : ℝ) (hf : ∀ t, f t = a * t ^ 2 + b * t + c)
    (hd : d = 2 * a * x + b) : HasDerivAt f d x := by
  have hfe : f = fun t => a * t ^ 2 + b * t + c := funext hf
  rw [hfe, hd]
  have h := (((hasDerivAt_id' x).pow 2).const_mul a).add ((hasDerivAt_id' x).const_mul b)
  have h2 := h.add_const c
  refine h2.congr_deriv ?_
  simp; ring

/-- **C16** (derivative): the derivative routine returns the entrywise partial derivative for all
entries except (3,2) with respect to the second component and (3,1) with respect to the third.
Missing from the full claim: those two entries, which are wrong (`c16_violation_derivative`,
`c16_violation_derivative_sign`). -/
theorem c16_derivative_partial (q : Q4) (m : Fin 4) (i j : Fin 3) (h : ¬ (m = 1 ∧ i = 2 ∧ j = 1))
    (h' : ¬ (m = 2 ∧ i = 2 ∧ j = 0)) :
    HasDerivAt (fun t => quatrotationmatrix (setComp q m t) i j)
      (derivquatrotationmatrixdq q m i j) (comp q m) := by
  obtain ⟨a, b, c, d⟩ := q
  fin_cases m <;> fin_cases i <;> fin_cases j <;> first
    | (exfalso; exact h ⟨rfl, rfl, rfl⟩)
    | (exfalso; exact h' ⟨rfl, rfl, rfl⟩)
    | (simp only [quatrotationmatrix, setComp, derivquatrotationmatrixdq, comp, Fin.isValue, Fin.zero_eta, Fin.mk_one, Fin.reduceFinMk, Matrix.cons_val_zero, Matrix.cons_val_one, Matrix.cons_val]
       first
       | (apply quad_deriv _ 1 0 (b * b - c * c - d * d) <;> intros <;> ring1)
       | (apply quad_deriv _ 1 0 (- b * b + c * c - d * d) <;> intros <;> ring1)
       | (apply quad_deriv _ 1 0 (- b * b - c * c + d * d) <;> intros <;> ring1)
       | (apply quad_deriv _ 0 (2 * d) (2 * (b * c)) <;> intros <;> ring1)
       | (apply quad_deriv _ 0 (-2 * d) (2 * (b * c)) <;> intros <;> ring1)
       | (apply quad_deriv _ 0 (2 * c) (2 * (b * d)) <;> intros <;> ring1)
       | (apply quad_deriv _ 0 (-2 * c) (2 * (b * d)) <;> intros <;> ring1)
       | (apply quad_deriv _ 0 (2 * b) (2 * (c * d)) <;> intros <;> ring1)
       | (apply quad_deriv _ 0 (-2 * b) (2 * (c * d)) <;> intros <;> ring1)
       | (apply quad_deriv _ 1 0 (a * a - c * c - d * d) <;> intros <;> ring1)
       | (apply quad_deriv _ (-1) 0 (a * a + c * c - d * d) <;> intros <;> ring1)
       | (apply quad_deriv _ (-1) 0 (a * a - c * c + d * d) <;> intros <;> ring1)
       | (apply quad_deriv _ 0 (2 * c) (2 * (a * d)) <;> intros <;> ring1)
       | (apply quad_deriv _ 0 (2 * c) (-2 * (a * d)) <;> intros <;> ring1)
       | (apply quad_deriv _ 0 (2 * d) (2 * (a * c)) <;> intros <;> ring1)
       | (apply quad_deriv _ 0 (2 * d) (-2 * (a * c)) <;> intros <;> ring1)
       | (apply quad_deriv _ 0 (2 * a) (2 * (c * d)) <;> intros <;> ring1)
       | (apply quad_deriv _ 0 (-2 * a) (2 * (c * d)) <;> intros <;> ring1)
       | (apply quad_deriv _ (-1) 0 (a * a + b * b - d * d) <;> intros <;> ring1)
       | (apply quad_deriv _ 1 0 (a * a - b * b - d * d) <;> intros <;> ring1)
       | (apply quad_deriv _ (-1) 0 (a * a - b * b + d * d) <;> intros <;> ring1)
       | (apply quad_deriv _ 0 (2 * b) (2 * (a * d)) <;> intros <;> ring1)
       | (apply quad_deriv _ 0 (2 * b) (-2 * (a * d)) <;> intros <;> ring1)
       | (apply quad_deriv _ 0 (2 * a) (2 * (b * d)) <;> intros <;> ring1)
       | (apply quad_deriv _ 0 (-2 * a) (2 * (b * d)) <;> intros <;> ring1)
       | (apply quad_deriv _ 0 (2 * d) (2 * (a * b)) <;> intros <;> ring1)
       | (apply quad_deriv _ 0 (2 * d) (-2 * (a * b)) <;> intros <;> ring1)
       | (apply quad_deriv _ (-1) 0 (a * a + b * b - c * c) <;> intros <;> ring1)
       | (apply quad_deriv _ (-1) 0 (a * a - b * b + c * c) <;> intros <;> ring1)
       | (apply quad_deriv _ 1 0 (a * a - b * b - c * c) <;> intros <;> ring1)
       | (apply quad_deriv _ 0 (2 * a) (2 * (b * c)) <;> intros <;> ring1)
       | (apply quad_deriv _ 0 (-2 * a) (2 * (b * c)) <;> intros <;> ring1)
       | (apply quad_deriv _ 0 (2 * b) (2 * (a * c)) <;> intros <;> ring1)
       | (apply quad_deriv _ 0 (2 * b) (-2 * (a * c)) <;> intros <;> ring1)
       | (apply quad_deriv _ 0 (2 * c) (2 * (a * b)) <;> intros <;> ring1)
       | (apply quad_deriv _ 0 (2 * c) (-2 * (a * b)) <;> intros <;> ring1))

/-- **C16** (violation): entry (3,2), derivative with respect to component 2, is the true derivative
only when components 1 and 2 coincide (source/fortran/quat.f:1370 has `2*q(2)` for `2*q(1)`). -/
theorem c16_violation_derivative (q : Q4) :
    ∃ d, HasDerivAt (fun t => quatrotationmatrix (setComp q 1 t) 2 1) d (comp q 1) ∧
      (derivquatrotationmatrixdq q 1 2 1 = d ↔ q.q1 = q.q2) := by
  refine ⟨2 * q.q1, ?_, ?_⟩
  · apply quad_deriv _ 0 (2 * q.q1) (2 * (q.q3 * q.q4))
    · intro t; simp [quatrotationmatrix, setComp]; ring
    · ring
  · simp only [derivquatrotationmatrixdq, Matrix.cons_val_one, Matrix.cons_val]
    constructor
    · intro h; linarith
    · intro h; rw [h]

/-- **C16** (violation): entry (3,1), derivative with respect to component 3, has the wrong sign: it
is the true derivative only when component 1 vanishes (source/fortran/quat.f:1379 has `2*q(1)` for `-2*q(1)`). -/
theorem c16_violation_derivative_sign (q : Q4) :
    ∃ d, HasDerivAt (fun t => quatrotationmatrix (setComp q 2 t) 2 0) d (comp q 2) ∧
      derivquatrotationmatrixdq q 2 2 0 = -d ∧ (derivquatrotationmatrixdq q 2 2 0 = d ↔ q.q1 = 0) := by
  refine ⟨-2 * q.q1, ?_, ?_, ?_⟩
  · apply quad_deriv _ 0 (-2 * q.q1) (2 * (q.q2 * q.q4))
    · intro t; simp [quatrotationmatrix, setComp]; ring
    · ring
  · simp [derivquatrotationmatrixdq]
  · simp only [derivquatrotationmatrixdq, Matrix.cons_val_zero, Matrix.cons_val_one, Matrix.cons_val]
    constructor
    · intro h; linarith
    · intro h; rw [h]; ring

/-- **C16**: the fourth-rank tensor built from a rotation matrix is totally symmetric. -/
theorem c16_tensor_symmetric (R : Fin 3 → Fin 3 → ℝ) (i j k l : Fin 3) :
    rotationtensorijkl R i j k l = rotationtensorijkl R j i k l ∧
    rotationtensorijkl R i j k l = rotationtensorijkl R i k j l ∧
    rotationtensorijkl R i j k l = rotationtensorijkl R i j l k := by
  refine ⟨?_, ?_, ?_⟩ <;> unfold rotationtensorijkl <;> ring

/-- **C16**: for a symmetry rotation of the cube applied on the crystal side, the cubic tensor is
unchanged. -/
theorem c16_tensor_cubic (q : Q4) (k : ℤ) (h1 : 1 ≤ k) (h2 : k ≤ 48) (a b c d : Fin 3) :
    rotationtensorijkl (quatrotationmatrix (quatmult4 q (qr4 k))) a b c d =
      rotationtensorijkl (quatrotationmatrix q) a b c d := by
  obtain ⟨v, hv, e, _⟩ := qr4_eq h1 h2
  -- the columns of the matrix of `qr4 k` are signed unit vectors
  obtain ⟨hu, hcube⟩ := c14_table_sound k h1 h2
  obtain ⟨ho, ho', -⟩ := c16_rotation_unit _ hu
  have hm : ∀ i j, quatrotationmatrix (quatmult4 q (qr4 k)) i j =
      quatrotationmatrix q i 0 * quatrotationmatrix (qr4 k) 0 j +
      quatrotationmatrix q i 1 * quatrotationmatrix (qr4 k) 1 j +
      quatrotationmatrix q i 2 * quatrotationmatrix (qr4 k) 2 j := by
    intro i j
    have := congrFun (congrFun (c16_multiplicative q (qr4 k)) i) j
    simpa [rot, Matrix.mul_apply, Fin.sum_univ_three] using this
  have row : ∀ i j, quatrotationmatrix (qr4 k) i 0 * quatrotationmatrix (qr4 k) j 0 +
      quatrotationmatrix (qr4 k) i 1 * quatrotationmatrix (qr4 k) j 1 +
      quatrotationmatrix (qr4 k) i 2 * quatrotationmatrix (qr4 k) j 2 =
      (1 : Matrix (Fin 3) (Fin 3) ℝ) i j := by
    intro i j
    have := congrFun (congrFun ho i) j
    simpa [rot, Matrix.mul_apply, Fin.sum_univ_three] using this
  -- entries are -1, 0, 1 and each column of squares sums to one: at most one entry is non-zero
  set S := quatrotationmatrix (qr4 k) with hS
  have col : ∀ i j, S 0 i * S 0 j + S 1 i * S 1 j + S 2 i * S 2 j = (1 : Matrix (Fin 3) (Fin 3) ℝ) i j := by
    intro i j
    have := congrFun (congrFun ho' i) j
    simpa [rot, hS, Matrix.mul_apply, Fin.sum_univ_three] using this
  have colcase : ∀ j, ∃ r : Fin 3, ∃ s : ℝ, (s = 1 ∨ s = -1) ∧ ∀ i, S i j = if i = r then s else 0 := by
    intro j
    have h := col j j
    simp only [Matrix.one_apply_eq] at h
    rcases hcube 0 j with e0 | e0 | e0 <;> rcases hcube 1 j with e1 | e1 | e1 <;>
      rcases hcube 2 j with e2 | e2 | e2 <;> rw [← hS] at e0 e1 e2 <;> rw [e0, e1, e2] at h <;>
      norm_num at h
    all_goals first
      | (refine ⟨0, -1, Or.inr rfl, ?_⟩; rw [Fin.forall_fin_succ, Fin.forall_fin_two]; simp [e0, e1, e2]; done)
      | (refine ⟨0, 1, Or.inl rfl, ?_⟩; rw [Fin.forall_fin_succ, Fin.forall_fin_two]; simp [e0, e1, e2]; done)
      | (refine ⟨1, -1, Or.inr rfl, ?_⟩; rw [Fin.forall_fin_succ, Fin.forall_fin_two]; simp [e0, e1, e2]; done)
      | (refine ⟨1, 1, Or.inl rfl, ?_⟩; rw [Fin.forall_fin_succ, Fin.forall_fin_two]; simp [e0, e1, e2]; done)
      | (refine ⟨2, -1, Or.inr rfl, ?_⟩; rw [Fin.forall_fin_succ, Fin.forall_fin_two]; simp [e0, e1, e2]; done)
      | (refine ⟨2, 1, Or.inl rfl, ?_⟩; rw [Fin.forall_fin_succ, Fin.forall_fin_two]; simp [e0, e1, e2]; done)
  obtain ⟨r0, s0, hs0, c0⟩ := colcase 0
  obtain ⟨r1, s1, hs1, c1⟩ := colcase 1
  obtain ⟨r2, s2, hs2, c2⟩ := colcase 2
  have d01 := col 0 1
  have d02 := col 0 2
  have d12 := col 1 2
  simp only [c0, c1, c2] at d01 d02 d12
  have sq : ∀ s : ℝ, (s = 1 ∨ s = -1) → s * s = 1 := by
    intro s h; rcases h with rfl | rfl <;> norm_num
  have q0 := sq s0 hs0
  have q1 := sq s1 hs1
  have q2 := sq s2 hs2
  have colv : ∀ (r : Fin 3) (s : ℝ) (i : Fin 3) (j : Fin 3), (∀ i, S i j = if i = r then s else 0) →
      quatrotationmatrix (quatmult4 q (qr4 k)) i j = s * quatrotationmatrix q i r := by
    intro r s i j hc
    rw [hm, hc, hc, hc]
    fin_cases r <;> simp <;> ring
  have n01 : r0 ≠ r1 := by
    rintro rfl
    fin_cases r0 <;> simp at d01 <;> rcases hs0 with rfl | rfl <;> rcases hs1 with rfl | rfl <;> norm_num at d01
  have n02 : r0 ≠ r2 := by
    rintro rfl
    fin_cases r0 <;> simp at d02 <;> rcases hs0 with rfl | rfl <;> rcases hs2 with rfl | rfl <;> norm_num at d02
  have n12 : r1 ≠ r2 := by
    rintro rfl
    fin_cases r1 <;> simp at d12 <;> rcases hs1 with rfl | rfl <;> rcases hs2 with rfl | rfl <;> norm_num at d12
  unfold rotationtensorijkl
  simp only [colv r0 s0 _ 0 c0, colv r1 s1 _ 1 c1, colv r2 s2 _ 2 c2]
  have four : ∀ (s : ℝ), s * s = 1 → ∀ w x y z : ℝ, s * w * (s * x) * (s * y) * (s * z) = w * x * y * z := by
    intro s hs w x y z
    have : s * w * (s * x) * (s * y) * (s * z) = (s * s) * (s * s) * (w * x * y * z) := by ring
    rw [this, hs]; ring
  rw [four s0 q0, four s1 q1, four s2 q2]
  fin_cases r0 <;> fin_cases r1 <;> fin_cases r2 <;> simp at n01 n02 n12 ⊢ <;> ring

/-! ## C49 -/

theorem tanh_pos {x : ℝ} (h : 0 < x) : 0 < Real.tanh x := by
  rw [Real.tanh_eq_sinh_div_cosh]; exact div_pos (Real.sinh_pos_iff.mpr h) (Real.cosh_pos x)

theorem tanh_le {x : ℝ} (h : 0 ≤ x) : Real.tanh x ≤ x := by
  rw [Real.tanh_eq_sinh_div_cosh, div_le_iff₀ (Real.cosh_pos x)]
  have hmono : MonotoneOn (fun t => t * Real.cosh t - Real.sinh t) (Set.Ici 0) := by
    apply monotoneOn_of_deriv_nonneg (convex_Ici 0)
    · exact (continuous_id.mul Real.continuous_cosh |>.sub Real.continuous_sinh).continuousOn
    · intro t _
      exact (((hasDerivAt_id' t).mul (Real.hasDerivAt_cosh t)).sub
        (Real.hasDerivAt_sinh t)).differentiableAt.differentiableWithinAt
    · intro t ht
      rw [interior_Ici] at ht
      have hd := (((hasDerivAt_id' t).mul (Real.hasDerivAt_cosh t)).sub (Real.hasDerivAt_sinh t)).deriv
      have : deriv (fun t => t * Real.cosh t - Real.sinh t) t = t * Real.sinh t := by
        refine Eq.trans hd ?_
        ring
      rw [this]
      exact mul_nonneg (le_of_lt ht) (Real.sinh_nonneg_iff.mpr (le_of_lt ht))
  have := hmono (Set.mem_Ici.mpr le_rfl) (Set.mem_Ici.mpr h) h
  simp at this
  linarith


/-- **C49**: for floor type `m` (maximum) the inverse gradient norm is positive and never exceeds the
maximum `1 / floor`, and equals `1/|grad|` above the floor. -/
theorem c49_max (g2 f : ℝ) (hf : 0 < f) :
    ∃ r, evalGradNormi 'm' g2 (f ^ 2) (1 / f) = some r ∧ 0 < r ∧ r ≤ 1 / f ∧
      (f ^ 2 < g2 → r = 1 / Real.sqrt g2) ∧ (g2 ≤ f ^ 2 → r = 1 / f) := by
  unfold evalGradNormi
  rw [if_pos rfl]
  by_cases h : g2 > f ^ 2
  · rw [if_pos h]
    have h1 : f < Real.sqrt g2 := Real.lt_sqrt_of_sq_lt h
    exact ⟨_, rfl, one_div_pos.mpr (hf.trans h1), one_div_le_one_div_of_le hf h1.le, fun _ => rfl,
      fun h' => absurd h (not_lt.mpr h')⟩
  · rw [if_neg h]
    exact ⟨_, rfl, one_div_pos.mpr hf, le_rfl, fun h' => absurd h' h, fun _ => rfl⟩

/-- **C49**: for floor type `s` (square root) the same bounds hold. -/
theorem c49_sqrt (g2 f : ℝ) (hf : 0 < f) (hg : 0 ≤ g2) :
    ∃ r, evalGradNormi 's' g2 (f ^ 2) (1 / f) = some r ∧ 0 < r ∧ r ≤ 1 / f ∧
      r ^ 2 * (g2 + f ^ 2) = 1 := by
  have e : evalGradNormi 's' g2 (f ^ 2) (1 / f) = some (1 / Real.sqrt (g2 + f ^ 2)) := by
    unfold evalGradNormi; rw [if_neg (by decide), if_neg (by decide), if_pos rfl]
  have hp : 0 < g2 + f ^ 2 := by positivity
  have h1 : f ≤ Real.sqrt (g2 + f ^ 2) := Real.le_sqrt_of_sq_le (by linarith)
  refine ⟨_, e, one_div_pos.mpr (Real.sqrt_pos.mpr hp), one_div_le_one_div_of_le hf h1, ?_⟩
  rw [div_pow, Real.sq_sqrt hp.le]; field_simp

/-- **C49**: for floor type `t` (hyperbolic tangent) the same bounds hold, on both sides of the
switch to the series. -/
theorem c49_tanh (g2 f : ℝ) (hf : 0 < f) (hg : 0 ≤ g2) :
    ∃ r, evalGradNormi 't' g2 (f ^ 2) (1 / f) = some r ∧ 0 < r ∧ r ≤ 1 / f := by
  have hm : 0 < 1 / f := one_div_pos.mpr hf
  unfold evalGradNormi
  rw [if_neg (by decide), if_pos rfl]
  simp only
  generalize 1 / f = m at hm ⊢
  have hx : 0 ≤ g2 * m * m := by positivity
  by_cases h : g2 * m * m > 0.01
  · rw [if_pos h]
    have hgp : 0 < g2 := by
      rcases hg.lt_or_eq with h1 | h1
      · exact h1
      · exfalso; rw [← h1] at h; norm_num at h
    have hs : 0 < Real.sqrt g2 := Real.sqrt_pos.mpr hgp
    have ht : 0 < m * Real.sqrt g2 := mul_pos hm hs
    refine ⟨_, rfl, div_pos (tanh_pos ht) hs, ?_⟩
    rw [div_le_iff₀ hs]
    exact tanh_le ht.le
  · rw [if_neg h]
    push Not at h
    have h1 : 0 ≤ g2 * m * m * (5 - 2 * (g2 * m * m)) / 15 := by
      apply div_nonneg (mul_nonneg hx (by norm_num at h ⊢; linarith)) (by norm_num)
    have h2 : g2 * m * m * (5 - 2 * (g2 * m * m)) / 15 < 1 := by
      norm_num at h; nlinarith
    refine ⟨_, rfl, mul_pos hm (by linarith), ?_⟩
    nlinarith

/-- **C49**: every other floor type aborts. -/
theorem c49_other (c : Char) (g2 f m : ℝ) (h : c ≠ 'm' ∧ c ≠ 't' ∧ c ≠ 's') :
    evalGradNormi c g2 f m = none := by
  unfold evalGradNormi; rw [if_neg h.1, if_neg h.2.1, if_neg h.2.2]

/-! ## Non-vacuity -/

/-- A non-trivial rotation request: index -9 (inverse of a quarter turn) succeeds on any orientation. -/
example (q : Q4) : ∃ q' i', quatsymmrotate4 q (-9) = some (q', i') :=
  ⟨_, _, rotate4_neg (q := q) (i := 9) (by norm_num) (by norm_num)⟩

/-- Index 0 - as passed by the symmetry-aware transfer routines - aborts. -/
example (q : Q4) : quatsymmrotate4 q 0 = none := (c14_aborts_iff q 0).mpr (Or.inl rfl)

/-- A unit quaternion satisfying the hypotheses of the completeness theorem. -/
example : lenSq ⟨0, 1, 0, 0⟩ = 1 ∧ MapsCubeToItself ⟨0, 1, 0, 0⟩ := by
  refine ⟨by simp [lenSq], ?_⟩
  intro i j
  fin_cases i <;> fin_cases j <;> simp [quatrotationmatrix]

/-- The entry with the wrong derivative really differs for the quaternion (1,0,0,0). -/
example : ¬ ((⟨1, 0, 0, 0⟩ : Q4).q1 = (⟨1, 0, 0, 0⟩ : Q4).q2) := by norm_num

end AMPE.Quat.Props
