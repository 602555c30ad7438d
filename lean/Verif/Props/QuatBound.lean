import Verif.Props.QuatNearest
import Verif.Proofs.QuatCover
import Mathlib.Data.Finset.Lattice.Fold

/-!
# C15 (continued): how far apart two orientations can be after the symmetry search
-/

namespace AMPE.Quat.Props

open AMPE.Quat

theorem sign_cases (x : ℝ) : ∃ e : ℤ, (e = 1 ∨ e = -1) ∧ |x| = e * x := by
  rcases abs_choice x with h | h
  · exact ⟨1, Or.inl rfl, by rw [h]; simp⟩
  · exact ⟨-1, Or.inr rfl, by rw [h]; simp⟩

/-- The inner product with the table entry of an integer quadruple. -/
theorem table_inner {v : ℤ × ℤ × ℤ × ℤ} (hv : v ∈ rawqr4) (w : Q4) :
    inner4 (quatnorm4 (ofInt v)) w = (v.1 * w.q1 + v.2.1 * w.q2 + v.2.2.1 * w.q3 + v.2.2.2 * w.q4) / √(inorm v : ℝ) := by
  have na : (1 : ℝ) ≤ quatmagsq4 (ofInt v) := by rw [magsq_ofInt]; exact_mod_cast raw_norm v hv
  rw [norm4_of_ge na, magsq_ofInt]
  simp only [inner4, smul4, ofInt]
  ring

/-- Every unit quaternion is within 31.4 degrees of one of the table. -/
theorem table_covers (w : Q4) (hw : quatmagsq4 w = 1) : ∃ i : ℤ, 1 ≤ i ∧ i ≤ 48 ∧ (2 + √2) / 4 ≤ inner4 (qr4 i) w := by
  obtain ⟨i, hi, hmax⟩ := Finset.exists_max_image (Finset.Icc (1:ℤ) 48) (fun i => inner4 (qr4 i) w) ⟨1, by simp⟩
  rw [Finset.mem_Icc] at hi
  refine ⟨i, hi.1, hi.2, ?_⟩
  have hg : ∀ v ∈ rawqr4, (v.1 * w.q1 + v.2.1 * w.q2 + v.2.2.1 * w.q3 + v.2.2.2 * w.q4) / √(inorm v : ℝ) ≤ inner4 (qr4 i) w := by
    intro v hv
    obtain ⟨k, k1, k2, e⟩ := index_of_mem hv
    rw [← table_inner hv w, ← e]
    exact hmax k (Finset.mem_Icc.2 ⟨k1, k2⟩)
  generalize inner4 (qr4 i) w = M at hg
  obtain ⟨e1, s1, a1⟩ := sign_cases w.q1
  obtain ⟨e2, s2, a2⟩ := sign_cases w.q2
  obtain ⟨e3, s3, a3⟩ := sign_cases w.q3
  obtain ⟨e4, s4, a4⟩ := sign_cases w.q4
  have r2 : (0:ℝ) < √2 := by positivity
  have one : ∀ v ∈ rawqr4, inorm v = 1 → (v.1 * w.q1 + v.2.1 * w.q2 + v.2.2.1 * w.q3 + v.2.2.2 * w.q4) ≤ M := fun v hv hn => by
    have := hg v hv; rwa [hn, Int.cast_one, Real.sqrt_one, div_one] at this
  have two : ∀ v ∈ rawqr4, inorm v = 2 → (v.1 * w.q1 + v.2.1 * w.q2 + v.2.2.1 * w.q3 + v.2.2.2 * w.q4) ≤ √2 * M := fun v hv hn => by
    have := hg v hv
    rw [hn, Int.cast_ofNat, div_le_iff₀ r2] at this; linarith
  have four : ∀ v ∈ rawqr4, inorm v = 4 → (v.1 * w.q1 + v.2.1 * w.q2 + v.2.2.1 * w.q3 + v.2.2.2 * w.q4) ≤ 2 * M := fun v hv hn => by
    have := hg v hv
    rw [hn, Int.cast_ofNat, show (4:ℝ) = 2 ^ 2 by norm_num, Real.sqrt_sq (by norm_num), div_le_iff₀ (by norm_num)] at this; linarith
  have hu : |w.q1| * |w.q1| + |w.q2| * |w.q2| + |w.q3| * |w.q3| + |w.q4| * |w.q4| = 1 := by
    simp only [abs_mul_abs_self]; exact hw
  refine QuatCover.covering |w.q1| |w.q2| |w.q3| |w.q4| M (abs_nonneg _) (abs_nonneg _) (abs_nonneg _) (abs_nonneg _) hu ?_ ?_ ?_
  · rw [a1, a2, a3, a4]
    refine ⟨?_, ?_, ?_, ?_⟩
    · have := one (e1, 0, 0, 0) (by rcases s1 with rfl | rfl <;> decide) (by rcases s1 with rfl | rfl <;> decide)
      simpa using this
    · have := one (0, e2, 0, 0) (by rcases s2 with rfl | rfl <;> decide) (by rcases s2 with rfl | rfl <;> decide)
      simpa using this
    · have := one (0, 0, e3, 0) (by rcases s3 with rfl | rfl <;> decide) (by rcases s3 with rfl | rfl <;> decide)
      simpa using this
    · have := one (0, 0, 0, e4) (by rcases s4 with rfl | rfl <;> decide) (by rcases s4 with rfl | rfl <;> decide)
      simpa using this
  · rw [a1, a2, a3, a4]
    refine ⟨?_, ?_, ?_, ?_, ?_, ?_⟩
    · have := two (e1, e2, 0, 0) (by rcases s1 with rfl | rfl <;> rcases s2 with rfl | rfl <;> decide)
        (by rcases s1 with rfl | rfl <;> rcases s2 with rfl | rfl <;> decide)
      simpa using this
    · have := two (e1, 0, e3, 0) (by rcases s1 with rfl | rfl <;> rcases s3 with rfl | rfl <;> decide)
        (by rcases s1 with rfl | rfl <;> rcases s3 with rfl | rfl <;> decide)
      simpa using this
    · have := two (e1, 0, 0, e4) (by rcases s1 with rfl | rfl <;> rcases s4 with rfl | rfl <;> decide)
        (by rcases s1 with rfl | rfl <;> rcases s4 with rfl | rfl <;> decide)
      simpa using this
    · have := two (0, e2, e3, 0) (by rcases s2 with rfl | rfl <;> rcases s3 with rfl | rfl <;> decide)
        (by rcases s2 with rfl | rfl <;> rcases s3 with rfl | rfl <;> decide)
      simpa using this
    · have := two (0, e2, 0, e4) (by rcases s2 with rfl | rfl <;> rcases s4 with rfl | rfl <;> decide)
        (by rcases s2 with rfl | rfl <;> rcases s4 with rfl | rfl <;> decide)
      simpa using this
    · have := two (0, 0, e3, e4) (by rcases s3 with rfl | rfl <;> rcases s4 with rfl | rfl <;> decide)
        (by rcases s3 with rfl | rfl <;> rcases s4 with rfl | rfl <;> decide)
      simpa using this
  · rw [a1, a2, a3, a4]
    exact four (e1, e2, e3, e4)
      (by rcases s1 with rfl | rfl <;> rcases s2 with rfl | rfl <;> rcases s3 with rfl | rfl <;> rcases s4 with rfl | rfl <;> decide)
      (by rcases s1 with rfl | rfl <;> rcases s2 with rfl | rfl <;> rcases s3 with rfl | rfl <;> rcases s4 with rfl | rfl <;> decide)

/-- The conjugate. -/
def conjQ (q : Q4) : Q4 := ⟨q.q1, -q.q2, -q.q3, -q.q4⟩

theorem inner4_conj (a g b : Q4) : inner4 (quatmult4 a g) b = inner4 g (quatmult4 (conjQ a) b) := by
  simp only [inner4, quatmult4, conjQ]; ring

/-- **C15**: after the search the two orientations are never further apart than the largest misorientation of cubic crystals, 62.8 degrees:
the cosine of half the angle between them is at least `(2 + √2)/4`. -/
theorem c15_misorientation (q1 q2 q' : Q4) (iq k : ℤ) (h1 : tiny ≤ quatmagn4 q1) (h2 : tiny ≤ quatmagn4 q2)
    (h : quatfindsymm4 q1 q2 iq = (q', k)) : (2 + √2) / 4 ≤ inner4 (quatnorm4 q') (quatnorm4 q1) := by
  have u1 := norm4_magsq q1 h1
  have u2 := norm4_magsq q2 h2
  obtain ⟨i, i1, i2, hi⟩ := table_covers (quatmult4 (conjQ (quatnorm4 q2)) (quatnorm4 q1)) (by
    rw [magsq4_mult, u1, mul_one]; rw [← u2]; simp [quatmagsq4, conjQ])
  rw [← inner4_conj, ← norm4_rotate q2 i1 i2] at hi
  have hn := c15_nearest4 q1 q2 q' iq k h i i _ (rotate4_pos i1 i2)
  rw [diffsq4_inner, diffsq4_inner, norm4_rotate q2 i1 i2, magsq4_mult, qr4_unit i1 i2, mul_one] at hn
  rw [norm4_rotate q2 i1 i2] at hi
  obtain ⟨⟨k1, k2⟩, hk, _⟩ := c15_search4 q1 q2 q' iq k h
  rw [rotate4_pos k1 k2] at hk
  simp only [Option.some.injEq, Prod.mk.injEq, and_true] at hk
  have : quatmagsq4 (quatnorm4 q') = 1 := by rw [← hk, norm4_rotate q2 k1 k2, magsq4_mult, qr4_unit k1 k2, mul_one, u2]
  rw [this, u2] at hn
  linarith

/-- The orientation furthest from all equivalent ones. -/
noncomputable def furthest : Q4 := ⟨(2 + √2) / 4, √2 / 4, √2 / 4, (2 - √2) / 4⟩

theorem furthest_unit : quatmagsq4 furthest = 1 := by
  have := QuatCover.root_two.1
  simp only [quatmagsq4, furthest]
  linear_combination (1 / 4) * this

theorem furthest_check : (rawqr4.all fun v =>
    let p := 2 * v.1 + 2 * v.2.2.2
    let q := v.1 + v.2.1 + v.2.2.1 - v.2.2.2
    let P : ℤ := if inorm v = 1 then 2 else if inorm v = 2 then 2 else 4
    let Q : ℤ := if inorm v = 1 then 1 else if inorm v = 2 then 2 else 2
    (inorm v == 1 || inorm v == 2 || inorm v == 4) && decide (0 ≤ (P - p) * 1000 + (Q - q) * 1414) &&
      decide (0 ≤ (P - p) * 1000 + (Q - q) * 1415)) = true := by
  decide +kernel

/-- **C15**: the bound is attained: an orientation all of whose equivalents are that far from the reference orientation. -/
theorem c15_misorientation_sharp (q' : Q4) (iq k : ℤ) (h : quatfindsymm4 furthest ⟨1, 0, 0, 0⟩ iq = (q', k)) :
    inner4 (quatnorm4 q') (quatnorm4 furthest) = (2 + √2) / 4 := by
  have t1 : tiny ≤ 1 := by unfold tiny; norm_num
  have hm : quatmagn4 furthest = 1 := by rw [magn4_eq, furthest_unit, Real.sqrt_one]
  have hm' : quatmagn4 ⟨1, 0, 0, 0⟩ = 1 := by simp [quatmagn4]
  apply le_antisymm _ (c15_misorientation furthest ⟨1, 0, 0, 0⟩ q' iq k (by rw [hm]; exact t1) (by rw [hm']; exact t1) h)
  obtain ⟨⟨k1, k2⟩, hk, _⟩ := c15_search4 furthest _ q' iq k h
  rw [rotate4_pos k1 k2] at hk
  simp only [Option.some.injEq, Prod.mk.injEq, and_true] at hk
  have e1 : quatmult4 ⟨1, 0, 0, 0⟩ (qr4 k) = qr4 k := by ext <;> simp [quatmult4]
  have e2 : quatnorm4 furthest = furthest := by
    rw [norm4_of_ge (by rw [furthest_unit]), furthest_unit]; ext <;> simp [smul4]
  have e3 : quatnorm4 (qr4 k) = qr4 k := by
    rw [norm4_of_ge (by rw [qr4_unit k1 k2]), qr4_unit k1 k2]; ext <;> simp [smul4]
  rw [← hk, e1, e2, e3]
  obtain ⟨v, hv, e, _⟩ := qr4_eq k1 k2
  rw [e, table_inner hv]
  have hc := List.all_eq_true.1 furthest_check v hv
  simp only [Bool.and_eq_true, Bool.or_eq_true, beq_iff_eq, decide_eq_true_eq] at hc
  obtain ⟨⟨hn, c1⟩, c2⟩ := hc
  obtain ⟨rr, r1, r2⟩ := QuatCover.root_two
  have expand : (v.1 * furthest.q1 + v.2.1 * furthest.q2 + v.2.2.1 * furthest.q3 + v.2.2.2 * furthest.q4 : ℝ) =
      (((2 * v.1 + 2 * v.2.2.2 : ℤ) : ℝ) + ((v.1 + v.2.1 + v.2.2.1 - v.2.2.2 : ℤ) : ℝ) * √2) / 4 := by
    simp only [furthest]; push_cast; ring
  rw [expand]
  generalize 2 * v.1 + 2 * v.2.2.2 = p at *
  generalize v.1 + v.2.1 + v.2.2.1 - v.2.2.2 = q at *
  have lin : ∀ P Q : ℤ, 0 ≤ (P - p) * 1000 + (Q - q) * 1414 → 0 ≤ (P - p) * 1000 + (Q - q) * 1415 → (p : ℝ) + q * √2 ≤ P + Q * √2 := by
    intro P Q g1 g2
    have g1' : (0:ℝ) ≤ ((P:ℝ) - p) * 1000 + ((Q:ℝ) - q) * 1414 := by exact_mod_cast g1
    have g2' : (0:ℝ) ≤ ((P:ℝ) - p) * 1000 + ((Q:ℝ) - q) * 1415 := by exact_mod_cast g2
    rcases le_total (0:ℝ) ((Q:ℝ) - q) with hq | hq
    · nlinarith
    · nlinarith
  rcases hn with (hn | hn) | hn
  · rw [hn] at c1 c2 ⊢
    have := lin 2 1 (by simpa using c1) (by simpa using c2)
    rw [Int.cast_one, Real.sqrt_one, div_one]
    push_cast at this
    linarith
  · rw [hn] at c1 c2 ⊢
    have := lin 2 2 (by simpa using c1) (by simpa using c2)
    rw [Int.cast_ofNat, div_le_iff₀ (by positivity)]
    push_cast at this
    linarith
  · rw [hn] at c1 c2 ⊢
    have := lin 4 2 (by simpa using c1) (by simpa using c2)
    rw [Int.cast_ofNat, show (4:ℝ) = 2 ^ 2 by norm_num, Real.sqrt_sq (by norm_num), div_le_iff₀ (by norm_num)]
    push_cast at this
    linarith

end AMPE.Quat.Props
