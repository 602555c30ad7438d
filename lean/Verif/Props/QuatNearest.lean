import Verif.Props.Quat
import Mathlib.Analysis.SpecialFunctions.Trigonometric.Bounds

/-!
# C15, C16 (continued): the symmetry search returns a closest equivalent orientation; plane rotations
-/

namespace AMPE.Quat.Props

open AMPE.Quat

/-! ## C15: the early exit of the search is harmless -/

/-- Inner product of two quaternions. -/
def inner4 (a b : Q4) : ℝ := a.q1 * b.q1 + a.q2 * b.q2 + a.q3 * b.q3 + a.q4 * b.q4

theorem inner4_mult (w a b : Q4) : inner4 (quatmult4 w a) (quatmult4 w b) = quatmagsq4 w * inner4 a b := by
  simp only [inner4, quatmult4, quatmagsq4]; ring

/-- Integer inner product. -/
def iinner (a b : ℤ × ℤ × ℤ × ℤ) : ℤ := a.1 * b.1 + a.2.1 * b.2.1 + a.2.2.1 * b.2.2.1 + a.2.2.2 * b.2.2.2

theorem raw_separated : (rawqr4.all fun a => rawqr4.all fun b =>
    a == b || decide (iinner a b ≤ 0) || decide (2 * (iinner a b * iinner a b) ≤ inorm a * inorm b)) = true := by
  decide +kernel

/-- Two different rotations of the table are at least 45 degrees apart as quaternions (the rotations: 90 degrees). -/
theorem qr4_separated {i j : ℤ} (hi1 : 1 ≤ i) (hi2 : i ≤ 48) (hj1 : 1 ≤ j) (hj2 : j ≤ 48) :
    qr4 i = qr4 j ∨ inner4 (qr4 i) (qr4 j) ≤ Real.sqrt 2 / 2 := by
  obtain ⟨a, ha, ea, _⟩ := qr4_eq hi1 hi2
  obtain ⟨b, hb, eb, _⟩ := qr4_eq hj1 hj2
  have h := List.all_eq_true.mp (List.all_eq_true.mp raw_separated a ha) b hb
  simp only [Bool.or_eq_true, beq_iff_eq, decide_eq_true_eq] at h
  have na : (1 : ℝ) ≤ quatmagsq4 (ofInt a) := by rw [magsq_ofInt]; exact_mod_cast raw_norm a ha
  have nb : (1 : ℝ) ≤ quatmagsq4 (ofInt b) := by rw [magsq_ofInt]; exact_mod_cast raw_norm b hb
  rcases h with (h | h) | h
  · left; rw [ea, eb, h]
  all_goals right; rw [ea, eb, norm4_of_ge na, norm4_of_ge nb]
  all_goals
    have sa : 0 < Real.sqrt (quatmagsq4 (ofInt a)) := Real.sqrt_pos.mpr (by linarith)
    have sb : 0 < Real.sqrt (quatmagsq4 (ofInt b)) := Real.sqrt_pos.mpr (by linarith)
    have e : inner4 (smul4 (1 / Real.sqrt (quatmagsq4 (ofInt a))) (ofInt a))
        (smul4 (1 / Real.sqrt (quatmagsq4 (ofInt b))) (ofInt b)) =
        (iinner a b : ℝ) / (Real.sqrt (quatmagsq4 (ofInt a)) * Real.sqrt (quatmagsq4 (ofInt b))) := by
      simp only [inner4, smul4, ofInt, iinner]
      push_cast
      field_simp
    rw [e]
  · have h2 : (iinner a b : ℝ) ≤ 0 := by exact_mod_cast h
    exact (div_nonpos_of_nonpos_of_nonneg h2 (by positivity)).trans (by positivity)
  · have h2 : 2 * ((iinner a b : ℝ) * iinner a b) ≤ quatmagsq4 (ofInt a) * quatmagsq4 (ofInt b) := by
      rw [magsq_ofInt, magsq_ofInt]; exact_mod_cast h
    rw [div_le_iff₀ (by positivity)]
    have hsa := Real.mul_self_sqrt (magsq4_nonneg (ofInt a))
    have hsb := Real.mul_self_sqrt (magsq4_nonneg (ofInt b))
    have hs2 : Real.sqrt 2 * Real.sqrt 2 = 2 := Real.mul_self_sqrt (by norm_num)
    have s2 : 0 < Real.sqrt 2 := by positivity
    have e2 : (Real.sqrt 2 / 2 * (Real.sqrt (quatmagsq4 (ofInt a)) * Real.sqrt (quatmagsq4 (ofInt b)))) ^ 2 =
        quatmagsq4 (ofInt a) * quatmagsq4 (ofInt b) / 2 := by
      have : (Real.sqrt 2 / 2 * (Real.sqrt (quatmagsq4 (ofInt a)) * Real.sqrt (quatmagsq4 (ofInt b)))) ^ 2 =
          (Real.sqrt 2 * Real.sqrt 2) / 4 * ((Real.sqrt (quatmagsq4 (ofInt a)) * Real.sqrt (quatmagsq4 (ofInt a))) *
          (Real.sqrt (quatmagsq4 (ofInt b)) * Real.sqrt (quatmagsq4 (ofInt b)))) := by ring
      rw [this, hs2, hsa, hsb]; ring
    apply le_of_sq_le_sq _ (by positivity) |> fun h => h
    rw [e2]
    linarith

/-- Unit vectors: if `v` is within 22.5 degrees of `u` and `u'` is at least 45 degrees from `u`, then `u` is at least as
close to `v` as `u'`. -/
theorem closest_of_half {n : ℕ} (u u' v : Fin n → ℝ) (c : ℝ) (hu : ∑ i, u i * u i = 1) (hu' : ∑ i, u' i * u' i = 1)
    (hv : ∑ i, v i * v i = 1) (ha0 : 0 ≤ ∑ i, u i * v i) (ha : c ≤ 2 * (∑ i, u i * v i) ^ 2 - 1)
    (hb : ∑ i, u i * u' i ≤ c) : ∑ i, u' i * v i ≤ ∑ i, u i * v i := by
  set a := ∑ i, u i * v i with hA
  set b := ∑ i, u i * u' i with hB
  set d := ∑ i, u' i * v i with hD
  -- Cauchy-Schwarz for `v - a u` and `u' - b u`
  have cs := Finset.sum_mul_sq_le_sq_mul_sq Finset.univ (fun i => v i - a * u i) (fun i => u' i - b * u i)
  have e1 : ∑ i, (v i - a * u i) * (u' i - b * u i) = d - a * b := by
    have : ∀ i, (v i - a * u i) * (u' i - b * u i) =
        u' i * v i - b * (u i * v i) - a * (u i * u' i) + a * b * (u i * u i) := fun i => by ring
    simp only [this, Finset.sum_add_distrib, Finset.sum_sub_distrib, ← Finset.mul_sum, hu, ← hA, ← hB, ← hD]
    ring
  have e2 : ∑ i, (v i - a * u i) ^ 2 = 1 - a ^ 2 := by
    have : ∀ i, (v i - a * u i) ^ 2 = v i * v i - 2 * a * (u i * v i) + a ^ 2 * (u i * u i) := fun i => by ring
    simp only [this, Finset.sum_add_distrib, Finset.sum_sub_distrib, ← Finset.mul_sum, hu, hv, ← hA]
    ring
  have e3 : ∑ i, (u' i - b * u i) ^ 2 = 1 - b ^ 2 := by
    have : ∀ i, (u' i - b * u i) ^ 2 = u' i * u' i - 2 * b * (u i * u' i) + b ^ 2 * (u i * u i) := fun i => by ring
    simp only [this, Finset.sum_add_distrib, Finset.sum_sub_distrib, ← Finset.mul_sum, hu, hu', ← hB]
    ring
  rw [e1, e2, e3] at cs
  have p2 : 0 ≤ 1 - a ^ 2 := by rw [← e2]; exact Finset.sum_nonneg fun i _ => sq_nonneg _
  have p3 : 0 ≤ 1 - b ^ 2 := by rw [← e3]; exact Finset.sum_nonneg fun i _ => sq_nonneg _
  have hb1 : b ≤ 1 := by nlinarith
  have hbm : -1 ≤ b := by nlinarith
  -- `(1 - a²)(1 - b²) ≤ (a (1 - b))²`
  have key : (d - a * b) ^ 2 ≤ (a * (1 - b)) ^ 2 := by
    refine cs.trans ?_
    have : (a * (1 - b)) ^ 2 - (1 - a ^ 2) * (1 - b ^ 2) = (1 - b) * (2 * a ^ 2 - 1 - b) := by ring
    have := mul_nonneg (sub_nonneg.mpr hb1) (show 0 ≤ 2 * a ^ 2 - 1 - b by linarith)
    linarith
  have := abs_le_of_sq_le_sq key (mul_nonneg ha0 (sub_nonneg.mpr hb1))
  linarith [le_abs_self (d - a * b)]

theorem norm4_rotate (q : Q4) {i : ℤ} (h1 : 1 ≤ i) (h2 : i ≤ 48) :
    quatnorm4 (quatmult4 q (qr4 i)) = quatmult4 (quatnorm4 q) (qr4 i) := by
  have hm : quatmagn4 (quatmult4 q (qr4 i)) = quatmagn4 q := by
    rw [magn4_eq, magn4_eq, magsq4_mult, qr4_unit h1 h2, mul_one]
  have hi : quatmaginv4 (quatmult4 q (qr4 i)) = quatmaginv4 q := by simp only [quatmaginv4, hm]
  simp only [quatnorm4, hi]
  ext <;> simp only [quatmult4] <;> ring

/-- Length of a normalised orientation: one, or zero for a numerically zero orientation. -/
theorem norm4_unit_or_zero (q : Q4) : quatmagsq4 (quatnorm4 q) = 1 ∨ quatnorm4 q = ⟨0, 0, 0, 0⟩ := by
  by_cases h : quatmagn4 q < tiny
  · right; simp [quatnorm4, quatmaginv4, h]
  · left; exact norm4_magsq q (not_lt.mp h)

theorem diffsq4_inner (p q : Q4) : quatdiffsq4 p q =
    quatmagsq4 (quatnorm4 q) + quatmagsq4 (quatnorm4 p) - 2 * inner4 (quatnorm4 q) (quatnorm4 p) := by
  simp only [quatdiffsq4, quatsub4, inner4, quatmagsq4]; ring

theorem thr4_val : thr4 = 2 - 2 * Real.cos (Real.pi / 8) := by
  have := Real.cos_sq' (Real.pi / 16)
  have h2 := Real.cos_two_mul (Real.pi / 16)
  rw [show 2 * (Real.pi / 16) = Real.pi / 8 by ring] at h2
  unfold thr4
  nlinarith

/-- The four components as a function. -/
def vec4 (q : Q4) : Fin 4 → ℝ := ![q.q1, q.q2, q.q3, q.q4]

theorem vec4_inner (a b : Q4) : ∑ i, vec4 a i * vec4 b i = inner4 a b := by
  simp [vec4, Fin.sum_univ_four, inner4]

/-- **C15** (quaternions): whatever the start index, no listed rotation of the second orientation is closer to the first
one than the orientation returned, although the search stops at the first candidate below the threshold. No assumption:
numerically zero orientations are included. -/
theorem c15_nearest4 (q1 q2 q' : Q4) (iq k : ℤ) (h : quatfindsymm4 q1 q2 iq = (q', k)) (n m : ℤ) (p : Q4)
    (hp : quatsymmrotate4 q2 n = some (p, m)) : quatdiffsq4 q1 q' ≤ quatdiffsq4 q1 p := by
  obtain ⟨⟨k1, k2⟩, hk, _, _, hor⟩ := c15_search4 q1 q2 q' iq k h
  obtain ⟨m1, m2, hpm⟩ : 1 ≤ m ∧ m ≤ 48 ∧ quatsymmrotate4 q2 m = some (p, m) := by
    have hv : ¬ (n = 0 ∨ 48 < |n|) := by rw [← c14_aborts_iff q2 n, hp]; simp
    rcases valid_cases hv with ⟨h1, h2⟩ | ⟨h1, h2⟩
    · have h3 := rotate4_pos (q := q2) h1 h2
      rw [hp] at h3
      simp only [Option.some.injEq, Prod.mk.injEq] at h3
      obtain ⟨rfl, rfl⟩ := h3
      exact ⟨h1, h2, hp⟩
    · have h3 := rotate4_neg (q := q2) h1 h2
      rw [neg_neg, hp] at h3
      simp only [Option.some.injEq, Prod.mk.injEq] at h3
      obtain ⟨r1, r2⟩ := (conj4_spec h1 h2).1
      rw [← h3.2] at r1 r2
      refine ⟨r1, r2, ?_⟩
      rw [rotate4_pos r1 r2, h3.1, ← h3.2]
  rcases hor with hthr | hall
  swap
  · exact hall m p hpm
  rw [rotate4_pos k1 k2] at hk
  rw [rotate4_pos m1 m2] at hpm
  simp only [Option.some.injEq, Prod.mk.injEq, and_true] at hk hpm
  subst hk hpm
  rw [diffsq4_inner] at hthr
  rw [diffsq4_inner, diffsq4_inner]
  rw [norm4_rotate q2 k1 k2] at hthr ⊢
  rw [norm4_rotate q2 m1 m2]
  rw [magsq4_mult, qr4_unit k1 k2, mul_one] at hthr ⊢
  rw [magsq4_mult, qr4_unit m1 m2, mul_one]
  suffices hs : inner4 (quatmult4 (quatnorm4 q2) (qr4 m)) (quatnorm4 q1) ≤
      inner4 (quatmult4 (quatnorm4 q2) (qr4 k)) (quatnorm4 q1) by linarith
  rcases norm4_unit_or_zero q2 with hw | hw
  swap
  · rw [hw]; simp [inner4, quatmult4]
  rcases norm4_unit_or_zero q1 with hv | hv
  swap
  · rw [hv]; simp [inner4]
  rcases qr4_separated k1 k2 m1 m2 with he | hsep
  · rw [he]
  rw [hw, hv, thr4_val] at hthr
  have hc0 : 0 ≤ Real.cos (Real.pi / 8) :=
    Real.cos_nonneg_of_mem_Icc ⟨by linarith [Real.pi_pos], by linarith [Real.pi_pos]⟩
  have hc : Real.cos (Real.pi / 8) ≤ inner4 (quatmult4 (quatnorm4 q2) (qr4 k)) (quatnorm4 q1) := by linarith
  have h45 : Real.sqrt 2 / 2 = 2 * Real.cos (Real.pi / 8) ^ 2 - 1 := by
    rw [← Real.cos_two_mul, ← Real.cos_pi_div_four]; congr 1; ring
  have unit : ∀ i, 1 ≤ i → i ≤ 48 → inner4 (quatmult4 (quatnorm4 q2) (qr4 i)) (quatmult4 (quatnorm4 q2) (qr4 i)) = 1 := by
    intro i h1 h2
    rw [inner4_mult, hw, one_mul]
    exact qr4_unit h1 h2
  rw [← vec4_inner, ← vec4_inner]
  apply closest_of_half (c := Real.sqrt 2 / 2)
  · rw [vec4_inner]; exact unit k k1 k2
  · rw [vec4_inner]; exact unit m m1 m2
  · rw [vec4_inner]; exact hv
  · rw [vec4_inner]; linarith
  · rw [vec4_inner, h45]
    nlinarith
  · rw [vec4_inner, inner4_mult, hw, one_mul]; exact hsep

/-- **C15** (quaternions), in crystal terms: the returned orientation is a closest one among all orientations equivalent
to the second one under the symmetries of the cube, none of which need be looked up in the table. -/
theorem c15_nearest_equivalent (q1 q2 q' : Q4) (iq k : ℤ) (h : quatfindsymm4 q1 q2 iq = (q', k)) (g : Q4)
    (hu : lenSq g = 1) (hg : MapsCubeToItself g) : quatdiffsq4 q1 q' ≤ quatdiffsq4 q1 (quatmult4 q2 g) := by
  obtain ⟨m, m1, m2, e⟩ := c14_table_complete g hu hg
  subst e
  exact c15_nearest4 q1 q2 q' iq k h m m _ (rotate4_pos m1 m2)

/-- **C15**: the distance does not depend on which equivalent copies are compared: replacing the second orientation by
any listed rotation of it gives the same distance after the search. -/
theorem c15_distance_invariant (q1 q2 q' p p' : Q4) (iq k iq' k' n m : ℤ) (h : quatfindsymm4 q1 q2 iq = (q', k))
    (hp : quatsymmrotate4 q2 n = some (p, m)) (h' : quatfindsymm4 q1 p iq' = (p', k')) :
    quatdiffsq4 q1 q' = quatdiffsq4 q1 p' := by
  have hm : 1 ≤ m ∧ m ≤ 48 ∧ p = quatmult4 q2 (qr4 m) := by
    have hv : ¬ (n = 0 ∨ 48 < |n|) := by rw [← c14_aborts_iff q2 n, hp]; simp
    rcases valid_cases hv with ⟨h1, h2⟩ | ⟨h1, h2⟩
    · have h3 := rotate4_pos (q := q2) h1 h2
      rw [hp] at h3
      simp only [Option.some.injEq, Prod.mk.injEq] at h3
      obtain ⟨rfl, rfl⟩ := h3
      exact ⟨h1, h2, rfl⟩
    · have h3 := rotate4_neg (q := q2) h1 h2
      rw [neg_neg, hp] at h3
      simp only [Option.some.injEq, Prod.mk.injEq] at h3
      obtain ⟨r1, r2⟩ := (conj4_spec h1 h2).1
      rw [← h3.2] at r1 r2
      exact ⟨r1, r2, by rw [h3.1, ← h3.2]⟩
  obtain ⟨m1, m2, rfl⟩ := hm
  obtain ⟨⟨k1, k2⟩, hk, _⟩ := c15_search4 q1 q2 q' iq k h
  obtain ⟨⟨k1', k2'⟩, hk', _⟩ := c15_search4 q1 _ p' iq' k' h'
  rw [rotate4_pos k1 k2] at hk
  rw [rotate4_pos k1' k2'] at hk'
  simp only [Option.some.injEq, Prod.mk.injEq, and_true] at hk hk'
  apply le_antisymm
  · obtain ⟨j, j1, j2, e⟩ := qr4_closed m1 m2 k1' k2'
    rw [← hk', mult4_assoc, e]
    exact c15_nearest4 q1 q2 q' iq k h j j _ (rotate4_pos j1 j2)
  · obtain ⟨⟨c1, c2⟩, ec, _⟩ := conj4_spec m1 m2
    obtain ⟨j, j1, j2, e⟩ := qr4_closed c1 c2 k1 k2
    have : q' = quatmult4 (quatmult4 q2 (qr4 m)) (qr4 j) := by
      rw [← e, mult4_assoc, ← mult4_assoc (qr4 m), ec, ← hk]
      congr 1
      ext <;> simp [quatmult4]
    rw [this]
    exact c15_nearest4 q1 _ p' iq' k' h' j j _ (rotate4_pos j1 j2)

/-! ### Two components and angles -/

/-- Inner product of two complex numbers. -/
def inner2 (a b : Q2) : ℝ := a.q1 * b.q1 + a.q2 * b.q2

theorem norm2_unit_or_zero (q : Q2) : quatmagsq2 (quatnorm2 q) = 1 ∨ quatnorm2 q = ⟨0, 0⟩ := by
  by_cases h : quatmagn2 q < tiny
  · right; simp [quatnorm2, quatmaginv2, h]
  · left; exact norm2_magsq q (not_lt.mp h)

theorem diffsq2_inner (p q : Q2) : quatdiffsq2 p q =
    quatmagsq2 (quatnorm2 q) + quatmagsq2 (quatnorm2 p) - 2 * inner2 (quatnorm2 q) (quatnorm2 p) := by
  simp only [quatdiffsq2, quatsub2, inner2, quatmagsq2]; ring

theorem qr2_cases {i : ℤ} (h1 : 1 ≤ i) (h2 : i ≤ 4) :
    qr2 i = ⟨1, 0⟩ ∨ qr2 i = ⟨0, 1⟩ ∨ qr2 i = ⟨-1, 0⟩ ∨ qr2 i = ⟨0, -1⟩ := by
  have ht : ¬ ((1 : ℝ) < tiny) := by unfold tiny; norm_num
  have : i = 1 ∨ i = 2 ∨ i = 3 ∨ i = 4 := by omega
  rcases this with rfl | rfl | rfl | rfl
  · left; simp [qr2, rawqr2, quatnorm2, quatmaginv2, quatmagn2, ht]
  · right; left; simp [qr2, rawqr2, quatnorm2, quatmaginv2, quatmagn2, ht]
  · right; right; left; simp [qr2, rawqr2, quatnorm2, quatmaginv2, quatmagn2, ht]
  · right; right; right; simp [qr2, rawqr2, quatnorm2, quatmaginv2, quatmagn2, ht]

theorem qr2_unit {i : ℤ} (h1 : 1 ≤ i) (h2 : i ≤ 4) : quatmagsq2 (qr2 i) = 1 := by
  rcases qr2_cases h1 h2 with e | e | e | e <;> rw [e] <;> norm_num [quatmagsq2]

theorem norm2_rotate (q : Q2) {i : ℤ} (h1 : 1 ≤ i) (h2 : i ≤ 4) :
    quatnorm2 (quatmult2 q (qr2 i)) = quatmult2 (quatnorm2 q) (qr2 i) := by
  have hm : quatmagn2 (quatmult2 q (qr2 i)) = quatmagn2 q := by
    rw [magn2_eq, magn2_eq, magsq2_mult, qr2_unit h1 h2, mul_one]
  have hi : quatmaginv2 (quatmult2 q (qr2 i)) = quatmaginv2 q := by simp only [quatmaginv2, hm]
  simp only [quatnorm2, hi]
  ext <;> simp only [quatmult2] <;> ring

theorem thr2_val : thr2 = 2 - 2 * Real.cos (Real.pi / 4) := by
  have := Real.cos_sq' (Real.pi / 8)
  have h2 := Real.cos_two_mul (Real.pi / 8)
  rw [show 2 * (Real.pi / 8) = Real.pi / 4 by ring] at h2
  unfold thr2
  nlinarith

/-- The two components as a function. -/
def vec2 (q : Q2) : Fin 2 → ℝ := ![q.q1, q.q2]

theorem vec2_inner (a b : Q2) : ∑ i, vec2 a i * vec2 b i = inner2 a b := by
  simp [vec2, Fin.sum_univ_two, inner2]

/-- **C15** (two components): no quarter turn of the second orientation is closer to the first one than the orientation
returned. -/
theorem c15_nearest2 (q1 q2 q' : Q2) (iq k : ℤ) (h : quatfindsymm2 q1 q2 iq = (q', k)) (n : ℤ) (h1 : 1 ≤ n) (h2 : n ≤ 4)
    (p : Q2) (hp : quatsymmrotate2 q2 n = some (p, n)) : quatdiffsq2 q1 q' ≤ quatdiffsq2 q1 p := by
  obtain ⟨⟨k1, k2⟩, hk, _, hor⟩ := c15_search2 q1 q2 q' iq k h
  rcases hor with hthr | hall
  swap
  · exact hall n p h1 hp
  rw [rotate2_pos k1 k2] at hk
  rw [rotate2_pos h1 h2] at hp
  simp only [Option.some.injEq, Prod.mk.injEq, and_true] at hk hp
  subst hk hp
  rw [diffsq2_inner] at hthr
  rw [diffsq2_inner, diffsq2_inner]
  rw [norm2_rotate q2 k1 k2] at hthr ⊢
  rw [norm2_rotate q2 h1 h2]
  rw [magsq2_mult, qr2_unit k1 k2, mul_one] at hthr ⊢
  rw [magsq2_mult, qr2_unit h1 h2, mul_one]
  suffices hs : inner2 (quatmult2 (quatnorm2 q2) (qr2 n)) (quatnorm2 q1) ≤
      inner2 (quatmult2 (quatnorm2 q2) (qr2 k)) (quatnorm2 q1) by linarith
  rcases norm2_unit_or_zero q2 with hw | hw
  swap
  · rw [hw]; simp [inner2, quatmult2]
  rcases norm2_unit_or_zero q1 with hv | hv
  swap
  · rw [hv]; simp [inner2]
  rw [hw, hv, thr2_val] at hthr
  have him : ∀ a b, inner2 (quatmult2 (quatnorm2 q2) a) (quatmult2 (quatnorm2 q2) b) = inner2 a b := by
    intro a b
    have : inner2 (quatmult2 (quatnorm2 q2) a) (quatmult2 (quatnorm2 q2) b) = quatmagsq2 (quatnorm2 q2) * inner2 a b := by
      simp only [inner2, quatmult2, quatmagsq2]; ring
    rw [this, hw, one_mul]
  have hsep : qr2 k = qr2 n ∨ inner2 (qr2 k) (qr2 n) ≤ 0 := by
    rcases qr2_cases k1 k2 with e | e | e | e <;> rcases qr2_cases h1 h2 with e' | e' | e' | e' <;> rw [e, e'] <;>
      first | (left; rfl) | (right; norm_num [inner2])
  rcases hsep with he | hsep
  · rw [he]
  have hc : Real.sqrt 2 / 2 ≤ inner2 (quatmult2 (quatnorm2 q2) (qr2 k)) (quatnorm2 q1) := by
    rw [Real.cos_pi_div_four] at hthr; linarith
  have s2 : Real.sqrt 2 * Real.sqrt 2 = 2 := Real.mul_self_sqrt (by norm_num)
  have s0 : 0 < Real.sqrt 2 := by positivity
  rw [← vec2_inner, ← vec2_inner]
  apply closest_of_half (c := 0)
  · rw [vec2_inner, him]; exact qr2_unit k1 k2
  · rw [vec2_inner, him]; exact qr2_unit h1 h2
  · rw [vec2_inner]; exact hv
  · rw [vec2_inner]; linarith
  · rw [vec2_inner]; nlinarith
  · rw [vec2_inner, him]; exact hsep

/-- **C15** (angle): no shift of the second angle by up to four quarter turns is closer to the first one than the angle
returned. -/
theorem c15_nearest1 (q1 q2 q' : ℝ) (iq k : ℤ) (h : quatfindsymm1 q1 q2 iq = (q', k)) (n : ℤ) (h1 : -4 ≤ n) (h2 : n ≤ 4) :
    |q' - q1| ≤ |q2 + n * (Real.pi / 2) - q1| := by
  obtain ⟨⟨k1, k2⟩, hk, _, hor⟩ := c15_search1 q1 q2 q' iq k h
  rcases hor with hthr | hall
  swap
  · exact hall n h1 h2
  obtain ⟨m, hm⟩ : ∃ m : ℤ, q' = q2 + m * (Real.pi / 2) := by
    simp only [quatsymmrotate1, checkIndex] at hk
    rw [if_neg (by omega), if_neg (by omega)] at hk
    simp only [Option.map_some, Option.some.injEq, Prod.mk.injEq, and_true] at hk
    exact ⟨_, by rw [← hk, qr1]⟩
  by_cases e : n = m
  · rw [e, ← hm]
  · have hd : 1 ≤ |((n - m : ℤ) : ℝ)| := by
      rw [← Int.cast_abs]; exact_mod_cast Int.one_le_abs (sub_ne_zero.mpr e)
    have hpi := Real.pi_pos
    have e1 : q2 + n * (Real.pi / 2) - q1 = (q' - q1) + ((n - m : ℤ) : ℝ) * (Real.pi / 2) := by
      rw [hm]; push_cast; ring
    rw [e1]
    have h3 : |((n - m : ℤ) : ℝ) * (Real.pi / 2)| ≤ |(q' - q1) + ((n - m : ℤ) : ℝ) * (Real.pi / 2)| + |q' - q1| := by
      have := abs_sub ((q' - q1) + ((n - m : ℤ) : ℝ) * (Real.pi / 2)) (q' - q1)
      rwa [add_sub_cancel_left] at this
    have h4 : Real.pi / 2 ≤ |((n - m : ℤ) : ℝ) * (Real.pi / 2)| := by
      rw [abs_mul, abs_of_pos (by positivity : (0 : ℝ) < Real.pi / 2)]
      nlinarith
    linarith

/-! ## C16: plane rotations -/

/-- **C16** (two components): the matrix of a unit complex number is the rotation of the plane by its argument, seen as
a rotation about the third axis. -/
theorem c16_plane_rotation (q : Q2) (h : q.q1 ^ 2 + q.q2 ^ 2 = 1) :
    Matrix.of (complexrotationmatrix q) * (Matrix.of (complexrotationmatrix q)).transpose = 1 ∧
    (Matrix.of (complexrotationmatrix q)).det = 1 ∧
    ∀ x y z : ℝ, (Matrix.of (complexrotationmatrix q)).mulVec ![x, y, z] =
      ![((⟨q.q1, q.q2⟩ : ℂ) * ⟨x, y⟩).re, ((⟨q.q1, q.q2⟩ : ℂ) * ⟨x, y⟩).im, z] := by
  refine ⟨?_, ?_, ?_⟩
  · ext i j
    fin_cases i <;> fin_cases j <;>
      simp [complexrotationmatrix, Matrix.mul_apply, Fin.sum_univ_three] <;> linarith
  · simp [complexrotationmatrix, Matrix.det_fin_three]
    linarith
  · intro x y z
    ext i
    fin_cases i <;> simp [complexrotationmatrix, Matrix.mulVec, dotProduct, Fin.sum_univ_three] <;> ring

/-- **C16**: a complex number and the quaternion of half its angle give the same matrix. -/
theorem c16_plane_matches_quaternion (a b : ℝ) (h : a ^ 2 + b ^ 2 = 1) :
    complexrotationmatrix ⟨a ^ 2 - b ^ 2, 2 * a * b⟩ = quatrotationmatrix ⟨a, 0, 0, b⟩ := by
  funext i j
  fin_cases i <;> fin_cases j <;> simp [complexrotationmatrix, quatrotationmatrix] <;> linarith

/-- Non-vacuity: a quarter turn. -/
example : Matrix.of (complexrotationmatrix ⟨0, 1⟩) * (Matrix.of (complexrotationmatrix ⟨0, 1⟩)).transpose = 1 :=
  (c16_plane_rotation ⟨0, 1⟩ (by norm_num)).1

end AMPE.Quat.Props
