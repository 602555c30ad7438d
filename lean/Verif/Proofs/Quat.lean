import Verif.Model.Quat
import Mathlib.Tactic.Linarith
import Mathlib.Tactic.Ring
import Mathlib.Tactic.FieldSimp
import Mathlib.Tactic.NormNum
import Mathlib.Tactic.Positivity
import Mathlib.Tactic.LinearCombination

/-! Helper lemmas for the orientation arithmetic. -/

namespace AMPE.Quat

theorem mult4_assoc (a b c : Q4) : quatmult4 (quatmult4 a b) c = quatmult4 a (quatmult4 b c) := by
  ext <;> simp only [quatmult4] <;> ring

theorem mult2_assoc (a b c : Q2) : quatmult2 (quatmult2 a b) c = quatmult2 a (quatmult2 b c) := by
  ext <;> simp only [quatmult2] <;> ring

theorem magsq4_mult (a b : Q4) : quatmagsq4 (quatmult4 a b) = quatmagsq4 a * quatmagsq4 b := by
  simp only [quatmagsq4, quatmult4]; ring

theorem magsq2_mult (a b : Q2) : quatmagsq2 (quatmult2 a b) = quatmagsq2 a * quatmagsq2 b := by
  simp only [quatmagsq2, quatmult2]; ring

theorem magsq4_nonneg (q : Q4) : 0 ≤ quatmagsq4 q := by unfold quatmagsq4; nlinarith [mul_self_nonneg q.q1, mul_self_nonneg q.q2, mul_self_nonneg q.q3, mul_self_nonneg q.q4]

theorem magn4_eq (q : Q4) : quatmagn4 q = Real.sqrt (quatmagsq4 q) := rfl
theorem magn2_eq (q : Q2) : quatmagn2 q = Real.sqrt (quatmagsq2 q) := rfl

theorem tiny_pos : 0 < tiny := by unfold tiny; positivity

/-- Scalar multiple. -/
def smul4 (s : ℝ) (q : Q4) : Q4 := ⟨s * q.q1, s * q.q2, s * q.q3, s * q.q4⟩

theorem norm4_magsq (q : Q4) (h : tiny ≤ quatmagn4 q) : quatmagsq4 (quatnorm4 q) = 1 := by
  have hp : 0 < quatmagn4 q := lt_of_lt_of_le tiny_pos h
  have hs : quatmagn4 q * quatmagn4 q = quatmagsq4 q := Real.mul_self_sqrt (magsq4_nonneg q)
  have e : quatmagsq4 (quatnorm4 q) = quatmagsq4 q * (1 / quatmagn4 q) ^ 2 := by
    simp only [quatmagsq4, quatnorm4, quatmaginv4, if_neg (not_lt.mpr h)]; ring
  rw [e, ← hs]; field_simp

theorem magsq2_nonneg (q : Q2) : 0 ≤ quatmagsq2 q := by
  unfold quatmagsq2; nlinarith [mul_self_nonneg q.q1, mul_self_nonneg q.q2]

theorem norm2_magsq (q : Q2) (h : tiny ≤ quatmagn2 q) : quatmagsq2 (quatnorm2 q) = 1 := by
  have hp : 0 < quatmagn2 q := lt_of_lt_of_le tiny_pos h
  have hs : quatmagn2 q * quatmagn2 q = quatmagsq2 q := Real.mul_self_sqrt (magsq2_nonneg q)
  have e : quatmagsq2 (quatnorm2 q) = quatmagsq2 q * (1 / quatmagn2 q) ^ 2 := by
    simp only [quatmagsq2, quatnorm2, quatmaginv2, if_neg (not_lt.mpr h)]; ring
  rw [e, ← hs]; field_simp

/-- Integer quaternion product, used to compute in the tables. -/
def imul (a b : ℤ × ℤ × ℤ × ℤ) : ℤ × ℤ × ℤ × ℤ :=
  (a.1 * b.1 - a.2.1 * b.2.1 - a.2.2.1 * b.2.2.1 - a.2.2.2 * b.2.2.2,
   a.1 * b.2.1 + a.2.1 * b.1 + a.2.2.1 * b.2.2.2 - a.2.2.2 * b.2.2.1,
   a.1 * b.2.2.1 + a.2.2.1 * b.1 + a.2.2.2 * b.2.1 - a.2.1 * b.2.2.2,
   a.1 * b.2.2.2 + a.2.2.2 * b.1 + a.2.1 * b.2.2.1 - a.2.2.1 * b.2.1)

/-- Squared norm of an integer quadruple. -/
def inorm (a : ℤ × ℤ × ℤ × ℤ) : ℤ :=
  a.1 * a.1 + a.2.1 * a.2.1 + a.2.2.1 * a.2.2.1 + a.2.2.2 * a.2.2.2

/-- Scaled integer quadruple. -/
def iscale (s : ℤ) (a : ℤ × ℤ × ℤ × ℤ) : ℤ × ℤ × ℤ × ℤ := (s * a.1, s * a.2.1, s * a.2.2.1, s * a.2.2.2)

/-- The real quaternion of an integer quadruple. -/
def ofInt (v : ℤ × ℤ × ℤ × ℤ) : Q4 := ⟨v.1, v.2.1, v.2.2.1, v.2.2.2⟩

theorem ofInt_mul (a b : ℤ × ℤ × ℤ × ℤ) : quatmult4 (ofInt a) (ofInt b) = ofInt (imul a b) := by
  ext <;> simp [quatmult4, ofInt, imul]

theorem magsq_ofInt (a : ℤ × ℤ × ℤ × ℤ) : quatmagsq4 (ofInt a) = (inorm a : ℝ) := by
  simp [quatmagsq4, ofInt, inorm]

theorem raw_length : rawqr4.length = 48 := by decide

theorem raw_norm : ∀ v ∈ rawqr4, 1 ≤ inorm v := by decide

/-- Entries at most one in absolute value and squared norm 1, 2 or 4. -/
def isTab (a : ℤ × ℤ × ℤ × ℤ) : Bool :=
  (a.1.natAbs ≤ 1 && a.2.1.natAbs ≤ 1 && a.2.2.1.natAbs ≤ 1 && a.2.2.2.natAbs ≤ 1) &&
  (inorm a == 1 || inorm a == 2 || inorm a == 4)

/-- The table consists exactly of these quadruples. -/
theorem mem_raw_of_isTab (a : ℤ × ℤ × ℤ × ℤ) (h : isTab a = true) : a ∈ rawqr4 := by
  obtain ⟨w, x, y, z⟩ := a
  have key : ∀ w ∈ [(-1 : ℤ), 0, 1], ∀ x ∈ [(-1 : ℤ), 0, 1], ∀ y ∈ [(-1 : ℤ), 0, 1],
      ∀ z ∈ [(-1 : ℤ), 0, 1], isTab (w, x, y, z) = true → (w, x, y, z) ∈ rawqr4 := by decide +kernel
  have h' := h
  simp only [isTab, Bool.and_eq_true, decide_eq_true_eq] at h'
  have hm : ∀ t : ℤ, t.natAbs ≤ 1 → t ∈ [(-1 : ℤ), 0, 1] := by
    intro t ht
    have : t = -1 ∨ t = 0 ∨ t = 1 := by omega
    simpa using this
  exact key w (hm _ h'.1.1.1.1) x (hm _ h'.1.1.1.2) y (hm _ h'.1.1.2) z (hm _ h'.1.2) h

/-- Exact division of all entries. -/
def idiv (a : ℤ × ℤ × ℤ × ℤ) (s : ℤ) : ℤ × ℤ × ℤ × ℤ := (a.1 / s, a.2.1 / s, a.2.2.1 / s, a.2.2.2 / s)

/-- Check used in `raw_closed`. -/
def closedCheck (p : ℤ × ℤ × ℤ × ℤ) : Bool :=
  [(1 : ℤ), 2, 4].any fun s => isTab (idiv p s) && (iscale s (idiv p s) == p)

theorem raw_closed_check : (rawqr4.all fun a => rawqr4.all fun b => closedCheck (imul a b)) = true := by
  decide +kernel

/-- Every product of two table quadruples is a positive multiple of a table quadruple. -/
theorem raw_closed (a : ℤ × ℤ × ℤ × ℤ) (ha : a ∈ rawqr4) (b : ℤ × ℤ × ℤ × ℤ) (hb : b ∈ rawqr4) :
    ∃ c ∈ rawqr4, ∃ s ∈ [(1 : ℤ), 2, 4], imul a b = iscale s c := by
  have h := List.all_eq_true.mp (List.all_eq_true.mp raw_closed_check a ha) b hb
  obtain ⟨s, hs, h⟩ := List.any_eq_true.mp h
  rw [Bool.and_eq_true, beq_iff_eq] at h
  exact ⟨_, mem_raw_of_isTab _ h.1, s, hs, h.2.symm⟩

theorem norm4_of_ge {q : Q4} (h : 1 ≤ quatmagsq4 q) :
    quatnorm4 q = smul4 (1 / Real.sqrt (quatmagsq4 q)) q := by
  have h1 : 1 ≤ quatmagn4 q := by rw [magn4_eq]; exact Real.one_le_sqrt.mpr h
  have ht : ¬ quatmagn4 q < tiny := by
    have : tiny ≤ 1 := by unfold tiny; norm_num
    linarith
  ext <;> simp only [quatnorm4, quatmaginv4, ht, if_false, smul4] <;> rw [magn4_eq] <;> ring

/-- Table entry for a valid index. -/
theorem qr4_eq {i : ℤ} (h1 : 1 ≤ i) (h2 : i ≤ 48) :
    ∃ v ∈ rawqr4, qr4 i = quatnorm4 (ofInt v) ∧ rawqr4[(i - 1).toNat]? = some v := by
  have hl : (i - 1).toNat < rawqr4.length := by rw [raw_length]; omega
  refine ⟨rawqr4[(i - 1).toNat], List.getElem_mem _, ?_, List.getElem?_eq_getElem hl⟩
  simp only [qr4, List.getD_eq_getElem?_getD, List.getElem?_eq_getElem hl, Option.getD_some]
  rfl

theorem index_of_mem {v : ℤ × ℤ × ℤ × ℤ} (h : v ∈ rawqr4) :
    ∃ k : ℤ, 1 ≤ k ∧ k ≤ 48 ∧ qr4 k = quatnorm4 (ofInt v) := by
  obtain ⟨n, hn, e⟩ := List.getElem_of_mem h
  rw [raw_length] at hn
  refine ⟨(n : ℤ) + 1, by omega, by omega, ?_⟩
  have : ((n : ℤ) + 1 - 1).toNat = n := by omega
  simp only [qr4, this, List.getD_eq_getElem?_getD, List.getElem?_eq_getElem (show n < rawqr4.length by rw [raw_length]; exact hn), Option.getD_some, e]
  rfl

theorem qr4_unit {i : ℤ} (h1 : 1 ≤ i) (h2 : i ≤ 48) : quatmagsq4 (qr4 i) = 1 := by
  obtain ⟨v, hv, e, _⟩ := qr4_eq h1 h2
  rw [e]
  apply norm4_magsq
  have : (1 : ℝ) ≤ quatmagsq4 (ofInt v) := by rw [magsq_ofInt]; exact_mod_cast raw_norm v hv
  have h1 : 1 ≤ quatmagn4 (ofInt v) := by rw [magn4_eq]; exact Real.one_le_sqrt.mpr this
  have : tiny ≤ 1 := by unfold tiny; norm_num
  linarith

theorem imul_inorm (a b : ℤ × ℤ × ℤ × ℤ) : inorm (imul a b) = inorm a * inorm b := by
  simp only [inorm, imul]; ring

/-- Product of two table rotations is a table rotation. -/
theorem qr4_closed {i j : ℤ} (hi1 : 1 ≤ i) (hi2 : i ≤ 48) (hj1 : 1 ≤ j) (hj2 : j ≤ 48) :
    ∃ k : ℤ, 1 ≤ k ∧ k ≤ 48 ∧ quatmult4 (qr4 i) (qr4 j) = qr4 k := by
  obtain ⟨a, ha, ea, _⟩ := qr4_eq hi1 hi2
  obtain ⟨b, hb, eb, _⟩ := qr4_eq hj1 hj2
  obtain ⟨c, hc, s, hs, e⟩ := raw_closed a ha b hb
  obtain ⟨k, k1, k2, ek⟩ := index_of_mem hc
  refine ⟨k, k1, k2, ?_⟩
  have na : (1 : ℝ) ≤ quatmagsq4 (ofInt a) := by rw [magsq_ofInt]; exact_mod_cast raw_norm a ha
  have nb : (1 : ℝ) ≤ quatmagsq4 (ofInt b) := by rw [magsq_ofInt]; exact_mod_cast raw_norm b hb
  have nc : (1 : ℝ) ≤ quatmagsq4 (ofInt c) := by rw [magsq_ofInt]; exact_mod_cast raw_norm c hc
  rw [ea, eb, ek, norm4_of_ge na, norm4_of_ge nb, norm4_of_ge nc]
  have hspos : (0 : ℝ) < (s : ℝ) := by
    have : 0 < s := by
      simp only [List.mem_cons, List.not_mem_nil, or_false] at hs
      rcases hs with rfl | rfl | rfl <;> norm_num
    exact_mod_cast this
  have hn : quatmagsq4 (ofInt a) * quatmagsq4 (ofInt b) = (s : ℝ) ^ 2 * quatmagsq4 (ofInt c) := by
    rw [← magsq4_mult, ofInt_mul, e]
    simp [quatmagsq4, ofInt, iscale]; ring
  have hsq : Real.sqrt (quatmagsq4 (ofInt a)) * Real.sqrt (quatmagsq4 (ofInt b)) =
      s * Real.sqrt (quatmagsq4 (ofInt c)) := by
    rw [← Real.sqrt_mul (by linarith), hn, Real.sqrt_mul (by positivity), Real.sqrt_sq hspos.le]
  have pa : 0 < Real.sqrt (quatmagsq4 (ofInt a)) := Real.sqrt_pos.mpr (by linarith)
  have pb : 0 < Real.sqrt (quatmagsq4 (ofInt b)) := Real.sqrt_pos.mpr (by linarith)
  have pc : 0 < Real.sqrt (quatmagsq4 (ofInt c)) := Real.sqrt_pos.mpr (by linarith)
  have hf : 1 / Real.sqrt (quatmagsq4 (ofInt a)) * (1 / Real.sqrt (quatmagsq4 (ofInt b))) * s =
      1 / Real.sqrt (quatmagsq4 (ofInt c)) := by
    rw [div_mul_div_comm, hsq]; field_simp
  have hm : quatmult4 (ofInt a) (ofInt b) = smul4 s (ofInt c) := by
    rw [ofInt_mul, e]; ext <;> simp [smul4, ofInt, iscale]
  have hbil : ∀ (x y : ℝ) (p q : Q4), quatmult4 (smul4 x p) (smul4 y q) = smul4 (x * y) (quatmult4 p q) := by
    intro x y p q; ext <;> simp [quatmult4, smul4] <;> ring
  rw [hbil, hm]
  ext <;> simp only [smul4] <;> rw [← mul_assoc, hf]

theorem qr4_one : qr4 1 = ⟨1, 0, 0, 0⟩ := by
  obtain ⟨v, hv, e, hl⟩ := qr4_eq (i := 1) (by norm_num) (by norm_num)
  have hv' : v = (1, 0, 0, 0) := by
    have : rawqr4[((1 : ℤ) - 1).toNat]? = some (1, 0, 0, 0) := by decide
    rw [this] at hl; exact (Option.some.inj hl).symm
  subst hv'
  rw [e, norm4_of_ge (by simp [quatmagsq4, ofInt])]
  ext <;> simp [smul4, ofInt, quatmagsq4]

theorem mult4_one (q : Q4) : quatmult4 q ⟨1, 0, 0, 0⟩ = q := by ext <;> simp [quatmult4]

/-- Conjugate table: entry range and products. -/
theorem conj4_table : ∀ n ∈ List.range 48, (1 ≤ conj4.getD n 0 ∧ conj4.getD n 0 ≤ 48) ∧
    ∃ s ∈ [(1 : ℤ), 2, 4],
      imul (rawqr4.getD n (0,0,0,0)) (rawqr4.getD (conj4.getD n 0 - 1).toNat (0,0,0,0)) = (s, 0, 0, 0) ∧
      imul (rawqr4.getD (conj4.getD n 0 - 1).toNat (0,0,0,0)) (rawqr4.getD n (0,0,0,0)) = (s, 0, 0, 0) := by
  decide +kernel

theorem qr4_mul_eq_one {a b : ℤ × ℤ × ℤ × ℤ} (ha : 1 ≤ inorm a) (hb : 1 ≤ inorm b) {s : ℤ} (hs : 0 < s)
    (h : imul a b = (s, 0, 0, 0)) : quatmult4 (quatnorm4 (ofInt a)) (quatnorm4 (ofInt b)) = ⟨1, 0, 0, 0⟩ := by
  have na : (1 : ℝ) ≤ quatmagsq4 (ofInt a) := by rw [magsq_ofInt]; exact_mod_cast ha
  have nb : (1 : ℝ) ≤ quatmagsq4 (ofInt b) := by rw [magsq_ofInt]; exact_mod_cast hb
  rw [norm4_of_ge na, norm4_of_ge nb]
  have hbil : ∀ (x y : ℝ) (p q : Q4), quatmult4 (smul4 x p) (smul4 y q) = smul4 (x * y) (quatmult4 p q) := by
    intro x y p q; ext <;> simp [quatmult4, smul4] <;> ring
  have hs' : (0 : ℝ) < (s : ℝ) := by exact_mod_cast hs
  have hn : quatmagsq4 (ofInt a) * quatmagsq4 (ofInt b) = (s : ℝ) ^ 2 := by
    rw [← magsq4_mult, ofInt_mul, h]; simp [quatmagsq4, ofInt]; ring
  have hsq : Real.sqrt (quatmagsq4 (ofInt a)) * Real.sqrt (quatmagsq4 (ofInt b)) = s := by
    rw [← Real.sqrt_mul (by linarith), hn, Real.sqrt_sq hs'.le]
  rw [hbil, ofInt_mul, h, div_mul_div_comm, hsq]
  ext <;> simp [smul4, ofInt, hs'.ne']

theorem conj4_spec {i : ℤ} (h1 : 1 ≤ i) (h2 : i ≤ 48) :
    (1 ≤ conj4.getD (i - 1).toNat 0 ∧ conj4.getD (i - 1).toNat 0 ≤ 48) ∧
    quatmult4 (qr4 i) (qr4 (conj4.getD (i - 1).toNat 0)) = ⟨1, 0, 0, 0⟩ ∧
    quatmult4 (qr4 (conj4.getD (i - 1).toNat 0)) (qr4 i) = ⟨1, 0, 0, 0⟩ := by
  obtain ⟨hr, s, hs, e1, e2⟩ := conj4_table (i - 1).toNat (List.mem_range.mpr (by omega))
  have hspos : 0 < s := by
    simp only [List.mem_cons, List.not_mem_nil, or_false] at hs
    rcases hs with rfl | rfl | rfl <;> norm_num
  refine ⟨hr, ?_⟩
  obtain ⟨a, ha, ea, la⟩ := qr4_eq h1 h2
  obtain ⟨b, hb, eb, lb⟩ := qr4_eq hr.1 hr.2
  have ga : rawqr4.getD (i - 1).toNat (0, 0, 0, 0) = a := by
    rw [List.getD_eq_getElem?_getD, la]; rfl
  have gb : rawqr4.getD (conj4.getD (i - 1).toNat 0 - 1).toNat (0, 0, 0, 0) = b := by
    rw [List.getD_eq_getElem?_getD, lb]; rfl
  rw [ga, gb] at e1 e2
  rw [ea, eb]
  exact ⟨qr4_mul_eq_one (raw_norm a ha) (raw_norm b hb) hspos e1,
    qr4_mul_eq_one (raw_norm b hb) (raw_norm a ha) hspos e2⟩

/-! ### qlen = 2 -/

theorem qr2_val : qr2 1 = ⟨1, 0⟩ ∧ qr2 2 = ⟨0, 1⟩ ∧ qr2 3 = ⟨-1, 0⟩ ∧ qr2 4 = ⟨0, -1⟩ := by
  have ht : ¬ (1 : ℝ) < tiny := by unfold tiny; norm_num
  refine ⟨?_, ?_, ?_, ?_⟩ <;> ext <;>
    simp [qr2, rawqr2, quatnorm2, quatmaginv2, quatmagn2, ht]

theorem index2 {i : ℤ} (h1 : 1 ≤ i) (h2 : i ≤ 4) : i = 1 ∨ i = 2 ∨ i = 3 ∨ i = 4 := by omega

theorem qr2_unit {i : ℤ} (h1 : 1 ≤ i) (h2 : i ≤ 4) : quatmagsq2 (qr2 i) = 1 := by
  obtain ⟨a, b, c, d⟩ := qr2_val
  rcases index2 h1 h2 with rfl | rfl | rfl | rfl <;> simp [a, b, c, d, quatmagsq2]

theorem qr2_closed {i j : ℤ} (hi1 : 1 ≤ i) (hi2 : i ≤ 4) (hj1 : 1 ≤ j) (hj2 : j ≤ 4) :
    ∃ k : ℤ, 1 ≤ k ∧ k ≤ 4 ∧ quatmult2 (qr2 i) (qr2 j) = qr2 k := by
  obtain ⟨a, b, c, d⟩ := qr2_val
  refine ⟨(i + j - 2) % 4 + 1, by omega, by omega, ?_⟩
  rcases index2 hi1 hi2 with rfl | rfl | rfl | rfl <;>
    rcases index2 hj1 hj2 with rfl | rfl | rfl | rfl <;>
    norm_num [a, b, c, d, quatmult2]

theorem conj2_spec {i : ℤ} (h1 : 1 ≤ i) (h2 : i ≤ 4) :
    (1 ≤ conj2.getD (i - 1).toNat 0 ∧ conj2.getD (i - 1).toNat 0 ≤ 4) ∧
    quatmult2 (qr2 i) (qr2 (conj2.getD (i - 1).toNat 0)) = ⟨1, 0⟩ ∧
    quatmult2 (qr2 (conj2.getD (i - 1).toNat 0)) (qr2 i) = ⟨1, 0⟩ := by
  obtain ⟨a, b, c, d⟩ := qr2_val
  rcases index2 h1 h2 with rfl | rfl | rfl | rfl <;> simp [conj2, a, b, c, d, quatmult2]

theorem mult2_one (q : Q2) : quatmult2 q ⟨1, 0⟩ = q := by ext <;> simp [quatmult2]

/-! ### qlen = 1 -/

theorem conj1_table : ∀ n ∈ List.range 9, (1 ≤ conj1.getD n 0 ∧ conj1.getD n 0 ≤ 9) ∧
    rawqr1.getD n 0 + rawqr1.getD (conj1.getD n 0 - 1).toNat 0 = 0 := by decide

theorem conj1_spec {i : ℤ} (h1 : 1 ≤ i) (h2 : i ≤ 9) :
    (1 ≤ conj1.getD (i - 1).toNat 0 ∧ conj1.getD (i - 1).toNat 0 ≤ 9) ∧
    qr1 i + qr1 (conj1.getD (i - 1).toNat 0) = 0 := by
  obtain ⟨hr, e⟩ := conj1_table (i - 1).toNat (List.mem_range.mpr (by omega))
  refine ⟨hr, ?_⟩
  unfold qr1
  rw [← add_mul, ← Int.cast_add, e]; simp

/-! ### index check -/

theorem checkIndex_eq {n : ℤ} {conj : List ℤ} {iq : ℤ} :
    (checkIndex n conj iq = none ↔ iq = 0 ∨ n < |iq|) := by
  unfold checkIndex
  split_ifs with h
  · simp only [true_iff]
    rcases h with h | h | h
    · exact Or.inl h
    · exact Or.inr (lt_of_lt_of_le h (le_abs_self _))
    · right; have := neg_le_abs iq; omega
  · simp only [reduceCtorEq, false_iff]
    push Not at h ⊢
    refine ⟨h.1, abs_le.mpr ⟨by omega, by omega⟩⟩

/-! ### search -/

/-- Invariant of the search loop. -/
theorem searchLoop_spec {α : Type} (cand : ℤ → α × ℝ) (thr : ℝ) (iq : ℤ) (l : List ℤ) (b : ℤ × α × ℝ)
    (hb : b.2 = cand b.1) (hthr : thr < b.2.2) (P : ℤ → Prop) (hP : P b.1) (hl : ∀ n ∈ l, P n) :
    let r := searchLoop cand thr iq l b
    r.2 = cand r.1 ∧ P r.1 ∧ r.2.2 ≤ b.2.2 ∧
    (thr < r.2.2 → ∀ n ∈ l, n ≠ iq → r.2.2 ≤ (cand n).2) := by
  induction l generalizing b with
  | nil => exact ⟨hb, hP, le_rfl, by simp⟩
  | cons n l ih =>
    simp only [searchLoop]
    have hl' : ∀ n ∈ l, P n := fun m hm => hl m (List.mem_cons_of_mem _ hm)
    by_cases hn : n = iq
    · rw [if_pos hn]
      obtain ⟨h1, h2, h3, h4⟩ := ih b hb hthr hP hl'
      refine ⟨h1, h2, h3, fun ht m hm hne => ?_⟩
      rcases List.mem_cons.mp hm with rfl | hm
      · exact absurd hn hne
      · exact h4 ht m hm hne
    · rw [if_neg hn]
      by_cases hlt : (cand n).2 < b.2.2
      · simp only [if_pos hlt]
        by_cases ht : (cand n).2 ≤ thr
        · simp only [if_pos ht]
          exact ⟨by trivial, hl n (List.mem_cons_self), hlt.le, fun h => absurd ht (not_le.mpr h)⟩
        · simp only [if_neg ht]
          obtain ⟨h1, h2, h3, h4⟩ := ih (n, (cand n).1, (cand n).2) rfl (not_le.mp ht)
            (hl n (List.mem_cons_self)) hl'
          refine ⟨h1, h2, h3.trans hlt.le, fun ht' m hm hne => ?_⟩
          rcases List.mem_cons.mp hm with rfl | hm
          · exact h3
          · exact h4 ht' m hm hne
      · have ht : ¬ (cand n).2 ≤ thr := by
          have := not_lt.mp hlt; exact not_le.mpr (lt_of_lt_of_le hthr this)
        simp only [if_neg hlt, if_neg ht]
        obtain ⟨h1, h2, h3, h4⟩ := ih b hb hthr hP hl'
        refine ⟨h1, h2, h3, fun ht' m hm hne => ?_⟩
        rcases List.mem_cons.mp hm with rfl | hm
        · exact h3.trans (not_lt.mp hlt)
        · exact h4 ht' m hm hne

theorem search_spec {α : Type} (cand : ℤ → α × ℝ) (thr : ℝ) (n : ℕ) (conj : List ℤ) (iq : ℤ)
    (hs : 1 ≤ startIndex n conj iq ∧ startIndex n conj iq ≤ n) :
    let r := search cand thr n conj iq
    (1 ≤ r.2 ∧ r.2 ≤ n) ∧ r.1 = (cand r.2).1 ∧ (cand r.2).2 ≤ (cand (startIndex n conj iq)).2 ∧
    ((cand r.2).2 ≤ thr ∨ ∀ k : ℤ, 1 ≤ k → k ≤ n → (cand r.2).2 ≤ (cand k).2) := by
  simp only [search]
  by_cases h : (cand (startIndex n conj iq)).2 ≤ thr
  · rw [if_pos h]
    exact ⟨hs, rfl, le_rfl, Or.inl h⟩
  · rw [if_neg h]
    obtain ⟨h1, h2, h3, h4⟩ := searchLoop_spec cand thr (startIndex n conj iq)
      ((List.range n).map fun k : ℕ => (k : ℤ) + 1)
      (startIndex n conj iq, (cand (startIndex n conj iq)).1, (cand (startIndex n conj iq)).2)
      rfl (not_le.mp h) (fun k => 1 ≤ k ∧ k ≤ n) hs
      (by
        intro k hk
        obtain ⟨a, ha, rfl⟩ := List.mem_map.mp hk
        have := List.mem_range.mp ha
        constructor <;> omega)
    set r := searchLoop cand thr (startIndex n conj iq) ((List.range n).map fun k : ℕ => (k : ℤ) + 1)
      (startIndex n conj iq, (cand (startIndex n conj iq)).1, (cand (startIndex n conj iq)).2)
    rw [h1] at h3 h4
    refine ⟨h2, by rw [h1], h3, ?_⟩
    by_cases ht : (cand r.1).2 ≤ thr
    · exact Or.inl ht
    · refine Or.inr fun k hk1 hk2 => ?_
      by_cases hk : k = startIndex n conj iq
      · rw [hk]; exact h3
      · refine h4 (not_le.mp ht) k ?_ hk
        refine List.mem_map.mpr ⟨(k - 1).toNat, List.mem_range.mpr (by omega), ?_⟩
        show ((k - 1).toNat : ℤ) + 1 = k
        omega

theorem startIndex_range (n : ℕ) (conj : List ℤ) (iq : ℤ) (hn : 1 ≤ n)
    (hc : ∀ i : ℤ, 1 ≤ i → i ≤ n → 1 ≤ conj.getD (i - 1).toNat 0 ∧ conj.getD (i - 1).toNat 0 ≤ n) :
    1 ≤ startIndex n conj iq ∧ startIndex n conj iq ≤ n := by
  unfold startIndex
  by_cases h1 : iq = 0 ∨ iq > n ∨ iq < -n
  · simp only [if_pos h1]; norm_num; omega
  · simp only [if_neg h1]
    push Not at h1
    split_ifs with h2
    · exact hc (-iq) (by omega) (by omega)
    · omega

end AMPE.Quat
