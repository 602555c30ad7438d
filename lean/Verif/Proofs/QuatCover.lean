import Mathlib.Analysis.SpecialFunctions.Pow.NNReal
import Mathlib.Tactic.Linarith
import Mathlib.Tactic.LinearCombination

/-!
# The rotations of the cube cover the sphere of unit quaternions

Every unit quaternion has an inner product of at least `(2 + √2)/4`, the cosine of half of 62.8 degrees, with one of the 48 quaternions of the
rotations of the cube.  Here for the absolute values of its components.
-/

namespace AMPE.QuatCover

theorem last_case (s u v d : ℝ) (hs : s * s = 2) (s1 : 1.414 < s) (s2 : s < 1.415) (hu : 0 ≤ u) (hv : 0 ≤ v)
    (hd0 : 0 ≤ d) (hd : d = (2 - s) / 4 - u + 2 * v) (h1 : 2 * u - v ≤ 1 / 2) (h2 : 3 * v ≤ (2 * s - 2) / 4 + 2 * u) :
    0 ≤ 4 * u * d + v * (2 * s - 2 - 6 * v) := by
  rcases le_total (6 * v) (2 * s - 2) with h | h
  · have := mul_nonneg hu hd0
    have := mul_nonneg hv (sub_nonneg.2 h)
    linarith
  · rcases le_total v d with h3 | h3
    · have : v * (6 * v - (2 * s - 2)) ≤ v * (4 * u) := mul_le_mul_of_nonneg_left (by linarith) hv
      have : u * v ≤ u * d := mul_le_mul_of_nonneg_left h3 hu
      nlinarith
    · have a1 : v * (6 * v - (2 * s - 2)) ≤ v * (4 * u - (s - 1)) := mul_le_mul_of_nonneg_left (by linarith) hv
      have a2 : u * (v - d) ≤ (1 / 4 + v / 2) * (v - d) := mul_le_mul_of_nonneg_right (by linarith) (by linarith)
      have a3 : v - d ≤ 0.1038 - v / 2 := by rw [hd]; linarith
      have a4 : (1 / 4 + v / 2) * (v - d) ≤ (1 / 4 + v / 2) * (0.1038 - v / 2) := mul_le_mul_of_nonneg_left a3 (by linarith)
      have a5 : v * 0.414 ≤ v * (s - 1) := mul_le_mul_of_nonneg_left (by linarith) hv
      have a6 : 0.1379 ≤ v := by linarith
      nlinarith

theorem edge (s a b e : ℝ) (hs : s * s = 2) (s1 : 1.414 < s) (s2 : s < 1.415) (h1 : b ≤ a) (e0 : 0 ≤ e) (he : e = (2 + s) / 2 - a - b - b)
    (h' : e ≤ b) (ha : a ≤ (2 + s) / 4) (hb : a + b ≤ (1 + s) / 2) : a * a + 2 * (b * b) + e * e ≤ 1 := by
  obtain ⟨u, hu⟩ : ∃ u, u = (2 + s) / 4 - a := ⟨_, rfl⟩
  obtain ⟨v, hv⟩ : ∃ v, v = (1 + s) / 2 - a - b := ⟨_, rfl⟩
  have l := last_case s u v e hs s1 s2 (by linarith) (by linarith) e0 (by rw [he, hu, hv]; ring) (by linarith) (by linarith)
  have : a * a + 2 * (b * b) + e * e = 1 - (4 * u * e + v * (2 * s - 2 - 6 * v)) := by
    have ea : a = (2 + s) / 4 - u := by linarith
    have eb : b = s / 4 + u - v := by linarith
    have ee : e = (2 - s) / 4 - u + 2 * v := by linarith
    rw [ea, eb, ee]; linear_combination (1 / 4) * hs
  linarith

theorem sorted (s a b c d : ℝ) (hs : s * s = 2) (s1 : 1.414 < s) (s2 : s < 1.415) (h1 : b ≤ a) (h2 : c ≤ b) (h3 : d ≤ c) (h4 : 0 ≤ d)
   (ha : a ≤ (2 + s) / 4) (hb : a + b ≤ (1 + s) / 2) (hc : a + b + c + d ≤ (2 + s) / 2) : a * a + b * b + c * c + d * d ≤ 1 := by
  rcases le_total ((2 + s) / 2 - a - b) b with h | h
  · have : c * c + d * d ≤ (c + d) * (c + d) := by nlinarith
    have : (c + d) * (c + d) ≤ ((2 + s) / 2 - a - b) * ((2 + s) / 2 - a - b) := by nlinarith
    have : a * a + b * b + ((2 + s) / 2 - a - b) * ((2 + s) / 2 - a - b) ≤ 1 := by
      nlinarith
    linarith
  · rcases le_total (2 * b) ((2 + s) / 2 - a - b) with h' | h'
    · have : c * c + d * d ≤ 2 * (b * b) := by nlinarith
      have : a * a + 3 * (b * b) ≤ 1 := by nlinarith
      linarith
    · obtain ⟨e, he⟩ : ∃ e, e = (2 + s) / 2 - a - b - b := ⟨_, rfl⟩
      have e0 : 0 ≤ e := by rw [he]; linarith
      have key : c * c + d * d ≤ b * b + e * e := by
        have c0 : 0 ≤ c := h4.trans h3
        rcases le_total d e with hde | hde
        · have := mul_self_le_mul_self h4 hde
          have := mul_self_le_mul_self c0 h2
          linarith
        · have x1 : d - e ≤ b - c := by rw [he]; linarith
          have x2 : d + e ≤ b + c := by linarith
          have := mul_le_mul x1 x2 (by linarith) (by linarith)
          nlinarith
      have fin := edge s a b e hs s1 s2 h1 e0 he (by linarith) ha hb
      linarith

theorem root_two : √2 * √2 = (2:ℝ) ∧ (1.414:ℝ) < √2 ∧ √2 < (1.415:ℝ) :=
  ⟨Real.mul_self_sqrt (by norm_num), Real.lt_sqrt_of_sq_lt (by norm_num), by rw [Real.sqrt_lt' (by norm_num)]; norm_num⟩

theorem sorted_far (M : ℝ) (hM : M < (2 + √2) / 4) (x y z w : ℝ) (o1 : y ≤ x) (o2 : z ≤ y) (o3 : w ≤ z) (o4 : 0 ≤ w) (b1 : x ≤ M)
    (b2 : x + y ≤ √2 * M) (b3 : x + y + z + w ≤ 2 * M) (q : x * x + y * y + z * z + w * w = 1) : False := by
  obtain ⟨hs, s1, s2⟩ := root_two
  have hM0 : 0 < M := by
    by_contra hh; push Not at hh
    have e1 : x = 0 := by linarith
    have e2 : y = 0 := by linarith
    have e3 : z = 0 := by linarith
    have e4 : w = 0 := by linarith
    rw [e1, e2, e3, e4] at q; norm_num at q
  obtain ⟨k, hk⟩ : ∃ k, k = (2 + √2) / 4 / M := ⟨_, rfl⟩
  have kM : k * M = (2 + √2) / 4 := by rw [hk]; field_simp
  have k1 : 1 < k := by rw [hk, lt_div_iff₀ hM0]; linarith
  have k0 : 0 ≤ k := by linarith
  have t2 : k * (√2 * M) = (1 + √2) / 2 := by linear_combination √2 * kM + (1 / 4) * hs
  have t := sorted √2 (k * x) (k * y) (k * z) (k * w) hs s1 s2 (mul_le_mul_of_nonneg_left o1 k0) (mul_le_mul_of_nonneg_left o2 k0)
    (mul_le_mul_of_nonneg_left o3 k0) (mul_nonneg k0 o4) (by rw [← kM]; exact mul_le_mul_of_nonneg_left b1 k0)
    (by rw [← t2, ← mul_add]; exact mul_le_mul_of_nonneg_left b2 k0)
    (by have := mul_le_mul_of_nonneg_left b3 k0; linarith)
  have e : k * x * (k * x) + k * y * (k * y) + k * z * (k * z) + k * w * (k * w) = k * k := by linear_combination k * k * q
  nlinarith

theorem pairs_far (M : ℝ) (hM : M < (2 + √2) / 4) (x y z w : ℝ) (y0 : 0 ≤ y) (w0 : 0 ≤ w) (o1 : y ≤ x) (o2 : w ≤ z) (m1 : x ≤ M) (m2 : z ≤ M)
    (p1 : x + y ≤ √2 * M) (p2 : z + w ≤ √2 * M) (p3 : x + z ≤ √2 * M) (q3 : x + y + z + w ≤ 2 * M)
    (q : x * x + y * y + z * z + w * w = 1) : False := by
  rcases le_total x z with o3 | o3
  · rcases le_total x w with o4 | o4
    · exact sorted_far M hM z w x y o2 o4 o1 y0 m2 p2 (by linarith) (by linarith)
    · rcases le_total y w with o5 | o5
      · exact sorted_far M hM z x w y o3 o4 o5 y0 m2 (by linarith) (by linarith) (by linarith)
      · exact sorted_far M hM z x y w o3 o1 o5 w0 m2 (by linarith) (by linarith) (by linarith)
  · rcases le_total z y with o4 | o4
    · exact sorted_far M hM x y z w o1 o4 o2 w0 m1 p1 (by linarith) (by linarith)
    · rcases le_total y w with o5 | o5
      · exact sorted_far M hM x z w y o3 o2 o5 y0 m1 p3 (by linarith) (by linarith)
      · exact sorted_far M hM x z y w o3 o4 o5 w0 m1 p3 (by linarith) (by linarith)

/-- Four numbers that are not negative and whose squares sum to one: one of them, or a sum of two of them divided by `√2`, or half of the sum of
all is at least `(2 + √2)/4`. -/
theorem covering (a b c d M : ℝ) (ha : 0 ≤ a) (hb : 0 ≤ b) (hc : 0 ≤ c) (hd : 0 ≤ d) (hu : a * a + b * b + c * c + d * d = 1)
    (h1 : a ≤ M ∧ b ≤ M ∧ c ≤ M ∧ d ≤ M) (h2 : a + b ≤ √2 * M ∧ a + c ≤ √2 * M ∧ a + d ≤ √2 * M ∧ b + c ≤ √2 * M ∧ b + d ≤ √2 * M ∧ c + d ≤ √2 * M)
    (h3 : a + b + c + d ≤ 2 * M) : (2 + √2) / 4 ≤ M := by
  by_contra hM
  push Not at hM
  obtain ⟨a1, b1, c1, d1⟩ := h1
  obtain ⟨ab, ac, ad, bc, bd, cd⟩ := h2
  rcases le_total a b with x1 | x1 <;> rcases le_total c d with x2 | x2
  · exact pairs_far M hM b a d c ha hc x1 x2 b1 d1 (by linarith) (by linarith) (by linarith) (by linarith) (by linarith)
  · exact pairs_far M hM b a c d ha hd x1 x2 b1 c1 (by linarith) (by linarith) (by linarith) (by linarith) (by linarith)
  · exact pairs_far M hM a b d c hb hc x1 x2 a1 d1 (by linarith) (by linarith) (by linarith) (by linarith) (by linarith)
  · exact pairs_far M hM a b c d hb hd x1 x2 a1 c1 (by linarith) (by linarith) (by linarith) (by linarith) (by linarith)

end AMPE.QuatCover
