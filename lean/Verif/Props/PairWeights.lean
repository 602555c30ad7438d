import Verif.Proofs.PairWeights

/-!
# C09: weights of the three phase pairs
-/

namespace AMPE.PairWeights.Props

open AMPE.PairWeights

/-- The construction never degenerates for fractions in the simplex. -/
theorem nondegenerate {p : Fin 3 → ℝ} (h : Simplex p) (hm : ∀ i, p i ≤ maxp) :
    (0 < p 0 + p 1 ∧ 0 < p 0 + p 2 ∧ 0 < p 1 + p 2) ∧
    1 / 10 ^ 32 < dist3 ![p 0 / (p 0 + p 2), 0, p 2 / (p 0 + p 2)] ![p 0 / (p 0 + p 1), p 1 / (p 0 + p 1), 0] ∧
    1 / 10 ^ 32 < dist3 ![0, p 1 / (p 1 + p 2), p 2 / (p 1 + p 2)] ![p 0 / (p 0 + p 1), p 1 / (p 0 + p 1), 0] ∧
    1 / 10 ^ 32 < dist3 ![0, p 1 / (p 1 + p 2), p 2 / (p 1 + p 2)] ![p 0 / (p 0 + p 2), 0, p 2 / (p 0 + p 2)] := by
  obtain ⟨hn, hs⟩ := h
  have h0 := hn 0
  have h1 := hn 1
  have h2 := hn 2
  have m0 := hm 0
  have m1 := hm 1
  have m2 := hm 2
  unfold maxp at m0 m1 m2
  have s01 : 0 < p 0 + p 1 := by norm_num at *; linarith
  have s02 : 0 < p 0 + p 2 := by norm_num at *; linarith
  have s12 : 0 < p 1 + p 2 := by norm_num at *; linarith
  have tiny : (1 : ℝ) / 10 ^ 32 < 0.005 := by norm_num
  refine ⟨⟨s01, s02, s12⟩, ?_, ?_, ?_⟩
  · rcases le_total (p 1) (p 2) with c | c
    · have h' : 0.005 ≤ p 2 := by norm_num at *; linarith
      have g := dist3_ge ![p 0 / (p 0 + p 2), 0, p 2 / (p 0 + p 2)]
        ![p 0 / (p 0 + p 1), p 1 / (p 0 + p 1), 0] 2
      have r := ratio_ge h2 h0 (by linarith) (by linarith)
      rw [add_comm (p 2)] at r
      simp only [Matrix.cons_val, sub_zero] at g
      linarith [le_abs_self (p 2 / (p 0 + p 2))]
    · have h' : 0.005 ≤ p 1 := by norm_num at *; linarith
      have g := dist3_ge ![p 0 / (p 0 + p 2), 0, p 2 / (p 0 + p 2)]
        ![p 0 / (p 0 + p 1), p 1 / (p 0 + p 1), 0] 1
      have r := ratio_ge h1 h0 (by linarith) (by linarith)
      rw [add_comm (p 1)] at r
      simp only [Matrix.cons_val, Matrix.cons_val_one, zero_sub, abs_neg] at g
      linarith [le_abs_self (p 1 / (p 0 + p 1))]
  · rcases le_total (p 0) (p 2) with c | c
    · have h' : 0.005 ≤ p 2 := by norm_num at *; linarith
      have g := dist3_ge ![0, p 1 / (p 1 + p 2), p 2 / (p 1 + p 2)]
        ![p 0 / (p 0 + p 1), p 1 / (p 0 + p 1), 0] 2
      have r := ratio_ge h2 h1 (by linarith) (by linarith)
      rw [add_comm (p 2)] at r
      simp only [Matrix.cons_val, sub_zero] at g
      linarith [le_abs_self (p 2 / (p 1 + p 2))]
    · have h' : 0.005 ≤ p 0 := by norm_num at *; linarith
      have g := dist3_ge ![0, p 1 / (p 1 + p 2), p 2 / (p 1 + p 2)]
        ![p 0 / (p 0 + p 1), p 1 / (p 0 + p 1), 0] 0
      have r := ratio_ge h0 h1 (by linarith) (by linarith)
      simp only [Matrix.cons_val_zero, zero_sub, abs_neg] at g
      linarith [le_abs_self (p 0 / (p 0 + p 1))]
  · rcases le_total (p 0) (p 1) with c | c
    · have h' : 0.005 ≤ p 1 := by norm_num at *; linarith
      have g := dist3_ge ![0, p 1 / (p 1 + p 2), p 2 / (p 1 + p 2)]
        ![p 0 / (p 0 + p 2), 0, p 2 / (p 0 + p 2)] 1
      have r := ratio_ge h1 h2 (by linarith) (by linarith)
      simp only [Matrix.cons_val, Matrix.cons_val_one, sub_zero] at g
      linarith [le_abs_self (p 1 / (p 1 + p 2))]
    · have h' : 0.005 ≤ p 0 := by norm_num at *; linarith
      have g := dist3_ge ![0, p 1 / (p 1 + p 2), p 2 / (p 1 + p 2)]
        ![p 0 / (p 0 + p 2), 0, p 2 / (p 0 + p 2)] 0
      have r := ratio_ge h0 h2 (by linarith) (by linarith)
      simp only [Matrix.cons_val_zero, zero_sub, abs_neg] at g
      linarith [le_abs_self (p 0 / (p 0 + p 2))]

/-- **C09**: for every triple of phase fractions (non-negative, adding up to one) no assertion
fails, the three weights lie in [0,1] and they add up to one.  No non-degeneracy hypothesis is
needed: the cut at 0.99 guarantees it. -/
theorem c09_partition_of_unity (p : Fin 3 → ℝ) (h : Simplex p) :
    ∃ w01 w02 w12, computeWeights3Pairs p = some (w01, w02, w12) ∧
      (0 ≤ w01 ∧ w01 ≤ 1) ∧ (0 ≤ w02 ∧ w02 ≤ 1) ∧ (0 ≤ w12 ∧ w12 ≤ 1) ∧ w01 + w02 + w12 = 1 := by
  obtain ⟨hs, hm⟩ := limit_simplex h
  obtain ⟨n1, n2⟩ := nondegenerate hs hm
  have tiny : (0 : ℝ) < 1 / 10 ^ 32 := by positivity
  have hsum := weights_sum _ _ _ (tiny.trans n2.1) (tiny.trans n2.2.1) (tiny.trans n2.2.2)
  refine ⟨_, _, _, ?_, angleWeight_range _ _ _, angleWeight_range _ _ _, angleWeight_range _ _ _, hsum⟩
  simp only [computeWeights3Pairs]
  rw [if_pos n1, if_pos n2]

/-- **C09** (two phases): where the third phase is absent (and neither phase is above the 0.99 cut),
all the weight goes to the pair that is present. -/
theorem c09_two_phase (p : Fin 3 → ℝ) (h : Simplex p) (h2 : p 2 = 0) (h0 : p 0 ≤ 0.99)
    (h1 : p 1 ≤ 0.99) : computeWeights3Pairs p = some (1, 0, 0) := by
  obtain ⟨w01, w02, w12, e, -, r02, r12, hsum⟩ := c09_partition_of_unity p h
  obtain ⟨hn, hs⟩ := h
  have p0 : 0 < p 0 := by norm_num at *; linarith
  have p1 : 0 < p 1 := by norm_num at *; linarith
  have hl : limitFractions p = p := by
    unfold limitFractions maxp
    rw [if_neg (by linarith), if_neg (by linarith), if_neg (by rw [h2]; norm_num)]
  have hw : w01 = 1 := by
    simp only [computeWeights3Pairs, hl] at e
    split_ifs at e
    have e1 := congrArg Prod.fst (Option.some.inj e)
    simp only at e1
    rw [← e1]
    have hp01 : p 0 + p 1 = 1 := by linarith
    have s2 : (0:ℝ) ≤ 2 := by norm_num
    have d0 : dist3 ![p 0 / (p 0 + p 2), 0, p 2 / (p 0 + p 2)]
        ![p 0 / (p 0 + p 1), p 1 / (p 0 + p 1), 0] = Real.sqrt 2 * p 1 := by
      simp only [dist3, Matrix.cons_val_zero, Matrix.cons_val_one, Matrix.cons_val, h2, add_zero,
        hp01, div_one, div_self p0.ne', zero_div]
      rw [show (1 - p 0) * (1 - p 0) + (0 - p 1) * (0 - p 1) + (0 - 0) * (0 - 0) = 2 * (p 1) ^ 2 by
        rw [show p 0 = 1 - p 1 by linarith]; ring, Real.sqrt_mul s2, Real.sqrt_sq p1.le]
    have d1 : dist3 ![0, p 1 / (p 1 + p 2), p 2 / (p 1 + p 2)]
        ![p 0 / (p 0 + p 1), p 1 / (p 0 + p 1), 0] = Real.sqrt 2 * p 0 := by
      simp only [dist3, Matrix.cons_val_zero, Matrix.cons_val_one, Matrix.cons_val, h2, add_zero,
        hp01, div_one, div_self p1.ne', zero_div]
      rw [show (0 - p 0) * (0 - p 0) + (1 - p 1) * (1 - p 1) + (0 - 0) * (0 - 0) = 2 * (p 0) ^ 2 by
        rw [show p 1 = 1 - p 0 by linarith]; ring, Real.sqrt_mul s2, Real.sqrt_sq p0.le]
    have d2 : dist3 ![0, p 1 / (p 1 + p 2), p 2 / (p 1 + p 2)]
        ![p 0 / (p 0 + p 2), 0, p 2 / (p 0 + p 2)] = Real.sqrt 2 := by
      simp only [dist3, Matrix.cons_val_zero, Matrix.cons_val_one, Matrix.cons_val, h2, add_zero,
        div_self p1.ne', div_self p0.ne', zero_div]
      norm_num
    rw [d0, d1, d2]
    have hq : (Real.sqrt 2 * p 1 * (Real.sqrt 2 * p 1) + Real.sqrt 2 * p 0 * (Real.sqrt 2 * p 0) -
        Real.sqrt 2 * Real.sqrt 2) / (2 * (Real.sqrt 2 * p 1) * (Real.sqrt 2 * p 0)) = -1 := by
      have hsq : Real.sqrt 2 * Real.sqrt 2 = 2 := Real.mul_self_sqrt s2
      have n : 2 * (Real.sqrt 2 * p 1) * (Real.sqrt 2 * p 0) = 4 * (p 0 * p 1) := by
        linear_combination (2 * p 0 * p 1) * hsq
      rw [n, div_eq_iff (by positivity)]
      have hp : p 0 = 1 - p 1 := by linarith
      rw [hp]
      linear_combination (p 1 ^ 2 + (1 - p 1) ^ 2 - 1) * hsq
    unfold angleWeight
    simp only [hq]
    norm_num
  have z02 : w02 = 0 := by linarith [r02.1, r12.1]
  have z12 : w12 = 0 := by linarith [r02.1, r12.1]
  rw [e, hw, z02, z12]

theorem angleWeight_comm (x y z : ℝ) : angleWeight x y z = angleWeight y x z := by
  unfold angleWeight
  rw [add_comm (x * x), show 2 * x * y = 2 * y * x by ring]

theorem dist3_swap12 (a b c d e f : ℝ) : dist3 ![a, b, c] ![d, e, f] = dist3 ![a, c, b] ![d, f, e] := by
  simp only [dist3, Matrix.cons_val_zero, Matrix.cons_val_one, Matrix.cons_val]
  congr 1; ring

theorem dist3_swap01 (a b c d e f : ℝ) : dist3 ![a, b, c] ![d, e, f] = dist3 ![b, a, c] ![e, d, f] := by
  simp only [dist3, Matrix.cons_val_zero, Matrix.cons_val_one, Matrix.cons_val]
  congr 1; ring

theorem limit_swap12 (a b c : ℝ) (h : Simplex ![a, b, c]) :
    limitFractions ![a, c, b] = ![limitFractions ![a, b, c] 0, limitFractions ![a, b, c] 2,
      limitFractions ![a, b, c] 1] := by
  obtain ⟨hn, hs⟩ := h
  have h0 := hn 0
  have h1 := hn 1
  have h2 := hn 2
  simp only [Matrix.cons_val_zero, Matrix.cons_val_one, Matrix.cons_val] at h0 h1 h2 hs
  have key : ∀ x y z : ℝ, limitFractions ![x, y, z] = if 0.99 < x then redistribute ![x, y, z] 0 else
      if 0.99 < y then redistribute ![x, y, z] 1 else if 0.99 < z then redistribute ![x, y, z] 2
      else ![x, y, z] := fun x y z => rfl
  rw [key, key]
  by_cases ca : 0.99 < a
  · have cb : ¬ 0.99 < b := by norm_num at *; linarith
    have cc : ¬ 0.99 < c := by norm_num at *; linarith
    simp only [ca, cb, cc, if_true, if_false]
    funext i; fin_cases i <;> simp [redistribute, Function.update, maxp]
    all_goals first | (left; ring) | ring
  · by_cases cb : 0.99 < b
    · have cc : ¬ 0.99 < c := by norm_num at *; linarith
      simp only [ca, cb, cc, if_true, if_false]
      funext i; fin_cases i <;> simp [redistribute, Function.update, maxp]
      all_goals first | (left; ring) | ring
    · by_cases cc : 0.99 < c
      · simp only [ca, cb, cc, if_true, if_false]
        funext i; fin_cases i <;> simp [redistribute, Function.update, maxp]
        all_goals first | (left; ring) | ring
      · simp only [ca, cb, cc, if_false]
        funext i; fin_cases i <;> rfl

theorem limit_swap01 (a b c : ℝ) (h : Simplex ![a, b, c]) :
    limitFractions ![b, a, c] = ![limitFractions ![a, b, c] 1, limitFractions ![a, b, c] 0,
      limitFractions ![a, b, c] 2] := by
  obtain ⟨hn, hs⟩ := h
  have h0 := hn 0
  have h1 := hn 1
  have h2 := hn 2
  simp only [Matrix.cons_val_zero, Matrix.cons_val_one, Matrix.cons_val] at h0 h1 h2 hs
  have key : ∀ x y z : ℝ, limitFractions ![x, y, z] = if 0.99 < x then redistribute ![x, y, z] 0 else
      if 0.99 < y then redistribute ![x, y, z] 1 else if 0.99 < z then redistribute ![x, y, z] 2
      else ![x, y, z] := fun x y z => rfl
  rw [key, key]
  by_cases ca : 0.99 < a
  · have cb : ¬ 0.99 < b := by norm_num at *; linarith
    have cc : ¬ 0.99 < c := by norm_num at *; linarith
    simp only [ca, cb, cc, if_true, if_false]
    funext i; fin_cases i <;> simp [redistribute, Function.update, maxp]
    all_goals first | (left; ring) | ring
  · by_cases cb : 0.99 < b
    · have cc : ¬ 0.99 < c := by norm_num at *; linarith
      simp only [ca, cb, cc, if_true, if_false]
      funext i; fin_cases i <;> simp [redistribute, Function.update, maxp]
      all_goals first | (left; ring) | ring
    · by_cases cc : 0.99 < c
      · simp only [ca, cb, cc, if_true, if_false]
        funext i; fin_cases i <;> simp [redistribute, Function.update, maxp]
        all_goals first | (left; ring) | ring
      · simp only [ca, cb, cc, if_false]
        funext i; fin_cases i <;> rfl

/-- **C09** (relabelling): exchanging phases 1 and 2 exchanges the weights of the pairs 01 and 02. -/
theorem c09_swap_12 (a b c w01 w02 w12 : ℝ) (h : Simplex ![a, b, c])
    (hw : computeWeights3Pairs ![a, b, c] = some (w01, w02, w12)) :
    computeWeights3Pairs ![a, c, b] = some (w02, w01, w12) := by
  obtain ⟨hs, hm⟩ := limit_simplex h
  obtain ⟨n1, n2⟩ := nondegenerate hs hm
  simp only [computeWeights3Pairs] at hw
  rw [if_pos n1, if_pos n2] at hw
  simp only [computeWeights3Pairs, limit_swap12 a b c h, Matrix.cons_val_zero, Matrix.cons_val_one,
    Matrix.cons_val]
  set x := limitFractions ![a, b, c] 0
  set y := limitFractions ![a, b, c] 1
  set z := limitFractions ![a, b, c] 2
  have e0 : dist3 ![x / (x + y), 0, y / (x + y)] ![x / (x + z), z / (x + z), 0] =
      dist3 ![x / (x + z), 0, z / (x + z)] ![x / (x + y), y / (x + y), 0] := by
    rw [dist3_comm, dist3_swap12]
  have e1 : dist3 ![0, z / (z + y), y / (z + y)] ![x / (x + z), z / (x + z), 0] =
      dist3 ![0, y / (y + z), z / (y + z)] ![x / (x + z), 0, z / (x + z)] := by
    rw [dist3_swap12, add_comm z y]
  have e2 : dist3 ![0, z / (z + y), y / (z + y)] ![x / (x + y), 0, y / (x + y)] =
      dist3 ![0, y / (y + z), z / (y + z)] ![x / (x + y), y / (x + y), 0] := by
    rw [dist3_swap12, add_comm z y]
  rw [e0, e1, e2, if_pos ⟨n1.2.1, n1.1, by linarith [n1.2.2]⟩, if_pos ⟨n2.1, n2.2.2, n2.2.1⟩]
  rw [angleWeight_comm (dist3 ![0, y / (y + z), z / (y + z)] ![x / (x + y), y / (x + y), 0])
    (dist3 ![0, y / (y + z), z / (y + z)] ![x / (x + z), 0, z / (x + z)])]
  simp only [Option.some.injEq, Prod.mk.injEq] at hw ⊢
  exact ⟨hw.2.1, hw.1, hw.2.2⟩

/-- **C09** (relabelling): exchanging phases 0 and 1 exchanges the weights of the pairs 02 and 12. -/
theorem c09_swap_01 (a b c w01 w02 w12 : ℝ) (h : Simplex ![a, b, c])
    (hw : computeWeights3Pairs ![a, b, c] = some (w01, w02, w12)) :
    computeWeights3Pairs ![b, a, c] = some (w01, w12, w02) := by
  obtain ⟨hs, hm⟩ := limit_simplex h
  obtain ⟨n1, n2⟩ := nondegenerate hs hm
  simp only [computeWeights3Pairs] at hw
  rw [if_pos n1, if_pos n2] at hw
  simp only [computeWeights3Pairs, limit_swap01 a b c h, Matrix.cons_val_zero, Matrix.cons_val_one,
    Matrix.cons_val]
  set x := limitFractions ![a, b, c] 0
  set y := limitFractions ![a, b, c] 1
  set z := limitFractions ![a, b, c] 2
  have e0 : dist3 ![y / (y + z), 0, z / (y + z)] ![y / (y + x), x / (y + x), 0] =
      dist3 ![0, y / (y + z), z / (y + z)] ![x / (x + y), y / (x + y), 0] := by
    rw [dist3_swap01, add_comm y x]
  have e1 : dist3 ![0, x / (x + z), z / (x + z)] ![y / (y + x), x / (y + x), 0] =
      dist3 ![x / (x + z), 0, z / (x + z)] ![x / (x + y), y / (x + y), 0] := by
    rw [dist3_swap01, add_comm y x]
  have e2 : dist3 ![0, x / (x + z), z / (x + z)] ![y / (y + z), 0, z / (y + z)] =
      dist3 ![0, y / (y + z), z / (y + z)] ![x / (x + z), 0, z / (x + z)] := by
    rw [dist3_comm, dist3_swap01]
  rw [e0, e1, e2, if_pos ⟨by linarith [n1.1], n1.2.2, n1.2.1⟩, if_pos ⟨n2.2.1, n2.1, n2.2.2⟩]
  simp only [Option.some.injEq, Prod.mk.injEq] at hw ⊢
  refine ⟨?_, ?_, ?_⟩
  · rw [angleWeight_comm]; exact hw.1
  · rw [angleWeight_comm]; exact hw.2.2
  · rw [angleWeight_comm]; exact hw.2.1

/-- The centre of the simplex and a pure phase satisfy the hypothesis. -/
example : Simplex ![1/3, 1/3, 1/3] ∧ Simplex ![1, 0, 0] := by
  constructor <;> refine ⟨fun i => ?_, ?_⟩
  · fin_cases i <;> simp
  · simp; norm_num
  · fin_cases i <;> simp
  · simp

example : computeWeights3Pairs ![1/4, 3/4, 0] = some (1, 0, 0) := by
  refine c09_two_phase _ ⟨fun i => ?_, ?_⟩ ?_ ?_ ?_
  · fin_cases i <;> norm_num
  · simp; norm_num
  · simp
  · simp; norm_num
  · simp; norm_num

end AMPE.PairWeights.Props
