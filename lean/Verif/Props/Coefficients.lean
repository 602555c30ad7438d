import Mathlib.Analysis.SpecialFunctions.Pow.Real
import Verif.Model.Coefficients
import Mathlib.Topology.Algebra.Order.Field
import Mathlib.Order.Filter.AtTopBot.Field
import Mathlib.Topology.Algebra.Order.LiminfLimsup
import Mathlib.Tactic.Linarith
import Mathlib.Tactic.Ring
import Mathlib.Tactic.NormNum
import Mathlib.Tactic.Positivity
import Mathlib.Tactic.FieldSimp
import Mathlib.Tactic.LinearCombination
import Mathlib.Tactic.IntervalCases

/-!
# C27 - C30, C45, C47
-/

namespace AMPE.Coefficients.Props

open AMPE.Coefficients

/-! ## C27 -/

theorem atomicMobility_pos {R T : ℝ} (hR : 0 < R) (hT : 0 < T) (dG : ℝ) : 0 < atomicMobility R dG T := by
  unfold atomicMobility; positivity

/-- **C27**: the binary mobility is positive inside (0,1), zero for both pure components and symmetric
under exchange of the roles of the two species. -/
theorem c27_binary (R : ℝ) (hR : 0 < R) (p0 p1 : MobParams) (c0 T : ℝ) (hT : 0 < T) :
    (0 ≤ c0 → c0 ≤ 1 → 0 ≤ mobilityBinary R p0 p1 c0 T) ∧
    (0 < c0 → c0 < 1 → 0 < mobilityBinary R p0 p1 c0 T) ∧
    mobilityBinary R p0 p1 0 T = 0 ∧ mobilityBinary R p0 p1 1 T = 0 := by
  have hm : (0 : ℝ) < m2toum2 := by unfold m2toum2; norm_num
  have h0 := atomicMobility_pos hR hT (deltaG2 R p0 c0 (1 - c0) T)
  have h1 := atomicMobility_pos hR hT (deltaG2 R p1 c0 (1 - c0) T)
  refine ⟨?_, ?_, ?_, ?_⟩
  · intro ha hb
    unfold mobilityBinary
    have : 0 ≤ 1 - c0 := by linarith
    simp only
    positivity
  · intro ha hb
    unfold mobilityBinary
    have : 0 < 1 - c0 := by linarith
    simp only
    positivity
  · simp [mobilityBinary]
  · simp [mobilityBinary]

/-- Specification: the lattice-frame mobility matrix `Σ_k c_k M_k (δ_ik - c_i)(δ_jk - c_j)`. -/
noncomputable def latticeMobility (c m : Fin 3 → ℝ) (i j : Fin 3) : ℝ :=
  ∑ k, c k * m k * ((if i = k then 1 else 0) - c i) * ((if j = k then 1 else 0) - c j)

/-- **C27**: the ternary mobility matrix is the lattice-frame matrix (in um^2) of the first two species,
and it is symmetric. -/
theorem c27_ternary_matrix (R : ℝ) (p0 p1 p2 : MobParams) (c0 c1 T : ℝ) :
    let c2 := 1 - c0 - c1
    let m : Fin 3 → ℝ := ![atomicMobility R (deltaG3 R p0 c0 c1 c2 T) T,
      atomicMobility R (deltaG3 R p1 c0 c1 c2 T) T, atomicMobility R (deltaG3 R p2 c0 c1 c2 T) T]
    let c : Fin 3 → ℝ := ![c0, c1, c2]
    let M := mobilityTernary R p0 p1 p2 c0 c1 T
    M.1 = latticeMobility c m 0 0 * 1e12 ∧ M.2.1 = latticeMobility c m 0 1 * 1e12 ∧
    M.2.2.1 = latticeMobility c m 1 0 * 1e12 ∧ M.2.2.2 = latticeMobility c m 1 1 * 1e12 := by
  intro c2 m c M
  simp only [M, mobilityTernary, m2toum2]
  refine ⟨?_, ?_, ?_, ?_⟩ <;>
  · simp only [latticeMobility, Fin.sum_univ_three, m, c, Matrix.cons_val_zero, Matrix.cons_val_one,
      Matrix.cons_val, Fin.isValue, if_true, Fin.reduceEq, if_false, c2]
    ring

/-- **C27**: for concentrations in the simplex the ternary mobility matrix is positive semidefinite, and
zero for a pure component. -/
theorem c27_ternary_psd (R : ℝ) (hR : 0 < R) (p0 p1 p2 : MobParams) (c0 c1 T : ℝ) (hT : 0 < T)
    (h0 : 0 ≤ c0) (h1 : 0 ≤ c1) (h2 : c0 + c1 ≤ 1) (x y : ℝ) :
    let M := mobilityTernary R p0 p1 p2 c0 c1 T
    0 ≤ M.1 * x ^ 2 + (M.2.1 + M.2.2.1) * x * y + M.2.2.2 * y ^ 2 ∧
    ((c0 = 1 ∨ c1 = 1 ∨ c0 + c1 = 0) → M = (0, 0, 0, 0)) := by
  intro M
  have hm0 := atomicMobility_pos hR hT (deltaG3 R p0 c0 c1 (1 - c0 - c1) T)
  have hm1 := atomicMobility_pos hR hT (deltaG3 R p1 c0 c1 (1 - c0 - c1) T)
  have hm2 := atomicMobility_pos hR hT (deltaG3 R p2 c0 c1 (1 - c0 - c1) T)
  refine ⟨?_, ?_⟩
  · simp only [M, mobilityTernary]
    generalize atomicMobility R (deltaG3 R p0 c0 c1 (1 - c0 - c1) T) T = m0 at hm0 ⊢
    generalize atomicMobility R (deltaG3 R p1 c0 c1 (1 - c0 - c1) T) T = m1 at hm1 ⊢
    generalize atomicMobility R (deltaG3 R p2 c0 c1 (1 - c0 - c1) T) T = m2 at hm2 ⊢
    have hu : (0 : ℝ) < m2toum2 := by unfold m2toum2; norm_num
    have key : 0 ≤ m2toum2 * (c0 * m0 * ((1 - c0) * x - c1 * y) ^ 2 + c1 * m1 * (-c0 * x + (1 - c1) * y) ^ 2 +
        (1 - c0 - c1) * m2 * (c0 * x + c1 * y) ^ 2) := by
      have : 0 ≤ 1 - c0 - c1 := by linarith
      positivity
    nlinarith [key]
  · intro h
    have hc : (c0 = 1 ∧ c1 = 0) ∨ (c0 = 0 ∧ c1 = 1) ∨ (c0 = 0 ∧ c1 = 0) := by
      rcases h with h | h | h
      · left; exact ⟨h, by linarith⟩
      · right; left; exact ⟨by linarith, h⟩
      · right; right; exact ⟨by linarith, by linarith⟩
    rcases hc with ⟨rfl, rfl⟩ | ⟨rfl, rfl⟩ | ⟨rfl, rfl⟩ <;> simp [M, mobilityTernary]

/-- **C27**: positive definite in the interior of the simplex. -/
theorem c27_ternary_pd (R : ℝ) (hR : 0 < R) (p0 p1 p2 : MobParams) (c0 c1 T : ℝ) (hT : 0 < T)
    (h0 : 0 < c0) (h1 : 0 < c1) (h2 : c0 + c1 < 1) (x y : ℝ) (hxy : x ≠ 0 ∨ y ≠ 0) :
    let M := mobilityTernary R p0 p1 p2 c0 c1 T
    0 < M.1 * x ^ 2 + (M.2.1 + M.2.2.1) * x * y + M.2.2.2 * y ^ 2 := by
  intro M
  have hm0 := atomicMobility_pos hR hT (deltaG3 R p0 c0 c1 (1 - c0 - c1) T)
  have hm1 := atomicMobility_pos hR hT (deltaG3 R p1 c0 c1 (1 - c0 - c1) T)
  have hm2 := atomicMobility_pos hR hT (deltaG3 R p2 c0 c1 (1 - c0 - c1) T)
  simp only [M, mobilityTernary]
  generalize atomicMobility R (deltaG3 R p0 c0 c1 (1 - c0 - c1) T) T = m0 at hm0 ⊢
  generalize atomicMobility R (deltaG3 R p1 c0 c1 (1 - c0 - c1) T) T = m1 at hm1 ⊢
  generalize atomicMobility R (deltaG3 R p2 c0 c1 (1 - c0 - c1) T) T = m2 at hm2 ⊢
  have hu : (0 : ℝ) < m2toum2 := by unfold m2toum2; norm_num
  have h3 : 0 < 1 - c0 - c1 := by linarith
  have key : 0 < m2toum2 * (c0 * m0 * ((1 - c0) * x - c1 * y) ^ 2 + c1 * m1 * (-c0 * x + (1 - c1) * y) ^ 2 +
      (1 - c0 - c1) * m2 * (c0 * x + c1 * y) ^ 2) := by
    apply mul_pos hu
    by_cases hs : c0 * x + c1 * y = 0
    · have hx : (1 - c0) * x - c1 * y = x := by linarith
      have hy : -c0 * x + (1 - c1) * y = y := by linarith
      rw [hx, hy, hs]
      rcases hxy with h | h
      · have := mul_pos (mul_pos h0 hm0) (by positivity : (0 : ℝ) < x ^ 2)
        have := mul_nonneg (mul_pos h1 hm1).le (sq_nonneg y)
        linarith [show (1 - c0 - c1) * m2 * (0 : ℝ) ^ 2 = 0 by ring]
      · have := mul_pos (mul_pos h1 hm1) (by positivity : (0 : ℝ) < y ^ 2)
        have := mul_nonneg (mul_pos h0 hm0).le (sq_nonneg x)
        linarith [show (1 - c0 - c1) * m2 * (0 : ℝ) ^ 2 = 0 by ring]
    · have := mul_pos (mul_pos h3 hm2) (by positivity : (0 : ℝ) < (c0 * x + c1 * y) ^ 2)
      have := mul_nonneg (mul_pos h0 hm0).le (sq_nonneg ((1 - c0) * x - c1 * y))
      have := mul_nonneg (mul_pos h1 hm1).le (sq_nonneg (-c0 * x + (1 - c1) * y))
      linarith
  nlinarith [key]

/-- **C27**: without the third species the ternary mobility reduces to the binary one exactly if the
second- and third-order interaction parameters contribute nothing (the ternary expansion omits them). -/
theorem c27_ternary_reduces (R : ℝ) (p : MobParams) (c0 T : ℝ) :
    deltaG2 R p c0 (1 - c0) T - deltaG3 R p c0 (1 - c0) 0 T =
      c0 * (1 - c0) * (2 * c0 - 1) ^ 2 * (getQQ R p.qq2 0 1 T + (2 * c0 - 1) * getQQ R p.qq3 0 1 T) := by
  simp only [deltaG2, deltaG3]
  ring

/-- **C27**: the ternary activation energy is the Redlich-Kister expansion to first order, symmetric over the pairs:
`Σ_i c_i Q_i + Σ_{i<j} c_i c_j (L⁰_ij + (c_i - c_j) L¹_ij)`. -/
theorem c27_ternary_expansion (R : ℝ) (p : MobParams) (c : Fin 3 → ℝ) (T : ℝ) :
    deltaG3 R p (c 0) (c 1) (c 2) T = ∑ i, c i * getQ R p i T +
      ∑ i, ∑ j, if i < j then c i * c j * (getQQ R p.qq0 i j T + (c i - c j) * getQQ R p.qq1 i j T) else 0 := by
  simp [deltaG3, Fin.sum_univ_three]
  ring

/-- **C27**: the binary mobility is the same lattice-frame mobility, `Σ_k c_k M_k (δ_0k - c_0)²`, of the first species. -/
theorem c27_binary_lattice (R : ℝ) (p0 p1 : MobParams) (c0 T : ℝ) :
    let c : Fin 2 → ℝ := ![c0, 1 - c0]
    let m : Fin 2 → ℝ := ![atomicMobility R (deltaG2 R p0 c0 (1 - c0) T) T, atomicMobility R (deltaG2 R p1 c0 (1 - c0) T) T]
    mobilityBinary R p0 p1 c0 T = (∑ k, c k * m k * ((if 0 = k then 1 else 0) - c 0) ^ 2) * 1e12 := by
  simp only [mobilityBinary, m2toum2, Fin.sum_univ_two, Matrix.cons_val_zero, Matrix.cons_val_one, if_true,
    Fin.isValue, zero_ne_one, if_false]
  ring

/-- **C27**: in a pure species with positive prefactor `a₁` and no extra term, each atomic mobility follows an Arrhenius
law `a₁ exp(a₀/(RT)) / (RT)` with the coefficients of that species. -/
theorem c27_arrhenius (R T : ℝ) (hR : 0 < R) (hT : 0 < T) (p : MobParams) (hx : p.hasExtra = false) :
    (0 < (p.q 0).2 → atomicMobility R (deltaG2 R p 1 0 T) T = (p.q 0).2 * Real.exp ((p.q 0).1 / (R * T)) / (R * T)) ∧
    (0 < (p.q 1).2 → atomicMobility R (deltaG2 R p 0 1 T) T = (p.q 1).2 * Real.exp ((p.q 1).1 / (R * T)) / (R * T)) ∧
    (0 < (p.q 2).2 → atomicMobility R (deltaG3 R p 0 0 1 T) T = (p.q 2).2 * Real.exp ((p.q 2).1 / (R * T)) / (R * T)) := by
  have key : ∀ a0 a1 : ℝ, 0 < a1 →
      atomicMobility R (a0 + R * T * Real.log a1) T = a1 * Real.exp (a0 / (R * T)) / (R * T) := by
    intro a0 a1 ha
    have hRT : R * T ≠ 0 := by positivity
    unfold atomicMobility
    rw [show (a0 + R * T * Real.log a1) * (1 / (R * T)) = a0 / (R * T) + Real.log a1 by field_simp, Real.exp_add,
      Real.exp_log ha]
    ring
  refine ⟨fun h => ?_, fun h => ?_, fun h => ?_⟩
  · rw [← key _ _ h]; simp [deltaG2, getQ, hx]
  · rw [← key _ _ h]; simp [deltaG2, getQ, hx]
  · rw [← key _ _ h]; simp [deltaG3, getQ, hx]

/-- Arrhenius rate of a pair (activation term, prefactor). -/
noncomputable def arrhenius (R T : ℝ) (a : ℝ × ℝ) : ℝ := a.2 * Real.exp (a.1 / (R * T))

/-- **C27**: in a mixture the atomic mobility is `1/(RT)` times the weighted geometric mean of the Arrhenius rates of all entries:
those of the species with the compositions as weights, and the interaction entries of order `k` of a pair with weight
`c₀ c₁ (c₀ - c₁)^k`. -/
theorem c27_mixture (R T : ℝ) (hR : 0 < R) (hT : 0 < T) (p : MobParams) (hx : p.hasExtra = false)
    (hq : ∀ i, 0 < (p.q i).2) (h0 : ∀ i j, 0 < (p.qq0 i j).2) (h1 : ∀ i j, 0 < (p.qq1 i j).2)
    (h2 : ∀ i j, 0 < (p.qq2 i j).2) (h3 : ∀ i j, 0 < (p.qq3 i j).2) (c0 c1 c2 : ℝ) :
    atomicMobility R (deltaG2 R p c0 c1 T) T = 1 / (R * T) *
      (arrhenius R T (p.q 0) ^ c0 * arrhenius R T (p.q 1) ^ c1 *
        arrhenius R T (p.qq0 0 1) ^ (c0 * c1) * arrhenius R T (p.qq1 0 1) ^ (c0 * c1 * (c0 - c1)) *
        arrhenius R T (p.qq2 0 1) ^ (c0 * c1 * (c0 - c1) ^ 2) * arrhenius R T (p.qq3 0 1) ^ (c0 * c1 * (c0 - c1) ^ 3)) ∧
    atomicMobility R (deltaG3 R p c0 c1 c2 T) T = 1 / (R * T) *
      (arrhenius R T (p.q 0) ^ c0 * arrhenius R T (p.q 1) ^ c1 * arrhenius R T (p.q 2) ^ c2 *
        arrhenius R T (p.qq0 0 1) ^ (c0 * c1) * arrhenius R T (p.qq1 0 1) ^ (c0 * c1 * (c0 - c1)) *
        arrhenius R T (p.qq0 0 2) ^ (c0 * c2) * arrhenius R T (p.qq1 0 2) ^ (c0 * c2 * (c0 - c2)) *
        arrhenius R T (p.qq0 1 2) ^ (c1 * c2) * arrhenius R T (p.qq1 1 2) ^ (c1 * c2 * (c1 - c2))) := by
  have hRT : R * T ≠ 0 := by positivity
  have key : ∀ (a : ℝ × ℝ) (w : ℝ), 0 < a.2 →
      arrhenius R T a ^ w = Real.exp ((a.1 + R * T * Real.log a.2) * (1 / (R * T)) * w) := by
    intro a w ha
    have e : arrhenius R T a = Real.exp ((a.1 + R * T * Real.log a.2) * (1 / (R * T))) := by
      unfold arrhenius
      rw [show (a.1 + R * T * Real.log a.2) * (1 / (R * T)) = Real.log a.2 + a.1 / (R * T) by field_simp; ring,
        Real.exp_add, Real.exp_log ha]
    rw [e, ← Real.exp_mul]
  constructor
  · rw [key _ _ (hq 0), key _ _ (hq 1), key _ _ (h0 0 1), key _ _ (h1 0 1), key _ _ (h2 0 1), key _ _ (h3 0 1)]
    simp only [← Real.exp_add, atomicMobility, deltaG2, getQ, getQQ, hx, Bool.false_eq_true, if_false]
    rw [mul_comm]
    congr 2
    ring
  · rw [key _ _ (hq 0), key _ _ (hq 1), key _ _ (hq 2), key _ _ (h0 0 1), key _ _ (h1 0 1), key _ _ (h0 0 2), key _ _ (h1 0 2),
      key _ _ (h0 1 2), key _ _ (h1 1 2)]
    simp only [← Real.exp_add, atomicMobility, deltaG3, getQ, getQQ, hx, Bool.false_eq_true, if_false]
    rw [mul_comm]
    congr 2
    ring

example : ∃ p : MobParams, p.hasExtra = false ∧ (∀ i, 0 < (p.q i).2) ∧ (∀ i j, 0 < (p.qq0 i j).2) ∧ (∀ i j, 0 < (p.qq1 i j).2) ∧
    (∀ i j, 0 < (p.qq2 i j).2) ∧ (∀ i j, 0 < (p.qq3 i j).2) ∧ getQQ 8 p.qq0 0 1 300 ≠ 0 :=
  ⟨⟨fun _ => (-100, 2), false, fun _ => (0, 0), fun _ _ => (-5, 1), fun _ _ => (1, 1), fun _ _ => (0, 1), fun _ _ => (0, 1)⟩,
    rfl, fun _ => by norm_num, fun _ _ => by norm_num, fun _ _ => by norm_num, fun _ _ => by norm_num, fun _ _ => by norm_num,
    by norm_num [getQQ]⟩

/-- **C27**: reading the first-order terms stores every species' own coefficients when the keys present
are `qA`, `qA qB` or `qA qB qC`. -/
theorem c27_read (a b c : ℝ × ℝ) :
    initQ (fun ch => if ch = 'A' then some a else none) = some [a] ∧
    initQ (fun ch => if ch = 'A' then some a else if ch = 'B' then some b else none) = some [a, b] ∧
    initQ (fun ch => if ch = 'A' then some a else if ch = 'B' then some b else if ch = 'C' then some c else none) =
      some [a, b, c] := by
  refine ⟨?_, ?_, ?_⟩ <;> simp [initQ, speciesIndex]

/-- **C27 (violation)**: a fourth species is counted, but its coefficients overwrite those of the first. -/
theorem c27_violation_fourth (a b c d : ℝ × ℝ) :
    initQ (fun ch => if ch = 'A' then some a else if ch = 'B' then some b else if ch = 'C' then some c
      else if ch = 'D' then some d else none) = some [d, b, c, (0, 0)] := by
  simp [initQ, speciesIndex]

/-- **C27 (violation)**: a gap in the species letters writes outside the array. -/
theorem c27_violation_gap (a c : ℝ × ℝ) :
    initQ (fun ch => if ch = 'A' then some a else if ch = 'C' then some c else none) = none := by
  simp [initQ, speciesIndex]

example : (0 : ℝ) < 0.3 ∧ (0 : ℝ) < 0.2 ∧ (0.3 : ℝ) + 0.2 < 1 := by norm_num

/-! ## C28 -/

/-- **C28**: at rest the coefficient is the equilibrium one, and it depends on the speed only. -/
theorem c28_rest (vd ke v : ℝ) (hke : 0 < ke) :
    azizCoefficient vd ke 0 = ke ∧ azizCoefficient vd ke (-v) = azizCoefficient vd ke v := by
  constructor
  · unfold azizCoefficient
    simp only [abs_zero, zero_mul, add_zero]
    split_ifs
    · simp
    · field_simp
  · unfold azizCoefficient; simp only [abs_neg]

/-- **C28**: the equilibrium coefficient is the configured one if positive; otherwise it turns the equilibrium composition of
the liquid into that of the solid, and for positive compositions so does the coefficient at rest. -/
theorem c28_equilibrium (keq cl ca : ℝ) :
    (0 < keq → ∀ ceq, computeKeq keq ceq = keq) ∧
    (keq ≤ 0 → cl ≠ 0 → computeKeq keq (some (cl, ca)) * cl = ca) ∧
    (keq ≤ 0 → 0 < cl → 0 < ca → 0 < computeKeq keq (some (cl, ca)) ∧
      azizCoefficient 1 (computeKeq keq (some (cl, ca))) 0 * cl = ca) := by
  have h2 : keq ≤ 0 → cl ≠ 0 → computeKeq keq (some (cl, ca)) * cl = ca := by
    intro h hc
    simp only [computeKeq, gt_iff_lt, not_lt.mpr h, if_false]
    field_simp
  refine ⟨fun h ceq => by simp [computeKeq, h], h2, fun h hl ha => ?_⟩
  have h3 : 0 < computeKeq keq (some (cl, ca)) := by
    simp only [computeKeq, gt_iff_lt, not_lt.mpr h, if_false]
    positivity
  exact ⟨h3, by rw [(c28_rest 1 _ 0 h3).1]; exact h2 h hl.ne'⟩

/-- **C28**: the coefficient lies between the equilibrium value and one. -/
theorem c28_bounds (vd ke v : ℝ) (hvd : 0 < vd) (hke : 0 < ke) :
    (ke < 1 → ke ≤ azizCoefficient vd ke v ∧ azizCoefficient vd ke v < 1) ∧
    (1 ≤ ke → 1 ≤ azizCoefficient vd ke v ∧ azizCoefficient vd ke v ≤ ke) ∧
    0 < azizCoefficient vd ke v := by
  have hs : 0 ≤ |v| * (1 / vd) := by positivity
  unfold azizCoefficient
  simp only
  generalize |v| * (1 / vd) = s at hs
  refine ⟨?_, ?_, ?_⟩
  · intro h
    rw [if_pos h]
    constructor
    · rw [le_div_iff₀ (by linarith)]; nlinarith
    · rw [div_lt_one (by linarith)]; linarith
  · intro h
    rw [if_neg (not_lt.mpr h)]
    have hinv : 1 / ke ≤ 1 := by rw [div_le_one hke]; exact h
    have hip : 0 < 1 / ke := by positivity
    constructor
    · rw [le_div_iff₀ (by linarith)]; linarith
    · rw [div_le_iff₀ (by linarith), mul_add, mul_one_div_cancel hke.ne']; nlinarith
  · split_ifs <;> positivity

/-- **C28**: monotone in the speed: increasing for `ke < 1`, decreasing for `ke ≥ 1`. -/
theorem c28_monotone (vd ke v w : ℝ) (hvd : 0 < vd) (hke : 0 < ke) (h : |v| ≤ |w|) :
    (ke < 1 → azizCoefficient vd ke v ≤ azizCoefficient vd ke w) ∧
    (1 ≤ ke → azizCoefficient vd ke w ≤ azizCoefficient vd ke v) := by
  have hs : 0 ≤ |v| * (1 / vd) := by positivity
  have hst : |v| * (1 / vd) ≤ |w| * (1 / vd) := mul_le_mul_of_nonneg_right h (by positivity)
  unfold azizCoefficient
  simp only
  generalize |v| * (1 / vd) = s at hs hst
  generalize |w| * (1 / vd) = t at hst
  constructor
  · intro hk
    rw [if_pos hk, if_pos hk, div_le_div_iff₀ (by linarith) (by linarith)]
    nlinarith
  · intro hk
    have hip : 0 < 1 / ke := by positivity
    have hinv : 1 / ke ≤ 1 := by rw [div_le_one hke]; exact hk
    rw [if_neg (not_lt.mpr hk), if_neg (not_lt.mpr hk), div_le_div_iff₀ (by linarith) (by linarith)]
    nlinarith

/-- **C28**: reciprocal law: exchanging the roles of the phases inverts the coefficient. -/
theorem c28_reciprocal (vd ke v : ℝ) (hvd : 0 < vd) (hke : 0 < ke) :
    azizCoefficient vd (1 / ke) v = 1 / azizCoefficient vd ke v := by
  have hs : 0 ≤ |v| * (1 / vd) := by positivity
  unfold azizCoefficient
  simp only
  generalize |v| * (1 / vd) = s at hs
  have hip : 0 < 1 / ke := by positivity
  rcases lt_trichotomy ke 1 with h | h | h
  · have h1 : ¬ (1 / ke < 1) := by
      rw [not_lt, le_div_iff₀ hke]; linarith
    rw [if_neg h1, if_pos h, one_div_one_div, one_div_div]
  · subst h; simp [div_self (show (1 : ℝ) + s ≠ 0 by linarith)]
  · have h1 : 1 / ke < 1 := by rw [div_lt_one hke]; exact h
    rw [if_pos h1, if_neg (not_lt.mpr h.le), one_div_div]

/-- **C28**: at high speed there is no partitioning: the distance to one is at most `|ke - 1| max(ke,1)`
times `vd / |v|`; hence the coefficient tends to one. -/
theorem c28_limit (vd ke v : ℝ) (hvd : 0 < vd) (hke : 0 < ke) (hv : v ≠ 0) :
    |azizCoefficient vd ke v - 1| ≤ |1 - min ke (1 / ke)| * (vd / |v|) := by
  have hvp : 0 < |v| := abs_pos.mpr hv
  have hs : 0 < |v| * (1 / vd) := by positivity
  have hr : vd / |v| = 1 / (|v| * (1 / vd)) := by field_simp
  unfold azizCoefficient
  simp only
  rw [hr]
  generalize |v| * (1 / vd) = s at hs
  have hip : 0 < 1 / ke := by positivity
  by_cases h : ke < 1
  · have h1 : ke ≤ 1 / ke := by
      rw [le_div_iff₀ hke]; nlinarith
    rw [if_pos h, min_eq_left h1]
    have e : (ke + s) / (1 + s) - 1 = -((1 - ke) / (1 + s)) := by field_simp; ring
    rw [e, abs_neg, abs_of_nonneg (by apply div_nonneg <;> linarith), abs_of_nonneg (by linarith), mul_one_div]
    exact div_le_div_of_nonneg_left (by linarith) hs (by linarith)
  · have hk : 1 ≤ ke := not_lt.mp h
    have hinv : 1 / ke ≤ 1 := by rw [div_le_one hke]; exact hk
    rw [if_neg h, min_eq_right (by linarith)]
    have e : (1 + s) / (1 / ke + s) - 1 = (1 - 1 / ke) / (1 / ke + s) := by
      have : 1 / ke + s ≠ 0 := by linarith
      field_simp
      ring
    rw [e, abs_of_nonneg (by apply div_nonneg <;> linarith), abs_of_nonneg (by linarith), mul_one_div]
    exact div_le_div_of_nonneg_left (by linarith) hs (by linarith)

/-- **C28**: the phase-splitting routine requires a coefficient of at most one (it asserts this); this holds
exactly if the equilibrium coefficient is at most one. -/
theorem c28_at_most_one (vd ke v : ℝ) (hvd : 0 < vd) (hke : 0 < ke) :
    azizCoefficient vd ke v ≤ 1 ↔ ke ≤ 1 := by
  have hs : 0 ≤ |v| * (1 / vd) := by positivity
  constructor
  · intro h
    by_contra hc
    have hc : 1 < ke := not_le.mp hc
    unfold azizCoefficient at h
    simp only at h
    generalize |v| * (1 / vd) = s at hs h
    have hip : 0 < 1 / ke := by positivity
    have hinv : 1 / ke < 1 := by rw [div_lt_one hke]; exact hc
    rw [if_neg (not_lt.mpr hc.le), div_le_one (by linarith)] at h
    linarith
  · intro h
    rcases h.lt_or_eq with h | h
    · exact ((c28_bounds vd ke v hvd hke).1 h).2.le
    · have := ((c28_bounds vd ke v hvd hke).2.1 h.ge).2
      rw [h] at this ⊢; exact this

example : azizCoefficient 2 (1 / 2) (-2) = 3 / 4 := by
  unfold azizCoefficient
  rw [abs_neg, abs_of_pos (by norm_num), if_pos (by norm_num)]
  norm_num

/-! ## C29 -/

/-- **C29**: for `k > 0` and a solid fraction in [0,1] the split exists, reproduces the composition,
keeps the ratio `k`, and is the only split that does. -/
theorem c29_split (k h c : ℝ) (hk : 0 < k) (h0 : 0 ≤ h) (h1 : h ≤ 1) :
    ∃ cl ca, partitionPhases k h c = some (cl, ca) ∧ (1 - h) * cl + h * ca = c ∧ ca = k * cl ∧
      ∀ x y, (1 - h) * x + h * y = c → y = k * x → x = cl ∧ y = ca := by
  have hd : 0 < 1 - h + k * h := by
    rcases h1.lt_or_eq with h1 | h1
    · have := mul_nonneg hk.le h0; linarith
    · rw [h1]; linarith
  refine ⟨c * (1 / (1 - h + k * h)), k * c * (1 / (1 - h + k * h)), ?_, ?_, ?_, ?_⟩
  · unfold partitionPhases; rw [if_neg hd.ne']
  · have he : (1 - h) * (c * (1 / (1 - h + k * h))) + h * (k * c * (1 / (1 - h + k * h))) =
        c * ((1 - h + k * h) * (1 / (1 - h + k * h))) := by ring1
    rw [he, mul_one_div_cancel hd.ne', mul_one]
  · ring
  · intro x y hx hy
    have hxe : x = c * (1 / (1 - h + k * h)) := by
      rw [mul_one_div, eq_div_iff hd.ne']; rw [hy] at hx; linarith
    exact ⟨hxe, by rw [hy, hxe]; ring⟩

/-- **C29**: for `k ≤ 1` and a non-negative composition the solid is poorer and the liquid richer than
the mixture. -/
theorem c29_order (k h c cl ca : ℝ) (hk : 0 < k) (hk1 : k ≤ 1) (h0 : 0 ≤ h) (h1 : h ≤ 1) (hc : 0 ≤ c)
    (hp : partitionPhases k h c = some (cl, ca)) : 0 ≤ ca ∧ ca ≤ c ∧ c ≤ cl := by
  have hd : 0 < 1 - h + k * h := by
    rcases h1.lt_or_eq with h1 | h1
    · have := mul_nonneg hk.le h0; linarith
    · rw [h1]; linarith
  unfold partitionPhases at hp
  rw [if_neg hd.ne'] at hp
  simp only [Option.some.injEq, Prod.mk.injEq] at hp
  obtain ⟨rfl, rfl⟩ := hp
  refine ⟨by positivity, ?_, ?_⟩
  · rw [mul_one_div, div_le_iff₀ hd]
    have : k ≤ 1 - h + k * h := by nlinarith
    nlinarith
  · rw [mul_one_div, le_div_iff₀ hd]
    have : 1 - h + k * h ≤ 1 := by nlinarith
    nlinarith

/-- **C29 (violation)**: the code accepts `k = 0` (it only asserts `k >= 0`), and then divides by zero in
the solid; for admissible data this is the only failure. -/
theorem c29_violation_zero (k h c : ℝ) (hk : 0 ≤ k) (h0 : 0 ≤ h) (h1 : h ≤ 1) :
    partitionPhases k h c = none ↔ k = 0 ∧ h = 1 := by
  unfold partitionPhases
  constructor
  · intro hp
    split_ifs at hp with hz
    have h2 := mul_nonneg hk h0
    have : h = 1 := by linarith
    exact ⟨by rw [this] at hz; linarith, this⟩
  · rintro ⟨rfl, rfl⟩
    rw [if_pos (by ring)]

example : partitionPhases (1 / 2) (1 / 2) (3 / 4) = some (1, 1 / 2) := by
  unfold partitionPhases; rw [if_neg (by norm_num)]; norm_num

/-! ## C30 -/

/-- Specification: the target lies ahead of the ramp (or none is set for heating). -/
def ScalarTempOk (s : ScalarTemp) : Prop :=
  (s.rate < 0 → s.target ≤ s.t0) ∧ (0 < s.rate → 0 < s.target → s.t0 ≤ s.target)

/-- **C30**: with the target ahead, the temperature starts at the initial value, follows the ramp until
the target and stays there: it is the ramp cut off at the target. -/
theorem c30_ramp (s : ScalarTemp) (hok : ScalarTempOk s) (time : ℝ) :
    s.current 0 = s.t0 ∧
    (s.rate = 0 → s.current time = s.t0) ∧
    (s.rate < 0 → s.current time = max (s.t0 + s.rate * time) s.target) ∧
    (0 < s.rate → 0 < s.target → s.current time = min (s.t0 + s.rate * time) s.target) ∧
    (0 < s.rate → s.target ≤ 0 → s.current time = s.t0 + s.rate * time) := by
  unfold ScalarTemp.current
  simp only
  refine ⟨?_, ?_, ?_, ?_, ?_⟩
  · simp only [mul_zero, add_zero]
    split_ifs with h1 h2
    · have := hok.1 h1.1; linarith [h1.2]
    · have := hok.2 h2.2.1 h2.1; linarith [h2.2.2]
    · rfl
  · intro h
    rw [if_neg (by rw [h]; simp), if_neg (by rw [h]; simp), h]; ring
  · intro h
    split_ifs with h1 h2
    · rw [max_eq_right h1.2.le]
    · linarith [h2.2.1]
    · rw [max_eq_left]
      by_contra hc
      exact h1 ⟨h, not_le.mp hc⟩
  · intro h ht
    rw [if_neg (by intro hc; linarith [hc.1])]
    split_ifs with h2
    · rw [min_eq_right h2.2.2.le]
    · rw [min_eq_left]
      by_contra hc
      exact h2 ⟨ht, h, not_le.mp hc⟩
  · intro h ht
    rw [if_neg (by intro hc; linarith [hc.1]), if_neg (by intro hc; linarith [hc.1])]

/-- **C30**: once reached, the target is kept; the temperature is monotone in time. -/
theorem c30_monotone (s : ScalarTemp) (hok : ScalarTempOk s) (t1 t2 : ℝ) (h : t1 ≤ t2) :
    (s.rate < 0 → s.current t2 ≤ s.current t1) ∧ (0 < s.rate → s.current t1 ≤ s.current t2) := by
  constructor
  · intro hr
    rw [(c30_ramp s hok t1).2.2.1 hr, (c30_ramp s hok t2).2.2.1 hr]
    exact max_le_max (by nlinarith) le_rfl
  · intro hr
    by_cases ht : 0 < s.target
    · rw [(c30_ramp s hok t1).2.2.2.1 hr ht, (c30_ramp s hok t2).2.2.2.1 hr ht]
      exact min_le_min (by nlinarith) le_rfl
    · rw [(c30_ramp s hok t1).2.2.2.2 hr (not_lt.mp ht), (c30_ramp s hok t2).2.2.2.2 hr (not_lt.mp ht)]
      nlinarith

/-- **C30**: after the field was set at time zero and at any later times, it holds the prescribed
temperature of the last call (also for a constant temperature, which is only written at time zero). -/
theorem c30_field (s : ScalarTemp) (hok : ScalarTempOk s) (times : List ℝ) (last field : ℝ) :
    ((0 :: times) ++ [last]).foldl s.set field = s.current last := by
  by_cases hr : s.rate = 0
  · have hc : ∀ t, s.current t = s.t0 := fun t => (c30_ramp s hok t).2.1 hr
    have hs : ∀ t, s.set s.t0 t = s.t0 := by
      intro t; unfold ScalarTemp.set; split_ifs
      · exact hc t
      · rfl
    have h0 : s.set field 0 = s.t0 := by
      unfold ScalarTemp.set; rw [if_pos (Or.inr rfl)]; exact hc 0
    rw [List.cons_append, List.foldl_cons, h0, hc]
    induction times ++ [last] with
    | nil => rfl
    | cons a l ih => rw [List.foldl_cons, hs]; exact ih
  · rw [List.foldl_append]
    simp only [List.foldl_cons, List.foldl_nil]
    unfold ScalarTemp.set
    rw [if_pos (Or.inl hr)]

/-- **C30 (violation)**: a target behind the initial value replaces the initial temperature at once: a
cooling ramp with a target above (or a heating ramp with a target below) the initial value starts at the
target. -/
theorem c30_violation_target (s : ScalarTemp) :
    (s.rate < 0 → s.t0 < s.target → s.current 0 = s.target) ∧
    (0 < s.rate → 0 < s.target → s.target < s.t0 → s.current 0 = s.target) := by
  unfold ScalarTemp.current
  simp only [mul_zero, add_zero]
  constructor
  · intro h1 h2; rw [if_pos ⟨h1, h2⟩]
  · intro h1 h2 h3
    rw [if_neg (by intro hc; linarith [hc.1]), if_pos ⟨h2, h1, h3⟩]

/-- **C30 (violation)**: without a time-zero call (a run continued at a later time) a constant temperature
is never written. -/
theorem c30_violation_constant (s : ScalarTemp) (hr : s.rate = 0) (times : List ℝ) (h : ∀ t ∈ times, t ≠ 0)
    (field : ℝ) : times.foldl s.set field = field := by
  induction times with
  | nil => rfl
  | cons a l ih =>
    have ha : s.set field a = field := by
      unfold ScalarTemp.set
      rw [if_neg]
      rintro (h1 | h1)
      · exact h1 hr
      · exact h a List.mem_cons_self h1
    rw [List.foldl_cons, ha]
    exact ih fun t ht => h t (List.mem_cons_of_mem _ ht)

example : ScalarTempOk ⟨1000, -2, 900⟩ := ⟨fun _ => by norm_num, fun h => by norm_num at h⟩

/-! ## C45 -/

/-- **C45**: every adaptation changes the velocity by at most the bound. -/
theorem c45_bounded (f : Frame) (h : 0 ≤ f.maxAccel) (time vol v v' : ℝ) (f' : Frame)
    (hr : f.adapt time vol v = some (v', f')) : |v' - v| ≤ f.maxAccel := by
  unfold Frame.adapt at hr
  simp only at hr
  split_ifs at hr with h1 h2 h3
  · simp only [Option.some.injEq, Prod.mk.injEq] at hr
    rw [← hr.1]; simpa using h
  · simp only [Option.some.injEq, Prod.mk.injEq] at hr
    rw [← hr.1, add_sub_cancel_left, abs_mul, abs_div, abs_abs, abs_of_nonneg h]
    have : |f.lx * (vol * f.volInv - f.prevFs) * (1 / (time - f.prevTime))| ≠ 0 := by
      intro h0; rw [h0] at h3; linarith
    rw [mul_div_cancel₀ _ this]
  · simp only [Option.some.injEq, Prod.mk.injEq] at hr
    rw [← hr.1, add_sub_cancel_left]
    exact not_lt.mp h3

/-- **C45**: the velocity is unchanged if the solid fraction did not change, grows if the solid fraction
grew (the front runs ahead of the frame) and falls if it shrank. -/
theorem c45_direction (f : Frame) (h : 0 < f.maxAccel) (hl : 0 < f.lx) (time vol v v' : ℝ) (f' : Frame)
    (ht : f.prevTime < time) (hf : f.first = false) (hr : f.adapt time vol v = some (v', f')) :
    (vol * f.volInv = f.prevFs → v' = v) ∧ (f.prevFs < vol * f.volInv → v < v') ∧
    (vol * f.volInv < f.prevFs → v' < v) := by
  unfold Frame.adapt at hr
  have hdt : 0 < 1 / (time - f.prevTime) := by have : 0 < time - f.prevTime := by linarith
                                               positivity
  simp only [hf, Bool.false_eq_true, if_false] at hr
  rw [if_neg (by linarith)] at hr
  simp only [Option.some.injEq, Prod.mk.injEq] at hr
  set d := f.lx * (vol * f.volInv - f.prevFs) * (1 / (time - f.prevTime)) with hd
  have hv : v' = v + (if |d| > f.maxAccel then d * (f.maxAccel / |d|) else d) := hr.1.symm
  refine ⟨?_, ?_, ?_⟩
  · intro he
    have : d = 0 := by rw [hd, he]; ring
    rw [hv, this]; simp [not_lt.mpr h.le]
  · intro he
    have hdp : 0 < d := by
      rw [hd]; exact mul_pos (mul_pos hl (by linarith)) hdt
    rw [hv]
    split_ifs
    · have := mul_pos hdp (div_pos h (abs_pos.mpr hdp.ne')); linarith
    · linarith
  · intro he
    have hdp : d < 0 := by
      rw [hd]; exact mul_neg_of_neg_of_pos (mul_neg_of_pos_of_neg hl (by linarith)) hdt
    rw [hv]
    split_ifs
    · have := mul_neg_of_neg_of_pos hdp (div_pos h (abs_pos.mpr hdp.ne)); linarith
    · linarith

/-- **C45**: when the front is slower relative to the frame than the bound, one adaptation makes the
frame move exactly with the mean front velocity: new velocity = old velocity + growth rate of the solid
length `lx * fs`. -/
theorem c45_tracks (f : Frame) (time vol v : ℝ) (ht : f.prevTime < time) (hf : f.first = false)
    (hb : |f.lx * (vol * f.volInv - f.prevFs) / (time - f.prevTime)| ≤ f.maxAccel) :
    ∃ f', f.adapt time vol v = some (v + (f.lx * (vol * f.volInv) - f.lx * f.prevFs) / (time - f.prevTime), f') ∧
      f'.prevTime = time ∧ f'.prevFs = vol * f.volInv ∧ f'.first = false ∧ f'.maxAccel = f.maxAccel := by
  refine ⟨{ f with first := false, prevTime := time, prevFs := vol * f.volInv }, ?_, rfl, rfl, rfl, rfl⟩
  unfold Frame.adapt
  simp only [hf, Bool.false_eq_true, if_false]
  rw [if_neg (by linarith), if_neg]
  · simp only [Option.some.injEq, Prod.mk.injEq, and_true]
    ring
  · rw [mul_one_div]; exact not_lt.mpr hb

/-- **C45**: the first call never changes the velocity and records the current state. -/
theorem c45_first (fv lx vol t fs time v sv : ℝ) :
    ∃ f', (Frame.init fv lx vol t fs).adapt time sv v = some (v, f') ∧ f'.prevTime = time ∧
      f'.prevFs = sv * (1 / vol) ∧ f'.first = false := by
  refine ⟨{ Frame.init fv lx vol t fs with first := false, prevTime := time, prevFs := sv * (1 / vol) }, ?_, rfl,
    rfl, rfl⟩
  unfold Frame.adapt Frame.init
  simp

/-- **C45 (violation)**: the bound is the initial frame velocity, so a frame started at rest never
follows the front, whatever the growth. -/
theorem c45_violation_rest (f : Frame) (h : f.maxAccel = 0) (time vol v v' : ℝ) (f' : Frame)
    (hr : f.adapt time vol v = some (v', f')) : v' = v := by
  have := c45_bounded f h.ge time vol v v' f' hr
  rw [h] at this
  have h0 := abs_nonpos_iff.mp this
  linarith

/-- **C45 (violation)**: two calls at the same time give no finite velocity. -/
theorem c45_violation_same_time (f : Frame) (hf : f.first = false) (vol v : ℝ) :
    f.adapt f.prevTime vol v = none := by
  unfold Frame.adapt
  simp [hf]

example : ∃ f', (⟨1, 10, 1 / 100, false, 0, 1 / 2⟩ : Frame).adapt 1 55 2 = some (5 / 2, f') := by
  obtain ⟨f', h, _⟩ := c45_tracks ⟨1, 10, 1 / 100, false, 0, 1 / 2⟩ 1 55 2 (by norm_num) rfl
    (by rw [abs_le]; constructor <;> norm_num)
  refine ⟨f', ?_⟩
  rw [h]; norm_num

/-! ## C47 -/

/-- **C47**: the pair-to-single map is symmetric, has range 1..3 (2D) resp. 1..6 (3D), hits every value,
and two pairs share an index exactly if they are equal up to order. -/
theorem c47_single :
    (∀ i ∈ Finset.Icc (1 : ℤ) 2, ∀ j ∈ Finset.Icc (1 : ℤ) 2, singleIndex2d i j = singleIndex2d j i ∧
      singleIndex2d i j ∈ Finset.Icc (1 : ℤ) 3 ∧ ∀ k ∈ Finset.Icc (1 : ℤ) 2, ∀ l ∈ Finset.Icc (1 : ℤ) 2,
        (singleIndex2d i j = singleIndex2d k l ↔ (i = k ∧ j = l) ∨ (i = l ∧ j = k))) ∧
    (∀ n ∈ Finset.Icc (1 : ℤ) 3, ∃ i ∈ Finset.Icc (1 : ℤ) 2, ∃ j ∈ Finset.Icc (1 : ℤ) 2, singleIndex2d i j = n) ∧
    (∀ i ∈ Finset.Icc (1 : ℤ) 3, ∀ j ∈ Finset.Icc (1 : ℤ) 3, singleIndex3d i j = singleIndex3d j i ∧
      singleIndex3d i j ∈ Finset.Icc (1 : ℤ) 6 ∧ ∀ k ∈ Finset.Icc (1 : ℤ) 3, ∀ l ∈ Finset.Icc (1 : ℤ) 3,
        (singleIndex3d i j = singleIndex3d k l ↔ (i = k ∧ j = l) ∨ (i = l ∧ j = k))) ∧
    (∀ n ∈ Finset.Icc (1 : ℤ) 6, ∃ i ∈ Finset.Icc (1 : ℤ) 3, ∃ j ∈ Finset.Icc (1 : ℤ) 3, singleIndex3d i j = n) := by
  refine ⟨?_, ?_, ?_, ?_⟩ <;> decide

/-- Specification: row-wise packing of the upper triangle of an `n` by `n` symmetric matrix: entry
`(i, j)`, `i ≤ j`, comes after the `i - 1` full rows above it. -/
def upperTriangle (n i j : ℤ) : ℤ := (∑ r ∈ Finset.range (i - 1).toNat, (n - r)) + (j - i) + 1

/-- **C47**: the storage index is the row-wise packing of the upper triangle of a 3 by 3 (2D) resp. 6 by 6
(3D) symmetric matrix. -/
theorem c47_storage_packing :
    (∀ i ∈ Finset.Icc (1 : ℤ) 3, ∀ j ∈ Finset.Icc (1 : ℤ) 3,
      storageIndex2d i j = upperTriangle 3 (min i j) (max i j)) ∧
    (∀ i ∈ Finset.Icc (1 : ℤ) 6, ∀ j ∈ Finset.Icc (1 : ℤ) 6,
      storageIndex3d i j = upperTriangle 6 (min i j) (max i j)) := by
  refine ⟨?_, ?_⟩ <;> decide

/-- **C47**: the storage index is a bijection from unordered pairs to the 6 resp. 21 slots. -/
theorem c47_storage :
    (∀ i ∈ Finset.Icc (1 : ℤ) 3, ∀ j ∈ Finset.Icc (1 : ℤ) 3, storageIndex2d i j = storageIndex2d j i ∧
      storageIndex2d i j ∈ Finset.Icc (1 : ℤ) 6 ∧ ∀ k ∈ Finset.Icc (1 : ℤ) 3, ∀ l ∈ Finset.Icc (1 : ℤ) 3,
        (storageIndex2d i j = storageIndex2d k l ↔ (i = k ∧ j = l) ∨ (i = l ∧ j = k))) ∧
    (∀ n ∈ Finset.Icc (1 : ℤ) 6, ∃ i ∈ Finset.Icc (1 : ℤ) 3, ∃ j ∈ Finset.Icc (1 : ℤ) 3, storageIndex2d i j = n) ∧
    (∀ i ∈ Finset.Icc (1 : ℤ) 6, ∀ j ∈ Finset.Icc (1 : ℤ) 6, storageIndex3d i j = storageIndex3d j i ∧
      storageIndex3d i j ∈ Finset.Icc (1 : ℤ) 21 ∧ ∀ k ∈ Finset.Icc (1 : ℤ) 6, ∀ l ∈ Finset.Icc (1 : ℤ) 6,
        (storageIndex3d i j = storageIndex3d k l ↔ (i = k ∧ j = l) ∨ (i = l ∧ j = k))) ∧
    (∀ n ∈ Finset.Icc (1 : ℤ) 21, ∃ i ∈ Finset.Icc (1 : ℤ) 6, ∃ j ∈ Finset.Icc (1 : ℤ) 6, storageIndex3d i j = n) := by
  refine ⟨?_, ?_, ?_, ?_⟩ <;> decide +kernel

/-- **C47**: the two maps together address a stiffness tensor `C_ijkl`: two elements share a slot exactly
if they are related by the minor and major symmetries. -/
theorem c47_tensor (i j k l i' j' k' l' : ℤ) (hi : i ∈ Finset.Icc (1 : ℤ) 3) (hj : j ∈ Finset.Icc (1 : ℤ) 3)
    (hk : k ∈ Finset.Icc (1 : ℤ) 3) (hl : l ∈ Finset.Icc (1 : ℤ) 3) (hi' : i' ∈ Finset.Icc (1 : ℤ) 3)
    (hj' : j' ∈ Finset.Icc (1 : ℤ) 3) (hk' : k' ∈ Finset.Icc (1 : ℤ) 3) (hl' : l' ∈ Finset.Icc (1 : ℤ) 3) :
    storageIndex3d (singleIndex3d i j) (singleIndex3d k l) =
      storageIndex3d (singleIndex3d i' j') (singleIndex3d k' l') ↔
    (((i = i' ∧ j = j') ∨ (i = j' ∧ j = i')) ∧ ((k = k' ∧ l = l') ∨ (k = l' ∧ l = k'))) ∨
    (((i = k' ∧ j = l') ∨ (i = l' ∧ j = k')) ∧ ((k = i' ∧ l = j') ∨ (k = j' ∧ l = i'))) := by
  have s := c47_single.2.2.1
  have t := c47_storage.2.2.1
  rw [(t _ (s i hi j hj).2.1 _ (s k hk l hl).2.1).2.2 _ (s i' hi' j' hj').2.1 _ (s k' hk' l' hl').2.1]
  rw [(s i hi j hj).2.2 i' hi' j' hj', (s k hk l hl).2.2 k' hk' l' hl', (s i hi j hj).2.2 k' hk' l' hl',
    (s k hk l hl).2.2 i' hi' j' hj']

example : storageIndex3d (singleIndex3d 1 3) (singleIndex3d 2 2) = 10 := by decide

end AMPE.Coefficients.Props
