import Verif.Model.InterfaceDiff
import Verif.Props.DiffCoeff
import Mathlib.Algebra.BigOperators.Intervals
import Mathlib.Algebra.BigOperators.Field
import Mathlib.Algebra.BigOperators.Ring.Finset
import Mathlib.Tactic.LinearCombination

/-!
# Properties of the interface constants (C113)
-/

namespace AMPE.InterfaceDiff.Props

open AMPE.Flux AMPE.Flux.Props AMPE.DiffCoeff AMPE.DiffCoeff.Props AMPE.InterfaceDiff Finset

/-! ## Specification: grains, phases, constants -/

/-- Phase of order parameter `g`: liquid, A, B in the three-phase model; otherwise the grains of A, then those of B, and the
liquid last. -/
def phaseOf (s : Strategy) (g : ℕ) : Fin 3 :=
  if s.with3 then (if g = 0 then 0 else if g = 1 then 1 else 2)
  else if g < s.nA then 1 else if g < s.nA + s.nB then 2 else 0

/-- Configurations built by the factory. -/
def Configured (s : Strategy) : Prop :=
  (s.with3 = true ∧ s.norderp = 3 ∧ s.nA = 1 ∧ s.nB = 1 ∧ s.withB = true) ∨
  (s.with3 = false ∧ s.norderp = s.nA + s.nB + 1 ∧ s.withB = decide (0 < s.nB))

/-- The constant the user gave for the interface of two phases, in either order; none for two liquids. -/
def given (s : Strategy) (P Q : Fin 3) : Option Arrhenius :=
  match P, Q with
  | 0, 1 | 1, 0 => some s.LA
  | 0, 2 | 2, 0 => some s.LB
  | 1, 1 => some s.AA
  | 1, 2 | 2, 1 => some s.AB
  | 2, 2 => some s.BB
  | _, _ => none

/-- Diffusivity of an interface at temperature `T`; a constant that is not positive counts as absent. -/
noncomputable def diffusivity (R T : ℝ) (m : Option Arrhenius) : ℝ :=
  match m with
  | some m => if 0 < m.d0 then m.d0 * Real.exp (-(m.q0 / (R * T))) else 0
  | none => 0

/-- How much of the cell is interface between two grains: zero unless both fractions exceed 1 %, one where both are one
half. -/
noncomputable def overlap (p q : ℝ) : ℝ :=
  if 0.01 < p ∧ 0.01 < q then ((p - 0.01) / 0.49) ^ 2 * ((q - 0.01) / 0.49) ^ 2 else 0

/-- Interface diffusion of phase `P` in cell `c`: every unordered pair of different grains of which at least one is of
phase `P`. -/
noncomputable def interfacial (s : Strategy) (R : ℝ) (temp : Field2) (phi : ℕ → Field2) (P : Fin 3) (c : ℤ × ℤ) : ℝ :=
  ∑ g ∈ range s.norderp, ∑ h ∈ range s.norderp,
    if g < h ∧ (phaseOf s g = P ∨ phaseOf s h = P) then
      diffusivity R (temp c.1 c.2) (given s (phaseOf s g) (phaseOf s h)) * overlap (phi g c.1 c.2) (phi h c.1 c.2)
    else 0

/-! ## Lemmas -/

theorem overlap_symm (p q : ℝ) : overlap p q = overlap q p := by
  unfold overlap
  by_cases hp : (0.01:ℝ) < p <;> by_cases hq : (0.01:ℝ) < q <;> simp [hp, hq] <;> ring

theorem given_symm (s : Strategy) (P Q : Fin 3) : given s P Q = given s Q P := by
  fin_cases P <;> fin_cases Q <;> rfl

theorem dAB_eq (d p q : ℝ) : dAB d p q = d * overlap p q / 2 := by
  unfold dAB overlap thr
  by_cases hp : (0.01:ℝ) < p <;> by_cases hq : (0.01:ℝ) < q <;> simp [hp, hq] <;> ring

theorem cellD_sum (nA nB : ℕ) (same : Bool) (d : Field2) (pa pb : ℕ → Field2) (c : ℤ × ℤ) :
    cellD nA nB same d pa pb c = ∑ a ∈ range nA, ∑ b ∈ range nB,
      if same = false ∨ a < b then d c.1 c.2 * overlap (pa a c.1 c.2) (pb b c.1 c.2) / 2 else 0 := by
  obtain ⟨h1, h2, h3, h4⟩ := c61_pairs nA nB
  have hn : (phasePairs nA nB same).Nodup := by cases same <;> assumption
  unfold cellD
  rw [← List.sum_toFinset _ hn]
  have : (phasePairs nA nB same).toFinset = ((range nA) ×ˢ (range nB)).filter fun ab => same = false ∨ ab.1 < ab.2 := by
    ext ⟨a, b⟩
    cases same
    · simp [h3]
    · simp [h4, and_assoc]
  rw [this, Finset.sum_filter, Finset.sum_product]
  simp only [dAB_eq]

/-- Sum over unordered pairs, split by the three blocks. -/
theorem pair_split (nA nB : ℕ) (T : ℕ → ℕ → ℝ) :
    (∑ g ∈ range (nA + nB + 1), ∑ h ∈ range (nA + nB + 1), if g < h then T g h else 0) =
      (∑ a ∈ range nA, ∑ b ∈ range nA, if a < b then T a b else 0)
      + (∑ a ∈ range nB, ∑ b ∈ range nB, if a < b then T (nA + a) (nA + b) else 0)
      + (∑ a ∈ range nA, ∑ b ∈ range nB, T a (nA + b))
      + (∑ a ∈ range nA, T a (nA + nB)) + (∑ b ∈ range nB, T (nA + b) (nA + nB)) := by
  have key : ∀ g, (∑ h ∈ range (nA + nB + 1), if g < h then T g h else 0) =
      (∑ b ∈ range nA, if g < b then T g b else 0) + (∑ b ∈ range nB, if g < nA + b then T g (nA + b) else 0)
      + if g < nA + nB then T g (nA + nB) else 0 := by
    intro g
    rw [sum_range_succ, sum_range_add]
  rw [sum_range_succ, sum_range_add]
  simp only [key]
  have z : ((∑ b ∈ range nA, if nA + nB < b then T (nA + nB) b else 0) +
      (∑ b ∈ range nB, if nA + nB < nA + b then T (nA + nB) (nA + b) else 0) +
      if nA + nB < nA + nB then T (nA + nB) (nA + nB) else 0) = 0 := by
    rw [sum_eq_zero, sum_eq_zero, if_neg (by omega)]
    · ring
    · intro b hb; rw [mem_range] at hb; rw [if_neg (by omega)]
    · intro b hb; rw [mem_range] at hb; rw [if_neg (by omega)]
  have e1 : (∑ x ∈ range nA, ((∑ b ∈ range nA, if x < b then T x b else 0) +
      (∑ b ∈ range nB, if x < nA + b then T x (nA + b) else 0) + if x < nA + nB then T x (nA + nB) else 0)) =
      (∑ a ∈ range nA, ∑ b ∈ range nA, if a < b then T a b else 0) + (∑ a ∈ range nA, ∑ b ∈ range nB, T a (nA + b))
      + ∑ a ∈ range nA, T a (nA + nB) := by
    rw [← sum_add_distrib, ← sum_add_distrib]
    refine sum_congr rfl fun x hx => ?_
    rw [mem_range] at hx
    rw [if_pos (by omega)]
    congr 2
    refine sum_congr rfl fun b _ => ?_
    rw [if_pos (by omega)]
  have e2 : (∑ x ∈ range nB, ((∑ b ∈ range nA, if nA + x < b then T (nA + x) b else 0) +
      (∑ b ∈ range nB, if nA + x < nA + b then T (nA + x) (nA + b) else 0) +
      if nA + x < nA + nB then T (nA + x) (nA + nB) else 0)) =
      (∑ a ∈ range nB, ∑ b ∈ range nB, if a < b then T (nA + a) (nA + b) else 0) + ∑ b ∈ range nB, T (nA + b) (nA + nB) := by
    rw [← sum_add_distrib]
    refine sum_congr rfl fun x hx => ?_
    rw [mem_range] at hx
    rw [if_pos (by omega), sum_eq_zero, zero_add]
    · congr 1
      refine sum_congr rfl fun b _ => ?_
      simp only [Nat.add_lt_add_iff_left]
    · intro b hb; rw [mem_range] at hb; rw [if_neg (by omega)]
  rw [e1, e2, z]
  ring

/-- Contribution of one pair of phases in one cell. -/
noncomputable def block (s : Strategy) (R : ℝ) (temp : Field2) (phi : ℕ → Field2) (P : Fin 3) (ij : Fin 3 × Fin 3)
    (c : ℤ × ℤ) : ℝ :=
  if (P = ij.1 ∨ P = ij.2) ∧ 0 < (constant s ij.1 ij.2).d0 then
    cellD (count s ij.1) (count s ij.2) (decide (ij.1 = ij.2))
      (factorT R (constant s ij.1 ij.2).d0 (constant s ij.1 ij.2).q0 temp) (fun a => phi (first s ij.1 + a))
      (fun b => phi (first s ij.2 + b)) c
  else 0

theorem foldX (s : Strategy) (p : Patch) (R : ℝ) (temp : Field2) (phi : ℕ → Field2) (P : Fin 3) (i j : ℤ)
    (hj : p.lo1 ≤ j ∧ j ≤ p.hi1) (hi : p.lo0 < i ∧ i ≤ p.hi0) (l : List (Fin 3 × Fin 3)) (diff : Coeffs) :
    l.foldl (fun d ij => callX s p R temp phi ij d) diff P (i, j) = diff P (i, j)
      + (l.map fun ij => block s R temp phi P ij (i, j)).sum + (l.map fun ij => block s R temp phi P ij (i - 1, j)).sum := by
  induction l generalizing diff with
  | nil => simp
  | cons ij l ih =>
    rw [List.foldl_cons, ih]
    have : callX s p R temp phi ij diff P (i, j) = diff P (i, j) + block s R temp phi P ij (i, j)
        + block s R temp phi P ij (i - 1, j) := by
      unfold callX block
      by_cases h0 : 0 < (constant s ij.1 ij.2).d0
      · by_cases hP : P = ij.1 ∨ P = ij.2
        · have hb : (P = ij.1 ∨ P = ij.2) ∧ 0 < (constant s ij.1 ij.2).d0 := ⟨hP, h0⟩
          simp only [if_pos h0, if_pos hP, if_pos hb]
          rw [c61_interior_partial _ _ _ _ _ _ _ _ _ _ _ _ _ hj hi]
        · have hb : ¬((P = ij.1 ∨ P = ij.2) ∧ 0 < (constant s ij.1 ij.2).d0) := fun h => hP h.1
          simp only [if_pos h0, if_neg hP, if_neg hb]; ring
      · have hb : ¬((P = ij.1 ∨ P = ij.2) ∧ 0 < (constant s ij.1 ij.2).d0) := fun h => h0 h.2
        simp only [if_neg h0, if_neg hb]; ring
    rw [this]
    simp only [List.map_cons, List.sum_cons]
    ring

theorem interiorY (p : Patch) (nA nB : ℕ) (same : Bool) (R d q : ℝ) (temp : Field2) (pa pb : ℕ → Field2)
    (diff : ℤ × ℤ → ℝ) (i j : ℤ) (hi : p.lo0 ≤ i ∧ i ≤ p.hi0) (hj : p.lo1 < j ∧ j ≤ p.hi1) :
    abTY p nA nB same R d q temp pa pb diff (i, j) = diff (i, j)
      + cellD nA nB same (factorT R d q temp) pa pb (i, j) + cellD nA nB same (factorT R d q temp) pa pb (i, j - 1) := by
  unfold abTY
  rw [scatY_eq _ (nodup_loop2 _ _ _ _), if_pos (by rw [mem_loop2]; simp only; omega),
    if_pos (by rw [mem_loop2]; simp only; omega)]

theorem foldY (s : Strategy) (p : Patch) (R : ℝ) (temp : Field2) (phi : ℕ → Field2) (P : Fin 3) (i j : ℤ)
    (hi : p.lo0 ≤ i ∧ i ≤ p.hi0) (hj : p.lo1 < j ∧ j ≤ p.hi1) (l : List (Fin 3 × Fin 3)) (diff : Coeffs) :
    l.foldl (fun d ij => callY s p R temp phi ij d) diff P (i, j) = diff P (i, j)
      + (l.map fun ij => block s R temp phi P ij (i, j)).sum + (l.map fun ij => block s R temp phi P ij (i, j - 1)).sum := by
  induction l generalizing diff with
  | nil => simp
  | cons ij l ih =>
    rw [List.foldl_cons, ih]
    have : callY s p R temp phi ij diff P (i, j) = diff P (i, j) + block s R temp phi P ij (i, j)
        + block s R temp phi P ij (i, j - 1) := by
      unfold callY block
      by_cases h0 : 0 < (constant s ij.1 ij.2).d0
      · by_cases hP : P = ij.1 ∨ P = ij.2
        · have hb : (P = ij.1 ∨ P = ij.2) ∧ 0 < (constant s ij.1 ij.2).d0 := ⟨hP, h0⟩
          simp only [if_pos h0, if_pos hP, if_pos hb]
          rw [interiorY _ _ _ _ _ _ _ _ _ _ _ _ _ hi hj]
        · have hb : ¬((P = ij.1 ∨ P = ij.2) ∧ 0 < (constant s ij.1 ij.2).d0) := fun h => hP h.1
          simp only [if_pos h0, if_neg hP, if_neg hb]; ring
      · have hb : ¬((P = ij.1 ∨ P = ij.2) ∧ 0 < (constant s ij.1 ij.2).d0) := fun h => h0 h.2
        simp only [if_neg h0, if_neg hb]; ring
    rw [this]
    simp only [List.map_cons, List.sum_cons]
    ring

/-- Diffusivity of a pair of phases as the code forms it. -/
theorem block_eq (s : Strategy) (R : ℝ) (temp : Field2) (phi : ℕ → Field2) (P i j : Fin 3) (c : ℤ × ℤ)
    (hij : given s i j = some (constant s i j)) :
    block s R temp phi P (i, j) c = ∑ a ∈ range (count s i), ∑ b ∈ range (count s j),
      if (i ≠ j ∨ a < b) ∧ (i = P ∨ j = P) then
        diffusivity R (temp c.1 c.2) (given s i j) * overlap (phi (first s i + a) c.1 c.2) (phi (first s j + b) c.1 c.2) / 2
      else 0 := by
  unfold block
  rw [cellD_sum, hij]
  have hT : ∀ d q T : ℝ, d * Real.exp (-(q / R) * (1 / T)) = d * Real.exp (-(q / (R * T))) := by
    intro d q T; congr 2; rw [mul_one_div, neg_div, div_div]
  by_cases hP : P = i ∨ P = j
  · by_cases h0 : 0 < (constant s i j).d0
    · rw [if_pos ⟨hP, h0⟩]
      refine sum_congr rfl fun a _ => sum_congr rfl fun b _ => ?_
      have hP' : i = P ∨ j = P := by tauto
      simp only [diffusivity, if_pos h0, factorT, hT, hP', and_true, decide_eq_false_iff_not, ne_eq]
    · rw [if_neg (by tauto)]
      symm
      refine sum_eq_zero fun a _ => sum_eq_zero fun b _ => ?_
      simp [diffusivity, if_neg h0]
  · rw [if_neg (by tauto)]
    symm
    refine sum_eq_zero fun a _ => sum_eq_zero fun b _ => ?_
    rw [if_neg (by tauto)]

theorem block_zero (s : Strategy) (R : ℝ) (temp : Field2) (phi : ℕ → Field2) (P : Fin 3) (c : ℤ × ℤ) :
    block s R temp phi P (0, 0) c = 0 := by
  unfold block
  rw [if_neg]
  rintro ⟨-, h⟩
  exact lt_irrefl _ h

/-- The calls add up to half of `interfacial`, per cell. -/
theorem blocks_sum (s : Strategy) (hs : Configured s) (R : ℝ) (temp : Field2) (phi : ℕ → Field2) (P : Fin 3) (c : ℤ × ℤ) :
    ((phasePairsOf s).map fun ij => block s R temp phi P ij c).sum = interfacial s R temp phi P c / 2 := by
  have hb10 := block_eq s R temp phi P 1 0 c rfl
  have hb11 := block_eq s R temp phi P 1 1 c rfl
  have hb20 := block_eq s R temp phi P 2 0 c rfl
  have hb21 := block_eq s R temp phi P 2 1 c rfl
  have hb22 := block_eq s R temp phi P 2 2 c rfl
  rcases hs with ⟨h3, hn, hA, hB, hw⟩ | ⟨h3, hn, hw⟩
  · unfold phasePairsOf interfacial
    rw [hn, hw]
    simp only [if_true, List.map_append, List.map_cons, List.map_nil, List.sum_append, List.sum_cons, List.sum_nil,
      block_zero, hb10, hb11, hb20, hb21, hb22, count, hA, hB, first, h3, sum_range_succ, sum_range_zero, phaseOf]
    have o1 := overlap_symm (phi 0 c.1 c.2) (phi 1 c.1 c.2)
    have o2 := overlap_symm (phi 0 c.1 c.2) (phi 2 c.1 c.2)
    have o3 := overlap_symm (phi 1 c.1 c.2) (phi 2 c.1 c.2)
    have g1 := given_symm s 0 1
    have g2 := given_symm s 0 2
    have g3 := given_symm s 1 2
    simp [o1, o2, o3, g1, g2, g3, or_comm]
    split_ifs <;> ring
  · set T : ℕ → ℕ → ℝ := fun g h => if phaseOf s g = P ∨ phaseOf s h = P then
      diffusivity R (temp c.1 c.2) (given s (phaseOf s g) (phaseOf s h)) * overlap (phi g c.1 c.2) (phi h c.1 c.2) else 0
      with hT
    have hTs : ∀ g h, T g h = T h g := by
      intro g h
      simp only [hT]
      rw [given_symm, overlap_symm]
      simp only [or_comm]
    have hI : interfacial s R temp phi P c =
        ∑ g ∈ range (s.nA + s.nB + 1), ∑ h ∈ range (s.nA + s.nB + 1), if g < h then T g h else 0 := by
      unfold interfacial
      rw [hn]
      refine sum_congr rfl fun g _ => sum_congr rfl fun h _ => ?_
      simp only [hT, ite_and]
    have pL : phaseOf s (s.nA + s.nB) = 0 := by
      unfold phaseOf; rw [h3]; simp
    have pA : ∀ a < s.nA, phaseOf s a = 1 := by
      intro a ha; unfold phaseOf; rw [h3]; simp [ha]
    have pB : ∀ b < s.nB, phaseOf s (s.nA + b) = 2 := by
      intro b hb; unfold phaseOf; rw [h3]; simp [hb]
    have f0 : first s 0 = s.nA + s.nB := by simp [first, h3, hn]
    have f1 : first s 1 = 0 := by simp [first, h3]
    have f2 : first s 2 = s.nA := by simp [first, h3]
    have e10 : block s R temp phi P (1, 0) c = (∑ a ∈ range s.nA, T a (s.nA + s.nB)) / 2 := by
      rw [hb10, sum_div]
      refine sum_congr rfl fun a ha => ?_
      rw [mem_range] at ha
      simp only [count, sum_range_one, f0, f1, zero_add, add_zero, hT, pA a ha, pL]
      by_cases h : (1 : Fin 3) = P ∨ (0 : Fin 3) = P <;> simp [h]
    have e11 : block s R temp phi P (1, 1) c = (∑ a ∈ range s.nA, ∑ b ∈ range s.nA, if a < b then T a b else 0) / 2 := by
      rw [hb11, sum_div]
      refine sum_congr rfl fun a ha => ?_
      rw [sum_div]
      refine sum_congr rfl fun b hb => ?_
      rw [mem_range] at ha hb
      simp only [f1, zero_add, hT, pA a ha, pA b hb]
      by_cases h : (1 : Fin 3) = P <;> by_cases h' : a < b <;> simp [h, h']
    have e20 : block s R temp phi P (2, 0) c = (∑ b ∈ range s.nB, T (s.nA + b) (s.nA + s.nB)) / 2 := by
      rw [hb20, sum_div]
      refine sum_congr rfl fun b hb => ?_
      rw [mem_range] at hb
      simp only [count, sum_range_one, f0, f2, add_zero, hT, pB b hb, pL]
      by_cases h : (2 : Fin 3) = P ∨ (0 : Fin 3) = P <;> simp [h]
    have e21 : block s R temp phi P (2, 1) c = (∑ a ∈ range s.nA, ∑ b ∈ range s.nB, T a (s.nA + b)) / 2 := by
      rw [hb21, sum_comm, sum_div]
      refine sum_congr rfl fun a ha => ?_
      rw [sum_div]
      refine sum_congr rfl fun b hb => ?_
      rw [hTs]
      simp only [count, mem_range] at ha hb
      simp only [f1, f2, zero_add, hT, pA a ha, pB b hb]
      by_cases h : (2 : Fin 3) = P ∨ (1 : Fin 3) = P <;> simp [h]
    have e22 : block s R temp phi P (2, 2) c =
        (∑ a ∈ range s.nB, ∑ b ∈ range s.nB, if a < b then T (s.nA + a) (s.nA + b) else 0) / 2 := by
      rw [hb22, sum_div]
      refine sum_congr rfl fun a ha => ?_
      rw [sum_div]
      refine sum_congr rfl fun b hb => ?_
      simp only [count, mem_range] at ha hb
      simp only [f2, hT, pB a ha, pB b hb]
      by_cases h : (2 : Fin 3) = P <;> by_cases h' : a < b <;> simp [h, h']
    rw [hI, pair_split]
    unfold phasePairsOf
    rw [hw]
    by_cases hB : 0 < s.nB
    · simp only [hB, decide_true, if_true, List.map_append, List.map_cons, List.map_nil, List.sum_append, List.sum_cons,
        List.sum_nil, block_zero, e10, e11, e20, e21, e22]
      ring
    · have hB0 : s.nB = 0 := by omega
      simp only [hB, decide_false, List.map_append, List.map_cons, List.map_nil, List.sum_append, List.sum_cons,
        List.sum_nil, block_zero, e10, e11]
      simp [hB0]
      ring

/-! ## C113 -/

/-- **C113**: on a face inside a patch, whatever the numbers of grains and the numbering convention, the diffusion
coefficient of phase `P` grows by the mean over the two cells of the sum over unordered pairs of different grains, one of them of
phase `P`, of the constant given for the two phases (at the temperature of the cell) times the overlap of the two grains.
No pair counts twice, no grain pairs with itself, and each pair uses the constant of its own two phases. -/
theorem c113_pairs (s : Strategy) (hs : Configured s) (p : Patch) (R : ℝ) (temp : Field2) (phi : ℕ → Field2) (P : Fin 3)
    (diff : Coeffs) (i j : ℤ) :
    ((p.lo1 ≤ j ∧ j ≤ p.hi1) → (p.lo0 < i ∧ i ≤ p.hi0) → interfacesX s p R temp phi diff P (i, j) = diff P (i, j)
      + (interfacial s R temp phi P (i - 1, j) + interfacial s R temp phi P (i, j)) / 2) ∧
    ((p.lo0 ≤ i ∧ i ≤ p.hi0) → (p.lo1 < j ∧ j ≤ p.hi1) → interfacesY s p R temp phi diff P (i, j) = diff P (i, j)
      + (interfacial s R temp phi P (i, j - 1) + interfacial s R temp phi P (i, j)) / 2) := by
  constructor
  · intro hj hi
    unfold interfacesX
    rw [foldX s p R temp phi P i j hj hi, blocks_sum s hs, blocks_sum s hs]
    ring
  · intro hi hj
    unfold interfacesY
    rw [foldY s p R temp phi P i j hi hj, blocks_sum s hs, blocks_sum s hs]
    ring

/-- Only grains `g` and `h` are present in cell `c` (others do not exceed one per cent). -/
def OnlyTwo (s : Strategy) (phi : ℕ → Field2) (g h : ℕ) (c : ℤ × ℤ) : Prop :=
  ∀ k < s.norderp, k ≠ g → k ≠ h → phi k c.1 c.2 ≤ 0.01

theorem overlap_absent (p q : ℝ) (h : p ≤ 0.01 ∨ q ≤ 0.01) : overlap p q = 0 := by
  unfold overlap
  rw [if_neg]
  rintro ⟨h1, h2⟩
  rcases h with h | h <;> linarith

/-- **C113**: on the interface of two grains only the constant of that interface matters: the coefficient of both phases gets
it, the coefficient of a phase of neither grain gets nothing. -/
theorem c113_own_constant (s : Strategy) (R : ℝ) (temp : Field2) (phi : ℕ → Field2) (P : Fin 3) (c : ℤ × ℤ) (g h : ℕ)
    (hgh : g < h) (hh : h < s.norderp) (h2 : OnlyTwo s phi g h c) :
    interfacial s R temp phi P c = if phaseOf s g = P ∨ phaseOf s h = P then
      diffusivity R (temp c.1 c.2) (given s (phaseOf s g) (phaseOf s h)) * overlap (phi g c.1 c.2) (phi h c.1 c.2)
    else 0 := by
  unfold interfacial
  rw [sum_eq_single g, sum_eq_single h]
  · simp [hgh]
  · intro k hk hkh
    rw [mem_range] at hk
    split_ifs with hc
    · rw [overlap_absent, mul_zero]
      exact Or.inr (h2 k hk (by omega) hkh)
    · rfl
  · intro hc; exact absurd (mem_range.mpr hh) hc
  · intro k hk hkg
    refine sum_eq_zero fun m hm => ?_
    rw [mem_range] at hk hm
    split_ifs with hc
    · rw [overlap_absent, mul_zero]
      by_cases hkh : k = h
      · exact Or.inr (h2 m hm (by omega) (by omega))
      · exact Or.inl (h2 k hk hkg hkh)
    · rfl
  · intro hc; exact absurd (mem_range.mpr (hgh.trans hh)) hc

/-- **C113**: away from interfaces (fewer than two grains above one per cent) nothing is added. -/
theorem c113_bulk (s : Strategy) (R : ℝ) (temp : Field2) (phi : ℕ → Field2) (P : Fin 3) (c : ℤ × ℤ) (g : ℕ)
    (h1 : ∀ k < s.norderp, k ≠ g → phi k c.1 c.2 ≤ 0.01) : interfacial s R temp phi P c = 0 := by
  unfold interfacial
  refine sum_eq_zero fun k hk => sum_eq_zero fun m hm => ?_
  rw [mem_range] at hk hm
  split_ifs with hc
  · rw [overlap_absent, mul_zero]
    by_cases hkg : k = g
    · exact Or.inr (h1 m hm (by omega))
    · exact Or.inl (h1 k hk hkg)
  · rfl

/-- **C113**: twice the sum over unordered pairs is the sum over ordered pairs of different grains. -/
theorem interfacial_ordered (s : Strategy) (R : ℝ) (temp : Field2) (phi : ℕ → Field2) (P : Fin 3) (c : ℤ × ℤ) :
    2 * interfacial s R temp phi P c = ∑ g ∈ range s.norderp, ∑ h ∈ range s.norderp,
      if g ≠ h ∧ (phaseOf s g = P ∨ phaseOf s h = P) then
        diffusivity R (temp c.1 c.2) (given s (phaseOf s g) (phaseOf s h)) * overlap (phi g c.1 c.2) (phi h c.1 c.2)
      else 0 := by
  have e : interfacial s R temp phi P c = ∑ g ∈ range s.norderp, ∑ h ∈ range s.norderp,
      if h < g ∧ (phaseOf s g = P ∨ phaseOf s h = P) then
        diffusivity R (temp c.1 c.2) (given s (phaseOf s g) (phaseOf s h)) * overlap (phi g c.1 c.2) (phi h c.1 c.2)
      else 0 := by
    unfold interfacial
    rw [sum_comm]
    refine sum_congr rfl fun g _ => sum_congr rfl fun h _ => ?_
    rw [given_symm, overlap_symm]
    simp only [or_comm]
  rw [two_mul]
  nth_rewrite 2 [e]
  unfold interfacial
  rw [← sum_add_distrib]
  refine sum_congr rfl fun g _ => ?_
  rw [← sum_add_distrib]
  refine sum_congr rfl fun h _ => ?_
  rcases lt_trichotomy g h with hl | hl | hl
  · simp [hl, hl.ne, not_lt.mpr hl.le]
  · simp [hl]
  · simp [hl, hl.ne', not_lt.mpr hl.le]

/-- **C113**: the numbering of the grains of one phase is immaterial: renaming the order parameters by a permutation that keeps
phases leaves the coefficients as they are. -/
theorem c113_renaming (s : Strategy) (R : ℝ) (temp : Field2) (phi : ℕ → Field2) (P : Fin 3) (c : ℤ × ℤ)
    (σ τ : ℕ → ℕ) (hσ : ∀ g < s.norderp, σ g < s.norderp ∧ τ (σ g) = g) (hτ : ∀ g < s.norderp, τ g < s.norderp ∧ σ (τ g) = g)
    (hk : ∀ g < s.norderp, phaseOf s (σ g) = phaseOf s g) :
    interfacial s R temp (fun g => phi (σ g)) P c = interfacial s R temp phi P c := by
  have h := interfacial_ordered s R temp (fun g => phi (σ g)) P c
  have h' := interfacial_ordered s R temp phi P c
  have re : ∀ F : ℕ → ℝ, ∑ g ∈ range s.norderp, F (σ g) = ∑ g ∈ range s.norderp, F g := by
    intro F
    refine sum_nbij' σ τ ?_ ?_ ?_ ?_ ?_
    · intro g hg; exact mem_range.mpr (hσ g (mem_range.mp hg)).1
    · intro g hg; exact mem_range.mpr (hτ g (mem_range.mp hg)).1
    · intro g hg; exact (hσ g (mem_range.mp hg)).2
    · intro g hg; exact (hτ g (mem_range.mp hg)).2
    · intro g _; rfl
  have key : ∀ g ∈ range s.norderp, ∀ h ∈ range s.norderp,
      (if g ≠ h ∧ (phaseOf s g = P ∨ phaseOf s h = P) then
        diffusivity R (temp c.1 c.2) (given s (phaseOf s g) (phaseOf s h)) *
          overlap (phi (σ g) c.1 c.2) (phi (σ h) c.1 c.2) else 0) =
      (if σ g ≠ σ h ∧ (phaseOf s (σ g) = P ∨ phaseOf s (σ h) = P) then
        diffusivity R (temp c.1 c.2) (given s (phaseOf s (σ g)) (phaseOf s (σ h))) *
          overlap (phi (σ g) c.1 c.2) (phi (σ h) c.1 c.2) else 0) := by
    intro g hg h hh
    rw [mem_range] at hg hh
    have inj : σ g = σ h ↔ g = h := by
      constructor
      · intro e; rw [← (hσ g hg).2, ← (hσ h hh).2, e]
      · rintro rfl; rfl
    rw [hk g hg, hk h hh]
    simp only [ne_eq, inj]
  rw [sum_congr rfl fun g hg => sum_congr rfl fun h hh => key g hg h hh] at h
  rw [re fun g' => ∑ h ∈ range s.norderp, if g' ≠ σ h ∧ (phaseOf s g' = P ∨ phaseOf s (σ h) = P) then
      diffusivity R (temp c.1 c.2) (given s (phaseOf s g') (phaseOf s (σ h))) *
        overlap (phi g' c.1 c.2) (phi (σ h) c.1 c.2) else 0] at h
  rw [sum_congr rfl fun g' _ => re fun h' => if g' ≠ h' ∧ (phaseOf s g' = P ∨ phaseOf s h' = P) then
      diffusivity R (temp c.1 c.2) (given s (phaseOf s g') (phaseOf s h')) *
        overlap (phi g' c.1 c.2) (phi h' c.1 c.2) else 0] at h
  linarith

/-- Interface diffusion of all phases together: what multiplies a composition gradient that is the same in all phases. -/
noncomputable def effective (s : Strategy) (R : ℝ) (temp : Field2) (phi : ℕ → Field2) (c : ℤ × ℤ) : ℝ :=
  ∑ P, interfacial s R temp phi P c

/-- **C113 is violated** for the strength: with one composition gradient in all phases, the interface of two grains of the same
phase conducts with the constant given for it, the interface of two different phases with twice the constant given for
it.  So the diffusivity of an interface is the one given exactly if the two grains are of one phase, or there is no overlap, or
no constant. -/
theorem c113_violation_twice (s : Strategy) (R : ℝ) (temp : Field2) (phi : ℕ → Field2) (c : ℤ × ℤ) (g h : ℕ)
    (hgh : g < h) (hh : h < s.norderp) (h2 : OnlyTwo s phi g h c) :
    effective s R temp phi c = (if phaseOf s g = phaseOf s h then 1 else 2) *
      (diffusivity R (temp c.1 c.2) (given s (phaseOf s g) (phaseOf s h)) * overlap (phi g c.1 c.2) (phi h c.1 c.2)) ∧
    (effective s R temp phi c =
        diffusivity R (temp c.1 c.2) (given s (phaseOf s g) (phaseOf s h)) * overlap (phi g c.1 c.2) (phi h c.1 c.2) ↔
      phaseOf s g = phaseOf s h ∨ diffusivity R (temp c.1 c.2) (given s (phaseOf s g) (phaseOf s h)) = 0 ∨
        overlap (phi g c.1 c.2) (phi h c.1 c.2) = 0) := by
  have e : effective s R temp phi c = (if phaseOf s g = phaseOf s h then 1 else 2) *
      (diffusivity R (temp c.1 c.2) (given s (phaseOf s g) (phaseOf s h)) * overlap (phi g c.1 c.2) (phi h c.1 c.2)) := by
    unfold effective
    simp only [c113_own_constant s R temp phi _ c g h hgh hh h2, Fin.sum_univ_three]
    generalize diffusivity R (temp c.1 c.2) (given s (phaseOf s g) (phaseOf s h)) * overlap (phi g c.1 c.2) (phi h c.1 c.2) = x
    generalize phaseOf s g = a
    generalize phaseOf s h = b
    fin_cases a <;> fin_cases b <;> simp <;> ring
  refine ⟨e, ?_⟩
  rw [e]
  by_cases hk : phaseOf s g = phaseOf s h
  · simp [hk]
  · rw [if_neg hk]
    constructor
    · intro h'
      right
      have : diffusivity R (temp c.1 c.2) (given s (phaseOf s g) (phaseOf s h)) *
        overlap (phi g c.1 c.2) (phi h c.1 c.2) = 0 := by linarith
      exact mul_eq_zero.mp this
    · rintro (h' | h' | h')
      · exact absurd h' hk
      · rw [h']; ring
      · rw [h']; ring

/-- A run with two grains of A, one of B and the liquid. -/
def sample : Strategy := ⟨4, 2, 1, false, true, ⟨1, 0⟩, ⟨2, 0⟩, ⟨3, 0⟩, ⟨4, 0⟩, ⟨5, 0⟩⟩

example : Configured sample := by right; decide
example : phaseOf sample 0 = 1 ∧ phaseOf sample 1 = 1 ∧ phaseOf sample 2 = 2 ∧ phaseOf sample 3 = 0 := by decide
/-- One half of grain 0 and one half of grain 2: the interface A–B. -/
noncomputable def half : ℕ → Field2 := fun g _ _ => if g = 0 ∨ g = 2 then 1 / 2 else 0
example : OnlyTwo sample half 0 2 (0, 0) := by
  intro k _ h1 h2
  simp [half, h1, h2]; norm_num
/-- There the three coefficients together grow by twice the constant `4` of that interface. -/
example : effective sample 1 (fun _ _ => 1) half (0, 0) = 8 := by
  rw [(c113_violation_twice sample 1 (fun _ _ => 1) half (0, 0) 0 2 (by norm_num) (by decide)
    (by intro k _ h1 h2; simp [half, h1, h2]; norm_num)).1]
  have : phaseOf sample 0 = 1 ∧ phaseOf sample 2 = 2 := by decide
  rw [this.1, this.2]
  simp [given, sample, diffusivity, overlap, half]
  norm_num
/-- The two grains of A may be exchanged. -/
example : ∀ g < sample.norderp, phaseOf sample (if g = 0 then 1 else if g = 1 then 0 else g) = phaseOf sample g := by decide

end AMPE.InterfaceDiff.Props
