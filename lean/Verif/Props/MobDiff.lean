import Mathlib.Data.Matrix.Mul
import Mathlib.LinearAlgebra.Matrix.Notation
import Mathlib.LinearAlgebra.Matrix.Symmetric
import Mathlib.Tactic.Linarith
import Mathlib.Tactic.Ring
import Mathlib.Tactic.FieldSimp
import Mathlib.Tactic.LinearCombination
import Mathlib.Tactic.Positivity
import Mathlib.Tactic.NormNum
import Verif.Model.MobDiff
import Verif.Props.Coefficients
import Verif.Props.DiffCoeff

/-!
# C89: solute flows along mobility times the gradient of the chemical potential

Specification: in each phase the flux through a face is the mobility matrix times the difference of chemical potentials
per spacing, weighted with the fraction of the phase; at a face with second derivatives `H` a small composition
difference `Δc` is a difference `H Δc` of chemical potentials (exactly so for quadratic energies).
-/

namespace AMPE.MobDiff.Props

open AMPE.Flux AMPE.MobDiff AMPE.Coefficients AMPE.Coefficients.Props Matrix

/-- An array of `n * n` numbers as a matrix, rows first. -/
def mat (n : ℕ) (a : ℕ → ℝ) : Matrix (Fin n) (Fin n) ℝ := fun i j => a (n * i + j)

/-- Mobility matrix of a phase at the averaged state of a face. -/
noncomputable def faceM (n : ℕ) (P : Phase) (temp : Field2) (c : ℕ → Field2) (i0 i1 : ℤ) : Matrix (Fin n) (Fin n) ℝ :=
  mat n (P.mob ((temp i0 i1 + temp (i0 - 1) i1) / 2) fun k => (c (k + 1) i0 i1 + c (k + 1) (i0 - 1) i1) / 2)

/-- Second derivatives of the energy of a phase at the averaged state of a face. -/
noncomputable def faceH (n : ℕ) (P : Phase) (temp : Field2) (c : ℕ → Field2) (i0 i1 : ℤ) : Matrix (Fin n) (Fin n) ℝ :=
  mat n (P.d2f ((temp i0 i1 + temp (i0 - 1) i1) / 2) fun k => (c (k + 1) i0 i1 + c (k + 1) (i0 - 1) i1) / 2)

/-- Composition differences across an x face. -/
def jump (n : ℕ) (c : ℕ → Field2) (i0 i1 : ℤ) : Fin n → ℝ := fun k => c (k + 1) i0 i1 - c (k + 1) (i0 - 1) i1

/-- **C89** (matrix product): the loops of `small_mat_mult` leave the product of the two matrices, rows first. -/
theorem c89_product (n : ℕ) (a b : ℕ → ℝ) : mat n (smallMatMult n a b) = mat n a * mat n b := by
  ext i j
  have h1 : (n * i.val + j.val) / n = i.val := by
    rw [Nat.mul_add_div (Fin.pos i), Nat.div_eq_of_lt j.isLt, add_zero]
  have h2 : (n * i.val + j.val) % n = j.val := by
    rw [Nat.mul_add_mod, Nat.mod_eq_of_lt j.isLt]
  rw [Matrix.mul_apply]
  simp only [mat, smallMatMult, h1, h2]
  exact (Fin.sum_univ_eq_sum_range (fun k => a (n * i.val + k) * b (n * k + j.val)) n).symm

theorem addFlux_phase (n : ℕ) (dx : ℝ) (P : Phase) (w temp : Field2) (c : ℕ → Field2) (f : ℕ → Field2) (i : Fin n)
    (i0 i1 : ℤ) : addFluxX dx n c (pfmX n P w temp c) f (i + 1) i0 i1 = f (i + 1) i0 i1
      + 1 / dx * w i0 i1 * ((faceM n P temp c i0 i1 * faceH n P temp c i0 i1)ᵀ *ᵥ jump n c i0 i1) i := by
  unfold addFluxX
  congr 1
  rw [Matrix.mulVec, dotProduct, Finset.mul_sum]
  have e : ∑ j ∈ Finset.Icc 1 n, 1 / dx * pfmX n P w temp c (slot n (i + 1) j) i0 i1 * (c j i0 i1 - c j (i0 - 1) i1)
      = ∑ j ∈ Finset.range n,
        1 / dx * pfmX n P w temp c (slot n (i + 1) (j + 1)) i0 i1 * (c (j + 1) i0 i1 - c (j + 1) (i0 - 1) i1) := by
    rw [Finset.range_eq_Ico, Finset.sum_Ico_add' (fun j => 1 / dx * pfmX n P w temp c (slot n (i + 1) j) i0 i1
      * (c j i0 i1 - c j (i0 - 1) i1)) 0 n 1]
    rfl
  rw [e, ← Fin.sum_univ_eq_sum_range (fun j => 1 / dx * pfmX n P w temp c (slot n (i + 1) (j + 1)) i0 i1
    * (c (j + 1) i0 i1 - c (j + 1) (i0 - 1) i1)) n]
  refine Finset.sum_congr rfl fun j _ => ?_
  have hs : slot n (i.val + 1) (j.val + 1) - 1 = n * j.val + i.val := by
    unfold slot
    rw [Nat.add_sub_cancel, Nat.add_right_comm, Nat.add_sub_cancel, Nat.mul_comm, Nat.add_comm]
  have hD := congrFun (congrFun (c89_product n
    (P.mob (0.5 * (temp i0 i1 + temp (i0 - 1) i1)) fun ic => 0.5 * (c (ic + 1) i0 i1 + c (ic + 1) (i0 - 1) i1))
    (P.d2f (0.5 * (temp i0 i1 + temp (i0 - 1) i1)) fun ic => 0.5 * (c (ic + 1) i0 i1 + c (ic + 1) (i0 - 1) i1))) j) i
  have h5 : ∀ x : ℝ, 0.5 * x = x / 2 := fun x => by ring
  simp only [h5] at hD
  simp only [pfmX, coeffX, localD, hs, h5, Matrix.transpose_apply, jump, faceM, faceH]
  rw [← hD]
  simp only [mat]
  ring

/-- **C89** (what is computed): for every alloy, the flux on a face is, in each phase, the transposed product of mobilities and
second derivatives, applied to the composition difference. -/
theorem c89_flux (n : ℕ) (dx : ℝ) (L A : Phase) (h temp : Field2) (cl ca : ℕ → Field2) (i : Fin n) (i0 i1 : ℤ) :
    fluxX n dx L A h temp cl ca (i + 1) i0 i1 =
      1 / dx * ((1 - h i0 i1) * ((faceM n L temp cl i0 i1 * faceH n L temp cl i0 i1)ᵀ *ᵥ jump n cl i0 i1) i
        + h i0 i1 * ((faceM n A temp ca i0 i1 * faceH n A temp ca i0 i1)ᵀ *ᵥ jump n ca i0 i1) i) := by
  unfold fluxX
  rw [addFlux_phase, addFlux_phase]
  ring

/-- The flux that is wanted: mobility times the difference of chemical potentials, phase by phase. -/
noncomputable def wanted (n : ℕ) (dx : ℝ) (L A : Phase) (h temp : Field2) (cl ca : ℕ → Field2) (i0 i1 : ℤ) : Fin n → ℝ := fun i =>
  1 / dx * ((1 - h i0 i1) * (faceM n L temp cl i0 i1 *ᵥ (faceH n L temp cl i0 i1 *ᵥ jump n cl i0 i1)) i
    + h i0 i1 * (faceM n A temp ca i0 i1 *ᵥ (faceH n A temp ca i0 i1 *ᵥ jump n ca i0 i1)) i)

/-- **C89** (binary alloys): the flux is mobility times the difference of chemical potentials. -/
theorem c89_binary (dx : ℝ) (L A : Phase) (h temp : Field2) (cl ca : ℕ → Field2) (i0 i1 : ℤ) :
    fluxX 1 dx L A h temp cl ca 1 i0 i1 = wanted 1 dx L A h temp cl ca i0 i1 0 := by
  have e := c89_flux 1 dx L A h temp cl ca 0 i0 i1
  simp only [Fin.isValue, Fin.val_zero, zero_add] at e
  rw [e]
  simp only [wanted, Matrix.mulVec, dotProduct, Matrix.mul_apply, Matrix.transpose_apply, Fin.sum_univ_one]
  ring

/-- **C89** (partial): with symmetric mobilities and second derivatives that commute in each phase the flux is the wanted one. -/
theorem c89_commuting_partial (n : ℕ) (dx : ℝ) (L A : Phase) (h temp : Field2) (cl ca : ℕ → Field2) (i : Fin n) (i0 i1 : ℤ)
    (hL : (faceM n L temp cl i0 i1).IsSymm ∧ (faceH n L temp cl i0 i1).IsSymm)
    (hA : (faceM n A temp ca i0 i1).IsSymm ∧ (faceH n A temp ca i0 i1).IsSymm)
    (cL : faceM n L temp cl i0 i1 * faceH n L temp cl i0 i1 = faceH n L temp cl i0 i1 * faceM n L temp cl i0 i1)
    (cA : faceM n A temp ca i0 i1 * faceH n A temp ca i0 i1 = faceH n A temp ca i0 i1 * faceM n A temp ca i0 i1) :
    fluxX n dx L A h temp cl ca (i + 1) i0 i1 = wanted n dx L A h temp cl ca i0 i1 i := by
  rw [c89_flux, wanted, Matrix.transpose_mul, Matrix.transpose_mul, hL.1, hL.2, hA.1, hA.2, ← cL, ← cA]
  simp only [Matrix.mulVec_mulVec]

/-- **C89** (exactly when): in the liquid, around a given mean state, the flux is the wanted one for all composition
differences if and only if the mobilities commute with the second derivatives. -/
theorem c89_correct_iff (n : ℕ) (dx : ℝ) (hdx : dx ≠ 0) (L A : Phase) (T : ℝ) (cm : ℕ → ℝ)
    (hM : (mat n (L.mob T cm)).IsSymm) (hH : (mat n (L.d2f T cm)).IsSymm) :
    (∀ (temp : Field2) (cl ca : ℕ → Field2) (i0 i1 : ℤ), (temp i0 i1 + temp (i0 - 1) i1) / 2 = T →
        (∀ k, (cl (k + 1) i0 i1 + cl (k + 1) (i0 - 1) i1) / 2 = cm k) →
        ∀ i : Fin n, fluxX n dx L A (fun _ _ => 0) temp cl ca (i + 1) i0 i1
          = wanted n dx L A (fun _ _ => 0) temp cl ca i0 i1 i) ↔
      mat n (L.mob T cm) * mat n (L.d2f T cm) = mat n (L.d2f T cm) * mat n (L.mob T cm) := by
  have key : ∀ (temp : Field2) (cl ca : ℕ → Field2) (i0 i1 : ℤ), (temp i0 i1 + temp (i0 - 1) i1) / 2 = T →
        (∀ k, (cl (k + 1) i0 i1 + cl (k + 1) (i0 - 1) i1) / 2 = cm k) → ∀ i : Fin n,
        (fluxX n dx L A (fun _ _ => 0) temp cl ca (i + 1) i0 i1 = wanted n dx L A (fun _ _ => 0) temp cl ca i0 i1 i ↔
          ((mat n (L.d2f T cm) * mat n (L.mob T cm)) *ᵥ jump n cl i0 i1) i
            = ((mat n (L.mob T cm) * mat n (L.d2f T cm)) *ᵥ jump n cl i0 i1) i) := by
    intro temp cl ca i0 i1 hT hc i
    have e1 : faceM n L temp cl i0 i1 = mat n (L.mob T cm) := by unfold faceM; rw [hT, funext hc]
    have e2 : faceH n L temp cl i0 i1 = mat n (L.d2f T cm) := by unfold faceH; rw [hT, funext hc]
    rw [c89_flux, wanted, e1, e2, Matrix.transpose_mul, hM, hH, Matrix.mulVec_mulVec]
    simp only [sub_zero, one_mul, zero_mul, add_zero]
    exact mul_right_inj' (one_div_ne_zero hdx)
  constructor
  · intro hall
    ext i j
    let cl : ℕ → Field2 := fun k a _ => if a = 0 then cm (k - 1) + (if k = j.val + 1 then 1 / 2 else 0)
      else cm (k - 1) - (if k = j.val + 1 then 1 / 2 else 0)
    have hc : ∀ k, (cl (k + 1) 0 0 + cl (k + 1) (0 - 1) 0) / 2 = cm k := fun k => by simp [cl]
    have hj : jump n cl 0 0 = Pi.single j 1 := by
      funext k
      by_cases hk : k = j
      · subst hk
        simp [jump, cl]
        ring
      · have : k.val ≠ j.val := fun e => hk (Fin.ext e)
        simp [jump, cl, hk, this]
    have := (key (fun _ _ => T) cl cl 0 0 (by ring) hc i).1 (hall _ cl cl 0 0 (by ring) hc i)
    rw [hj, Matrix.mulVec_single_one, Matrix.mulVec_single_one] at this
    exact this.symm
  · intro hcomm temp cl ca i0 i1 hT hc i
    rw [key temp cl ca i0 i1 hT hc i, hcomm]

/-! ## Ternary alloys -/

theorem mat_arr4 (a b c d : ℝ) : mat 2 (arr4 (a, b, c, d)) = !![a, b; c, d] := by
  ext i j
  fin_cases i <;> fin_cases j <;> simp [mat, arr4]

/-- Second derivatives of the energy of an ideal ternary solution, `RT Σ_k c_k log c_k`. -/
noncomputable def idealD2 (R : ℝ) (T : ℝ) (c : ℕ → ℝ) : ℕ → ℝ :=
  arr4 (R * T * (1 / c 0 + 1 / (1 - c 0 - c 1)), R * T * (1 / (1 - c 0 - c 1)), R * T * (1 / (1 - c 0 - c 1)),
    R * T * (1 / c 1 + 1 / (1 - c 0 - c 1)))

/-- The product in the order used by the flux, for an ideal solution with atomic mobilities `m`. -/
theorem ideal_product (RT a b m0 m1 m2 u : ℝ) (ha : a ≠ 0) (hb : b ≠ 0) (hc : 1 - a - b ≠ 0) :
    !![RT * (1 / a + 1 / (1 - a - b)), RT * (1 / (1 - a - b)); RT * (1 / (1 - a - b)), RT * (1 / b + 1 / (1 - a - b))]
      * !![a * ((1 - a) * (1 - a) * m0 + a * b * m1 + a * (1 - a - b) * m2) * u,
          a * b * (-(1 - a) * m0 - (1 - b) * m1 + (1 - a - b) * m2) * u;
          a * b * (-(1 - a) * m0 - (1 - b) * m1 + (1 - a - b) * m2) * u,
          b * (a * b * m0 + (1 - b) * (1 - b) * m1 + b * (1 - a - b) * m2) * u]
      = (RT * u) • !![(1 - a) * m0 + a * m2, b * (m2 - m0); a * (m2 - m1), (1 - b) * m1 + b * m2] := by
  ext i j
  fin_cases i <;> fin_cases j <;>
  · simp [Matrix.mul_apply, Fin.sum_univ_two]
    field_simp
    ring

/-- Atomic mobilities of the three species at composition `(a, b, 1-a-b)`. -/
noncomputable def atomic (R : ℝ) (p0 p1 p2 : MobParams) (a b T : ℝ) : Fin 3 → ℝ :=
  ![atomicMobility R (deltaG3 R p0 a b (1 - a - b) T) T, atomicMobility R (deltaG3 R p1 a b (1 - a - b) T) T,
    atomicMobility R (deltaG3 R p2 a b (1 - a - b) T) T]

theorem ternary_mob (R : ℝ) (p0 p1 p2 : MobParams) (d2f) (T : ℝ) (c : ℕ → ℝ) :
    mat 2 ((ternaryPhase R p0 p1 p2 d2f).mob T c) =
      let m := atomic R p0 p1 p2 (c 0) (c 1) T
      !![c 0 * ((1 - c 0) * (1 - c 0) * m 0 + c 0 * c 1 * m 1 + c 0 * (1 - c 0 - c 1) * m 2) * 1e12,
          c 0 * c 1 * (-(1 - c 0) * m 0 - (1 - c 1) * m 1 + (1 - c 0 - c 1) * m 2) * 1e12;
          c 0 * c 1 * (-(1 - c 0) * m 0 - (1 - c 1) * m 1 + (1 - c 0 - c 1) * m 2) * 1e12,
          c 1 * (c 0 * c 1 * m 0 + (1 - c 1) * (1 - c 1) * m 1 + c 1 * (1 - c 0 - c 1) * m 2) * 1e12] := by
  show mat 2 (arr4 (_, _, _, _)) = _
  rw [mat_arr4]
  rfl

/-- **C89 is violated** for ternary alloys.  Ideal solution with three species present: around a mean composition the flux
is the wanted one for all composition differences exactly if `c1 (M2 - M0) = c0 (M2 - M1)` for the atomic mobilities. -/
theorem c89_violation_ideal_iff (R : ℝ) (hR : 0 < R) (p0 p1 p2 : MobParams) (dx : ℝ) (hdx : dx ≠ 0) (A : Phase) (T : ℝ)
    (hT : 0 < T) (cm : ℕ → ℝ) (h0 : cm 0 ≠ 0) (h1 : cm 1 ≠ 0) (h2 : 1 - cm 0 - cm 1 ≠ 0) :
    (∀ (temp : Field2) (cl ca : ℕ → Field2) (i0 i1 : ℤ), (temp i0 i1 + temp (i0 - 1) i1) / 2 = T →
        (∀ k, (cl (k + 1) i0 i1 + cl (k + 1) (i0 - 1) i1) / 2 = cm k) →
        ∀ i : Fin 2, fluxX 2 dx (ternaryPhase R p0 p1 p2 (idealD2 R)) A (fun _ _ => 0) temp cl ca (i + 1) i0 i1
          = wanted 2 dx (ternaryPhase R p0 p1 p2 (idealD2 R)) A (fun _ _ => 0) temp cl ca i0 i1 i) ↔
      cm 1 * (atomic R p0 p1 p2 (cm 0) (cm 1) T 2 - atomic R p0 p1 p2 (cm 0) (cm 1) T 0)
        = cm 0 * (atomic R p0 p1 p2 (cm 0) (cm 1) T 2 - atomic R p0 p1 p2 (cm 0) (cm 1) T 1) := by
  have hsM : (mat 2 ((ternaryPhase R p0 p1 p2 (idealD2 R)).mob T cm)).IsSymm := by
    rw [ternary_mob]
    ext i j
    fin_cases i <;> fin_cases j <;> rfl
  have eH : mat 2 ((ternaryPhase R p0 p1 p2 (idealD2 R)).d2f T cm) = _ := mat_arr4 _ _ _ _
  have hsH : (mat 2 ((ternaryPhase R p0 p1 p2 (idealD2 R)).d2f T cm)).IsSymm := by
    rw [eH]
    ext i j
    fin_cases i <;> fin_cases j <;> rfl
  rw [c89_correct_iff 2 dx hdx _ A T cm hsM hsH]
  have hp := ideal_product (R * T) (cm 0) (cm 1) (atomic R p0 p1 p2 (cm 0) (cm 1) T 0) (atomic R p0 p1 p2 (cm 0) (cm 1) T 1)
    (atomic R p0 p1 p2 (cm 0) (cm 1) T 2) 1e12 h0 h1 h2
  have e : mat 2 ((ternaryPhase R p0 p1 p2 (idealD2 R)).mob T cm) * mat 2 ((ternaryPhase R p0 p1 p2 (idealD2 R)).d2f T cm)
      = (mat 2 ((ternaryPhase R p0 p1 p2 (idealD2 R)).d2f T cm) * mat 2 ((ternaryPhase R p0 p1 p2 (idealD2 R)).mob T cm))ᵀ := by
    rw [Matrix.transpose_mul, hsM, hsH]
  rw [e]
  rw [← eH] at hp
  have eM := ternary_mob R p0 p1 p2 (idealD2 R) T cm
  simp only [] at eM
  rw [← eM] at hp
  rw [hp]
  have hk : R * T * 1e12 ≠ 0 := by positivity
  constructor
  · intro h
    have := congrFun (congrFun h 1) 0
    simp only [Matrix.transpose_apply, Matrix.smul_apply, smul_eq_mul] at this
    have := mul_left_cancel₀ hk this
    simpa using this
  · intro h
    ext i j
    fin_cases i <;> fin_cases j <;> simp [h]

/-- **C89 is violated** where a species is absent: for every ternary alloy, whatever the energies, a difference in the second
species drives a flux of the first one although there is none of it on either side, and the wanted flux is zero. -/
theorem c89_violation_absent_species (R : ℝ) (hR : 0 < R) (p0 p1 p2 : MobParams) (d2f : ℝ → (ℕ → ℝ) → ℕ → ℝ) (dx : ℝ)
    (hdx : 0 < dx) (A : Phase) (temp : Field2) (cl ca : ℕ → Field2) (i0 i1 : ℤ) (hT : 0 < temp i0 i1 + temp (i0 - 1) i1)
    (h0 : cl 1 i0 i1 = 0) (h0' : cl 1 (i0 - 1) i1 = 0)
    (hlo : 0 < cl 2 i0 i1 + cl 2 (i0 - 1) i1) (hhi : cl 2 i0 i1 + cl 2 (i0 - 1) i1 < 2)
    (hne : cl 2 i0 i1 ≠ cl 2 (i0 - 1) i1)
    (hH : faceH 2 (ternaryPhase R p0 p1 p2 d2f) temp cl i0 i1 1 0 ≠ 0) :
    fluxX 2 dx (ternaryPhase R p0 p1 p2 d2f) A (fun _ _ => 0) temp cl ca 1 i0 i1 ≠ 0 ∧
      wanted 2 dx (ternaryPhase R p0 p1 p2 d2f) A (fun _ _ => 0) temp cl ca i0 i1 0 = 0 := by
  have e := c89_flux 2 dx (ternaryPhase R p0 p1 p2 d2f) A (fun _ _ => 0) temp cl ca 0 i0 i1
  simp only [Fin.isValue, Fin.val_zero, zero_add] at e
  have eM : faceM 2 (ternaryPhase R p0 p1 p2 d2f) temp cl i0 i1 = _ := ternary_mob R p0 p1 p2 d2f _ _
  simp only [zero_add, h0, h0', zero_div, zero_mul, add_zero] at eM
  set b := (cl (1 + 1) i0 i1 + cl (1 + 1) (i0 - 1) i1) / 2 with hb
  have hb0 : 0 < b := by rw [hb]; linarith
  have hb1 : 0 < 1 - b := by rw [hb]; linarith
  have pos : ∀ k, 0 < atomic R p0 p1 p2 0 b ((temp i0 i1 + temp (i0 - 1) i1) / 2) k := fun k => by
    have hT2 : 0 < (temp i0 i1 + temp (i0 - 1) i1) / 2 := by linarith
    fin_cases k <;> exact atomicMobility_pos hR hT2 _
  have p1' := pos 1
  have p2' := pos 2
  have hj0 : jump 2 cl i0 i1 0 = 0 := by simp [jump, h0, h0']
  have hj1 : jump 2 cl i0 i1 1 ≠ 0 := sub_ne_zero.2 hne
  constructor
  · rw [e, eM]
    simp only [sub_zero, one_mul, zero_mul, add_zero, Matrix.mulVec, dotProduct, Fin.sum_univ_two,
      Matrix.mul_apply, Matrix.transpose_apply, hj0, mul_zero, zero_add]
    simp only [Matrix.of_apply, Matrix.cons_val', Matrix.cons_val_zero, Matrix.cons_val_one]
    rw [zero_mul, zero_add]
    refine mul_ne_zero (by positivity) (mul_ne_zero (mul_ne_zero (ne_of_gt ?_) hH) hj1)
    exact mul_pos (mul_pos hb0 (add_pos (mul_pos (mul_pos hb1 hb1) p1') (mul_pos (mul_pos hb0 hb1) p2'))) (by norm_num)
  · unfold wanted
    rw [eM]
    simp [Matrix.mulVec, dotProduct]

/-- **C89 is violated** with the wrong sign: in an ideal solution of equal parts where the first species moves more than `4 M1 + 3 M2`,
a difference in the second species alone makes the computed flux increase the free energy. -/
theorem c89_violation_dissipation (R : ℝ) (hR : 0 < R) (p0 p1 p2 : MobParams) (dx : ℝ) (hdx : 0 < dx) (A : Phase) (T d : ℝ)
    (hT : 0 < T) (hd : d ≠ 0)
    (hm : 4 * atomic R p0 p1 p2 (1 / 3) (1 / 3) T 1 + 3 * atomic R p0 p1 p2 (1 / 3) (1 / 3) T 2
      < atomic R p0 p1 p2 (1 / 3) (1 / 3) T 0) (temp : Field2) (cl ca : ℕ → Field2) (i0 i1 : ℤ)
    (ht : (temp i0 i1 + temp (i0 - 1) i1) / 2 = T) (h1 : cl 1 i0 i1 = 1 / 3) (h1' : cl 1 (i0 - 1) i1 = 1 / 3)
    (h2 : cl 2 i0 i1 = 1 / 3 + d) (h2' : cl 2 (i0 - 1) i1 = 1 / 3 - d) :
    let P := ternaryPhase R p0 p1 p2 (idealD2 R)
    (faceH 2 P temp cl i0 i1 *ᵥ jump 2 cl i0 i1) 0 * fluxX 2 dx P A (fun _ _ => 0) temp cl ca 1 i0 i1
      + (faceH 2 P temp cl i0 i1 *ᵥ jump 2 cl i0 i1) 1 * fluxX 2 dx P A (fun _ _ => 0) temp cl ca 2 i0 i1 < 0 := by
  intro P
  have e0 := c89_flux 2 dx P A (fun _ _ => 0) temp cl ca 0 i0 i1
  have e1 := c89_flux 2 dx P A (fun _ _ => 0) temp cl ca 1 i0 i1
  simp only [Fin.isValue, Fin.val_zero, zero_add, Fin.val_one, Nat.reduceAdd] at e0 e1
  let cm : ℕ → ℝ := fun k => (cl (k + 1) i0 i1 + cl (k + 1) (i0 - 1) i1) / 2
  have c0 : cm 0 = 1 / 3 := by simp only [cm, zero_add, h1, h1']; norm_num
  have c1 : cm 1 = 1 / 3 := by simp only [cm, Nat.reduceAdd, h2, h2']; ring
  have eM : faceM 2 P temp cl i0 i1 = _ := ternary_mob R p0 p1 p2 (idealD2 R) _ cm
  have eH : faceH 2 P temp cl i0 i1 = _ := mat_arr4 _ _ _ _
  have eHM := ideal_product (R * T) (1 / 3) (1 / 3) (atomic R p0 p1 p2 (1 / 3) (1 / 3) T 0) (atomic R p0 p1 p2 (1 / 3) (1 / 3) T 1)
    (atomic R p0 p1 p2 (1 / 3) (1 / 3) T 2) 1e12 (by norm_num) (by norm_num) (by norm_num)
  have eH' : faceH 2 P temp cl i0 i1 = !![R * T * (1 / (1 / 3) + 1 / (1 - 1 / 3 - 1 / 3)), R * T * (1 / (1 - 1 / 3 - 1 / 3));
      R * T * (1 / (1 - 1 / 3 - 1 / 3)), R * T * (1 / (1 / 3) + 1 / (1 - 1 / 3 - 1 / 3))] := by
    rw [eH, ht]
    show !![R * T * (1 / cm 0 + 1 / (1 - cm 0 - cm 1)), R * T * (1 / (1 - cm 0 - cm 1));
      R * T * (1 / (1 - cm 0 - cm 1)), R * T * (1 / cm 1 + 1 / (1 - cm 0 - cm 1))] = _
    rw [c0, c1]
  simp only [ht, c0, c1] at eM
  have sM : (faceM 2 P temp cl i0 i1)ᵀ = faceM 2 P temp cl i0 i1 := by
    rw [eM]; ext i j; fin_cases i <;> fin_cases j <;> rfl
  have sH : (faceH 2 P temp cl i0 i1)ᵀ = faceH 2 P temp cl i0 i1 := by
    rw [eH']; ext i j; fin_cases i <;> fin_cases j <;> rfl
  rw [← eH', ← eM] at eHM
  rw [e0, e1, Matrix.transpose_mul, sM, sH, eHM, eH']
  have j0 : jump 2 cl i0 i1 0 = 0 := by simp [jump, h1, h1']
  have j1 : jump 2 cl i0 i1 1 = 2 * d := by simp [jump, h2, h2']; ring
  simp only [Matrix.mulVec, dotProduct, Fin.sum_univ_two, j0, j1, Matrix.smul_apply, smul_eq_mul]
  simp only [Matrix.of_apply, Matrix.cons_val', Matrix.cons_val_zero, Matrix.cons_val_one, Matrix.cons_val_fin_one]
  generalize atomic R p0 p1 p2 (1 / 3) (1 / 3) T 0 = m0 at *
  generalize atomic R p0 p1 p2 (1 / 3) (1 / 3) T 1 = m1 at *
  generalize atomic R p0 p1 p2 (1 / 3) (1 / 3) T 2 = m2 at *
  have key : ∀ X Y : ℝ, X = Y * (4 * m1 + 3 * m2 - m0) → 0 < Y → X < 0 := fun X Y h hY => by
    rw [h]; exact mul_neg_of_pos_of_neg hY (by linarith)
  have hY : 0 < (R * T) ^ 2 * 1e12 * 4 * d ^ 2 / dx := by positivity
  refine key _ _ ?_ hY
  field_simp
  ring

/-- Parameters with a constant activation energy. -/
noncomputable def constantParams (g : ℝ) : MobParams :=
  ⟨fun _ => (g, 1), false, fun _ => (0, 0), fun _ _ => (0, 1), fun _ _ => (0, 1), fun _ _ => (0, 1), fun _ _ => (0, 1)⟩

theorem constantParams_dG (R g a b T : ℝ) : deltaG3 R (constantParams g) a b (1 - a - b) T = g := by
  simp [deltaG3, getQ, getQQ, constantParams]
  ring

/-- The hypothesis of `c89_violation_dissipation` is met by a species eight times as mobile as the two others. -/
example : 4 * atomic 1 (constantParams (Real.log 8)) (constantParams 0) (constantParams 0) (1 / 3) (1 / 3) 1 1
    + 3 * atomic 1 (constantParams (Real.log 8)) (constantParams 0) (constantParams 0) (1 / 3) (1 / 3) 1 2
    < atomic 1 (constantParams (Real.log 8)) (constantParams 0) (constantParams 0) (1 / 3) (1 / 3) 1 0 := by
  simp only [atomic, constantParams_dG, atomicMobility]
  simp [Real.exp_log]
  norm_num

/-- Three species of equal mobility meet the condition of `c89_violation_ideal_iff` at every composition. -/
example (g a b T : ℝ) : b * (atomic 1 (constantParams g) (constantParams g) (constantParams g) a b T 2
      - atomic 1 (constantParams g) (constantParams g) (constantParams g) a b T 0)
    = a * (atomic 1 (constantParams g) (constantParams g) (constantParams g) a b T 2
      - atomic 1 (constantParams g) (constantParams g) (constantParams g) a b T 1) := by
  simp only [atomic, constantParams_dG]
  simp

/-- The wanted flux never increases the energy: with the mobilities of the code, potentials `mu` and composition inside
the simplex, the product of flux and potential difference is non-negative. -/
theorem c89_wanted_dissipates (R : ℝ) (hR : 0 < R) (p0 p1 p2 : MobParams) (d2f) (T : ℝ) (hT : 0 < T) (c : ℕ → ℝ)
    (h0 : 0 ≤ c 0) (h1 : 0 ≤ c 1) (h2 : c 0 + c 1 ≤ 1) (mu : Fin 2 → ℝ) :
    0 ≤ mu ⬝ᵥ (mat 2 ((ternaryPhase R p0 p1 p2 d2f).mob T c) *ᵥ mu) := by
  rw [ternary_mob]
  have pos : ∀ k, 0 < atomic R p0 p1 p2 (c 0) (c 1) T k := fun k => by
    fin_cases k <;> exact atomicMobility_pos hR hT _
  have a := pos 0
  have b := pos 1
  have d := pos 2
  have h3 : 0 ≤ 1 - c 0 - c 1 := by linarith
  simp only [Matrix.mulVec, dotProduct, Fin.sum_univ_two]
  simp only [Matrix.of_apply, Matrix.cons_val', Matrix.cons_val_zero, Matrix.cons_val_one, Matrix.cons_val_fin_one]
  generalize atomic R p0 p1 p2 (c 0) (c 1) T 0 = m0 at *
  generalize atomic R p0 p1 p2 (c 0) (c 1) T 1 = m1 at *
  generalize atomic R p0 p1 p2 (c 0) (c 1) T 2 = m2 at *
  generalize c 0 = x at *
  generalize c 1 = y at *
  have e : 0 ≤ 1e12 * (x * m0 * ((1 - x) * mu 0 - y * mu 1) ^ 2 + y * m1 * ((1 - y) * mu 1 - x * mu 0) ^ 2
      + (1 - x - y) * m2 * (x * mu 0 + y * mu 1) ^ 2) := by positivity
  refine e.trans (le_of_eq ?_)
  ring

/-- **C89** (storage, three dimensions): the position computed for a face is the one the Fortran routines use for it,
first index fastest, with one more face than cells along the axis. -/
theorem c89_layout (axis : Fin 3) (nx ny i j k : ℤ) :
    offset axis nx ny i j k = i + (nx + if axis = 0 then 1 else 0) * (j + (ny + if axis = 1 then 1 else 0) * k) := by
  fin_cases axis <;> simp [offset] <;> ring

/-- Different faces of a box have different positions. -/
theorem c89_layout_injective (axis : Fin 3) (nx ny i j k i' j' k' : ℤ)
    (hi : 0 ≤ i ∧ i < nx + if axis = 0 then 1 else 0) (hi' : 0 ≤ i' ∧ i' < nx + if axis = 0 then 1 else 0)
    (hj : 0 ≤ j ∧ j < ny + if axis = 1 then 1 else 0) (hj' : 0 ≤ j' ∧ j' < ny + if axis = 1 then 1 else 0)
    (h : offset axis nx ny i j k = offset axis nx ny i' j' k') : i = i' ∧ j = j' ∧ k = k' := by
  rw [c89_layout, c89_layout] at h
  generalize (nx + if axis = 0 then 1 else 0) = X at *
  generalize (ny + if axis = 1 then 1 else 0) = Y at *
  have step : ∀ a b a' b' N : ℤ, 0 ≤ a ∧ a < N → 0 ≤ a' ∧ a' < N → a + N * b = a' + N * b' → a = a' ∧ b = b' := by
    intro a b a' b' N ha ha' e
    have e1 := congrArg (· % N) e
    simp only [Int.add_mul_emod_self_left, Int.emod_eq_of_lt ha.1 ha.2, Int.emod_eq_of_lt ha'.1 ha'.2] at e1
    subst e1
    have : N ≠ 0 := by omega
    exact ⟨rfl, mul_left_cancel₀ this (add_left_cancel e)⟩
  obtain ⟨rfl, h2⟩ := step _ _ _ _ _ hi hi' h
  obtain ⟨rfl, h3⟩ := step _ _ _ _ _ hj hj' h2
  exact ⟨rfl, rfl, h3⟩

/-! ## C62 for this strategy -/

/-- **C62** (partial, composition-dependent diffusion): with the plain stencil and two phases every coefficient read was written. -/
theorem c62_mobility_partial (p : DiffCoeff.Patch) (f : ℤ × ℤ) (ph : Ph) (h : DiffCoeff.ReadPlainX p f)
    (hp : ph ∈ readPhases false) : WrittenX p f ∧ ph ∈ writtenPhases := ⟨h, hp⟩

/-- **C62 is violated** for composition-dependent diffusion: the isotropic stencil reads, on every non-empty patch,
coefficients next to the patch that were not computed; and with a phase B its coefficients are read but never computed. -/
theorem c62_violation_mobility (p : DiffCoeff.Patch) (h0 : p.lo0 ≤ p.hi0) (h1 : p.lo1 ≤ p.hi1) :
    (∃ f, DiffCoeff.ReadIsoX p f ∧ DiffCoeff.StoredX p (DiffCoeff.coeffGhosts true) f ∧ ¬ WrittenX p f) ∧
      ∃ ph ∈ readPhases true, ph ∉ writtenPhases := by
  refine ⟨⟨(p.lo0, p.lo1 - 1), ⟨p.lo0, p.lo1, le_rfl, by omega, le_rfl, h1, Or.inl rfl⟩, ?_, ?_⟩, .b, by decide, by decide⟩
  · unfold DiffCoeff.StoredX DiffCoeff.coeffGhosts
    simp only [if_true, Nat.cast_one]
    omega
  · unfold WrittenX
    simp only
    omega

end AMPE.MobDiff.Props
