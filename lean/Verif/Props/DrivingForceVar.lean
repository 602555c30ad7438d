import Verif.Model.DrivingForce
import Mathlib.Analysis.Calculus.Deriv.Add
import Mathlib.Analysis.Calculus.Deriv.Mul
import Mathlib.Analysis.Calculus.Deriv.Inv
import Mathlib.Analysis.Calculus.Deriv.Pow
import Mathlib.Tactic.FieldSimp
import Mathlib.Tactic.Ring
import Mathlib.Tactic.Linarith

/-! # C105: the driving force is the slope of the grand potential of the mixture

Specification: with the chemical potentials of one phase, every phase has a grand potential `f - Σ mu c`; the mixture weights them with the
phase fractions.  The force on an order parameter is minus the derivative of the mixture at fixed potentials. -/

namespace AMPE.DrivingForce.Props

open Finset

/-- **C105.** One order parameter, one species: minus the slope of `h omega_A + (1 - h) omega_L`. -/
theorem c105_force_binary (muOf : Local 1 1 → ℝ) (h hp : ℝ → ℝ) (l : Local 1 1) (hd : HasDerivAt h (hp (l.pf 0)) (l.pf 0)) (p : Fin 1) :
    HasDerivAt (fun x => h x * (l.fa - muOf l * l.ca 0) + (1 - h x) * (l.fl - muOf l * l.cl 0)) (-forceBinary muOf hp l p) (l.pf 0) := by
  have h1 := (hd.mul_const (l.fa - muOf l * l.ca 0)).add ((hd.const_sub 1).mul_const (l.fl - muOf l * l.cl 0))
  exact h1.congr_deriv (by unfold forceBinary; ring)

/-- **C105.** Two species. -/
theorem c105_force_ternary (mu : ℝ → (Fin 2 → ℝ) → Fin 2 → ℝ) (h hp : ℝ → ℝ) (l : Local 1 2) (hd : HasDerivAt h (hp (l.pf 0)) (l.pf 0))
    (p : Fin 1) :
    HasDerivAt (fun x => h x * (l.fa - ∑ i, mu l.te l.ca i * l.ca i) + (1 - h x) * (l.fl - ∑ i, mu l.te l.ca i * l.cl i))
      (-forceTernary mu hp l p) (l.pf 0) := by
  have h1 := (hd.mul_const (l.fa - ∑ i, mu l.te l.ca i * l.ca i)).add
    ((hd.const_sub 1).mul_const (l.fl - ∑ i, mu l.te l.ca i * l.cl i))
  refine h1.congr_deriv ?_
  unfold forceTernary
  simp only [Fin.sum_univ_two]
  ring

/-- Grand potential of the phase an order parameter belongs to: the first `nA` phase A, the last the liquid. -/
noncomputable def phasePotential (n nA : ℕ) (phaseB : Bool) (m : ℝ) (l : Local (n + 1) 1) (p : Fin (n + 1)) : ℝ :=
  if p = Fin.last n then l.fl - m * l.cl 0
  else if (p : ℕ) < nA then l.fa - m * l.ca 0
  else if phaseB then l.fb - m * l.cb 0 else 0

/-- Mixture with the fractions `phi_i^2 / Σ phi_j^2`. -/
noncomputable def mixture {n : ℕ} (g phi : Fin (n + 1) → ℝ) : ℝ := (∑ i, g i * phi i ^ 2) / ∑ i, phi i ^ 2

theorem hasDerivAt_sum_update {N : ℕ} (g phi : Fin N → ℝ) (p : Fin N) :
    HasDerivAt (fun x => ∑ i, g i * Function.update phi p x i ^ 2) (g p * (2 * phi p)) (phi p) := by
  have e : (fun x => ∑ i, g i * Function.update phi p x i ^ 2) =
      fun x => g p * x ^ 2 + ∑ i ∈ univ.erase p, g i * phi i ^ 2 := by
    funext x
    rw [← Finset.add_sum_erase univ _ (mem_univ p), Function.update_self]
    congr 1
    exact Finset.sum_congr rfl fun i hi => by rw [Function.update_of_ne (Finset.ne_of_mem_erase hi)]
  rw [e]
  exact (((hasDerivAt_pow 2 (phi p)).const_mul (g p)).add_const _).congr_deriv (by norm_num)

theorem mixture_deriv {n : ℕ} (g phi : Fin (n + 1) → ℝ) (p : Fin (n + 1)) (hS : ∑ i, phi i ^ 2 ≠ 0) :
    HasDerivAt (fun x => mixture g (Function.update phi p x)) (2 * phi p * (g p - mixture g phi) / ∑ i, phi i ^ 2) (phi p) := by
  have h1 := hasDerivAt_sum_update g phi p
  have h2 := hasDerivAt_sum_update (fun _ => 1) phi p
  simp only [one_mul] at h2
  have hS' : ∑ i, Function.update phi p (phi p) i ^ 2 ≠ 0 := by rw [Function.update_eq_self]; exact hS
  have h3 := h1.div h2 hS'
  unfold mixture
  refine h3.congr_deriv ?_
  rw [Function.update_eq_self]
  field_simp

/-- **C105.** Several order parameters in two or three phases: the force on each is minus the slope of the mixture. -/
theorem c105_force_multi (n nA : ℕ) (phaseB : Bool) (mu : ℝ → ℝ → ℝ) (l : Local (n + 1) 1) (hS : ∑ i, l.pf i ^ 2 ≠ 0) (p : Fin (n + 1)) :
    HasDerivAt (fun x => mixture (phasePotential n nA phaseB (mu l.te (l.cl 0)) l) (Function.update l.pf p x))
      (-forceMulti n nA phaseB mu l p) (l.pf p) := by
  refine (mixture_deriv _ l.pf p hS).congr_deriv ?_
  set m := mu l.te (l.cl 0) with hm
  set g := phasePotential n nA phaseB m l with hg
  set S := ∑ i, l.pf i ^ 2
  have hlast : g (Fin.last n) = l.fl - m * l.cl 0 := by rw [hg]; unfold phasePotential; rw [if_pos rfl]
  have hcast : ∀ i : Fin n, g i.castSucc = if (i : ℕ) < nA then l.fa - m * l.ca 0 else if phaseB then l.fb - m * l.cb 0 else 0 := by
    intro i
    rw [hg]
    unfold phasePotential
    rw [if_neg (Fin.castSucc_lt_last i).ne]
    simp only [Fin.val_castSucc]
  set sA := ∑ i : Fin n, if (i : ℕ) < nA then l.pf i.castSucc * l.pf i.castSucc else 0 with hsA
  set sB := ∑ i : Fin n, if (i : ℕ) < nA then 0 else l.pf i.castSucc * l.pf i.castSucc with hsB
  have hSsum : S = l.pf (Fin.last n) * l.pf (Fin.last n) + sA + sB := by
    have : ∑ i : Fin n, l.pf i.castSucc ^ 2 = sA + sB := by
      rw [hsA, hsB, ← Finset.sum_add_distrib]
      exact Finset.sum_congr rfl fun i _ => by split_ifs <;> ring
    calc S = ∑ i : Fin n, l.pf i.castSucc ^ 2 + l.pf (Fin.last n) ^ 2 := Fin.sum_univ_castSucc _
      _ = _ := by rw [this]; ring
  have hG : ∑ i, g i * l.pf i ^ 2 = (l.fl - m * l.cl 0) * (l.pf (Fin.last n) * l.pf (Fin.last n)) + (l.fa - m * l.ca 0) * sA +
      (if phaseB then l.fb - m * l.cb 0 else 0) * sB := by
    rw [Fin.sum_univ_castSucc, hlast, hsA, hsB, Finset.mul_sum, Finset.mul_sum, add_comm, add_assoc, ← Finset.sum_add_distrib]
    congr 1
    · ring
    · refine Finset.sum_congr rfl fun i _ => ?_
      rw [hcast i]
      by_cases hi : (i : ℕ) < nA
      · simp only [if_pos hi]; ring
      · simp only [if_neg hi]; ring
  unfold mixture forceMulti
  simp only [← hm, ← hsA, ← hsB]
  rw [hG, ← hSsum]
  change 2 * l.pf p * (g p - _ / S) / S = _
  have hS0 : S ≠ 0 := hS
  set b := if phaseB = true then l.fb - m * l.cb 0 else 0
  by_cases hp : p = Fin.last n
  · rw [if_pos hp, hp, hlast]
    field_simp
    rw [hSsum]
    ring
  · rw [if_neg hp]
    have hgp : g p = if (p : ℕ) < nA then l.fa - m * l.ca 0 else b := by
      rw [hg]; unfold phasePotential; rw [if_neg hp]
    by_cases hA : (p : ℕ) < nA
    · rw [if_pos hA, hgp, if_pos hA]
      field_simp
      rw [hSsum]
      ring
    · rw [if_neg hA, hgp, if_neg hA]
      field_simp
      rw [hSsum]
      ring

/-- **C105.** The forces do not change when all order parameters grow together: they drive only the proportions. -/
theorem c105_force_multi_tangent (n nA : ℕ) (phaseB : Bool) (mu : ℝ → ℝ → ℝ) (l : Local (n + 1) 1) (hS : ∑ i, l.pf i ^ 2 ≠ 0) :
    ∑ p, l.pf p * forceMulti n nA phaseB mu l p = 0 := by
  have h : ∀ p, forceMulti n nA phaseB mu l p = -(2 * l.pf p * (phasePotential n nA phaseB (mu l.te (l.cl 0)) l p -
      mixture (phasePotential n nA phaseB (mu l.te (l.cl 0)) l) l.pf) / ∑ i, l.pf i ^ 2) := by
    intro p
    have h1 := (c105_force_multi n nA phaseB mu l hS p).unique (mixture_deriv _ l.pf p hS)
    linarith
  simp only [h]
  set g := phasePotential n nA phaseB (mu l.te (l.cl 0)) l
  have e : ∀ p, l.pf p * -(2 * l.pf p * (g p - mixture g l.pf) / ∑ i, l.pf i ^ 2) =
      -(2 / ∑ i, l.pf i ^ 2) * (g p * l.pf p ^ 2) + 2 / (∑ i, l.pf i ^ 2) * mixture g l.pf * l.pf p ^ 2 := fun p => by ring
  simp only [e]
  rw [Finset.sum_add_distrib, ← Finset.mul_sum, ← Finset.mul_sum]
  unfold mixture
  field_simp
  ring

/-- **C105.** At two-phase equilibrium (equal chemical potentials in both phases and equal grand potentials) no strategy drives the
interface, whichever phase it takes the chemical potential from. -/
theorem c105_equilibrium (o : Obj) (muL muA : ℝ → ℝ → ℝ) (l : Local 1 1) (m : ℝ) (hL : muL l.te (l.cl 0) = m) (hA : muA l.te (l.ca 0) = m)
    (hw : l.fl - m * l.cl 0 = l.fa - m * l.ca 0) (p : Fin 1) : o.force muL muA l p = 0 := by
  have hmu : o.mu muL muA l = m := by
    unfold Obj.mu
    cases o.kind <;> simp only [hL, hA]
  unfold Obj.force forceBinary
  rw [hmu]
  have : (l.fl - l.fa) - m * (l.cl 0 - l.ca 0) = 0 := by linarith
  rw [this, mul_zero]

/-- **C105.** Same for two species. -/
theorem c105_equilibrium_ternary (mu : ℝ → (Fin 2 → ℝ) → Fin 2 → ℝ) (hp : ℝ → ℝ) (l : Local 1 2)
    (hw : l.fl - ∑ i, mu l.te l.ca i * l.cl i = l.fa - ∑ i, mu l.te l.ca i * l.ca i) (p : Fin 1) : forceTernary mu hp l p = 0 := by
  unfold forceTernary
  simp only [Fin.sum_univ_two] at hw
  have : l.fl - l.fa - mu l.te l.ca 0 * (l.cl 0 - l.ca 0) - mu l.te l.ca 1 * (l.cl 1 - l.ca 1) = 0 := by linarith
  rw [this, mul_zero]

/-- An equilibrium with different compositions: parabolas around 0 and 1 of the same depth. -/
example : ∃ (muL muA : ℝ → ℝ → ℝ) (l : Local 1 1) (m : ℝ), muL l.te (l.cl 0) = m ∧ muA l.te (l.ca 0) = m ∧ l.cl 0 ≠ l.ca 0 ∧
    l.fl - m * l.cl 0 = l.fa - m * l.ca 0 :=
  ⟨fun _ c => 2 * c, fun _ c => 2 * (c - 1), ⟨1, fun _ => 1 / 2, fun _ => 0, fun _ => 1, fun _ => 0, 0, 0, 0⟩, 0, by norm_num, by norm_num,
    by norm_num, by norm_num⟩

/-- Order parameters with a nonzero sum of squares. -/
example : ∑ i : Fin 3, (fun i : Fin 3 => if i = 0 then (1 : ℝ) else 0) i ^ 2 ≠ 0 := by
  simp [Fin.sum_univ_three]

end AMPE.DrivingForce.Props
