import Mathlib.Analysis.Calculus.FDeriv.Pi
import Mathlib.Analysis.Calculus.Deriv.Comp
import Mathlib.Analysis.Calculus.Deriv.Prod
import Mathlib.Analysis.Calculus.Deriv.Inv
import Mathlib.Tactic.IntervalCases
import Mathlib.Tactic.Linarith
import Mathlib.Tactic.Ring
import Mathlib.Tactic.FieldSimp
import Mathlib.Tactic.LinearCombination
import Verif.Model.AlloyThree
import Verif.Props.MultiOrder

/-!
# C72 for three phases: the force on several order parameters and the energy

Specification: `E = Σ_j h_j κ_j f_j(c_j)` over the three phases, with the fractions the phase concentrations are
computed with, at fixed overall composition and along any differentiable motion of the order parameters.
-/

namespace AMPE.AlloyThree.Props

open AMPE.PhaseRHS AMPE.PhaseRHS.Props AMPE.Alloy

/-- The conditions on the phase concentrations: mass balance with the fractions `h`, equal chemical potentials. -/
structure Split3 {m : ℕ} (h : ℝ → Fin 3 → ℝ) (df : Fin 3 → (Fin m → ℝ) → Fin m → ℝ) (c : Fin m → ℝ)
    (cs : ℝ → Fin 3 → Fin m → ℝ) : Prop where
  mass : ∀ s i, ∑ j, h s j * cs s j i = c i
  equal : ∀ s j, df j (cs s j) = df 0 (cs s 0)

/-- Energy density of the three phases, in energy per volume. -/
noncomputable def mixture3 {m : ℕ} (h : ℝ → Fin 3 → ℝ) (kap : Fin 3 → ℝ) (f : Fin 3 → (Fin m → ℝ) → ℝ)
    (cs : ℝ → Fin 3 → Fin m → ℝ) (s : ℝ) : ℝ := ∑ j, h s j * (kap j * f j (cs s j))

/-- The phase of an order parameter: 0 liquid, 1 A, 2 B. -/
def phaseOf {n : ℕ} (nA : ℕ) (k : Fin (n + 1)) : Fin 3 := if k = Fin.last n then 0 else if k.val < nA then 1 else 2

theorem sum_squares (n nA : ℕ) (phi : Fin (n + 1) → ℝ) :
    phi (Fin.last n) * phi (Fin.last n)
      + (∑ k : Fin n, if k.val < nA then phi k.castSucc * phi k.castSucc else 0)
      + (∑ k : Fin n, if k.val < nA then 0 else phi k.castSucc * phi k.castSucc) = ∑ k, phi k ^ 2 := by
  rw [Fin.sum_univ_castSucc, add_assoc, ← Finset.sum_add_distrib, add_comm]
  congr 1
  · exact Finset.sum_congr rfl fun k _ => by split_ifs <;> ring
  · ring

/-- The fractions are sums of normalised squares over the order parameters of the phase. -/
theorem shares_eq (n nA : ℕ) (phi : Fin (n + 1) → ℝ) (j : Fin 3) :
    shares n nA phi j = interpEnergy (fun k => if phaseOf nA k = j then 1 else 0) phi := by
  have hs := sum_squares n nA phi
  have e : ∀ k : Fin n, phaseOf nA k.castSucc = if k.val < nA then 1 else 2 := fun k => by
    unfold phaseOf
    rw [if_neg (Fin.castSucc_lt_last k).ne, Fin.val_castSucc]
  have el : phaseOf nA (Fin.last n) = 0 := if_pos rfl
  unfold shares interpEnergy
  simp only []
  rw [hs, Fin.sum_univ_castSucc (fun k => (if phaseOf nA k = j then (1 : ℝ) else 0) * phi k ^ 2), el]
  simp only [e]
  rcases j with ⟨j, hj⟩
  interval_cases j
  · have z : ∑ x : Fin n, (if (if x.val < nA then (1 : Fin 3) else 2) = ⟨0, hj⟩ then (1 : ℝ) else 0) * phi x.castSucc ^ 2
        = 0 := Finset.sum_eq_zero fun k _ => by by_cases hk : k.val < nA <;> simp [hk]
    rw [z]
    simp; ring
  · have z : ∑ x : Fin n, (if (if x.val < nA then (1 : Fin 3) else 2) = ⟨1, hj⟩ then (1 : ℝ) else 0) * phi x.castSucc ^ 2
        = ∑ k : Fin n, if k.val < nA then phi k.castSucc * phi k.castSucc else 0 :=
      Finset.sum_congr rfl fun k _ => by by_cases hk : k.val < nA <;> simp [hk, pow_two]
    rw [z]
    simp; ring
  · have z : ∑ x : Fin n, (if (if x.val < nA then (1 : Fin 3) else 2) = ⟨2, hj⟩ then (1 : ℝ) else 0) * phi x.castSucc ^ 2
        = ∑ k : Fin n, if k.val < nA then 0 else phi k.castSucc * phi k.castSucc :=
      Finset.sum_congr rfl fun k _ => by by_cases hk : k.val < nA <;> simp [hk, pow_two]
    rw [z]
    simp; ring

/-- Each fraction has a derivative, and the force with constants `d` is minus the derivative of `Σ_j d_j h_j`. -/
theorem shares_deriv (n nA : ℕ) (hnA : nA ≤ n) (phi : ℝ → Fin (n + 1) → ℝ) (v : Fin (n + 1) → ℝ) (t : ℝ)
    (hv : ∀ k, HasDerivAt (fun s => phi s k) (v k) t) (h : ∑ k, phi t k ^ 2 ≠ 0) :
    ∃ h' : Fin 3 → ℝ, (∀ j, HasDerivAt (fun s => shares n nA (phi s) j) (h' j) t) ∧
      ∀ d : Fin 3 → ℝ, ∑ p, ternaryDriving n nA (d 0) (d 1) (d 2) (phi t) p * v p = -∑ j, d j * h' j := by
  have hd : ∀ j, ∃ a, HasDerivAt (fun s => shares n nA (phi s) j) a t := fun j => by
    simp only [shares_eq]
    exact ⟨_, interpEnergy_deriv _ phi v t hv h⟩
  choose h' hh using hd
  refine ⟨h', hh, fun d => ?_⟩
  have a := c36_three_phase n nA hnA (d 0) (d 1) (d 2) phi v t hv h
  have b := HasDerivAt.fun_sum (u := (Finset.univ : Finset (Fin 3))) fun j _ => (hh j).const_mul (d j)
  have e : (fun s => interpEnergy (fun k => if k = Fin.last n then d 0 else if k.val < nA then d 1 else d 2) (phi s))
      = fun s => ∑ j, d j * shares n nA (phi s) j := by
    funext s
    simp only [shares_eq]
    unfold interpEnergy
    rw [Fin.sum_univ_three, mul_div_assoc', mul_div_assoc', mul_div_assoc', ← add_div, ← add_div, Finset.mul_sum,
      Finset.mul_sum, Finset.mul_sum, ← Finset.sum_add_distrib, ← Finset.sum_add_distrib]
    congr 1
    refine Finset.sum_congr rfl fun k _ => ?_
    unfold phaseOf
    beta_reduce
    by_cases h1 : k = Fin.last n
    · simp [h1]
    · by_cases h2 : k.val < nA <;> simp [h1, h2]
  rw [e] at a
  have := a.unique b
  linarith

/-- General form: energies per volume with factors `kap`, a chemical potential `mu` common to the three phases. -/
theorem three_phase {m n nA : ℕ} (hnA : nA ≤ n) (kap : Fin 3 → ℝ) (f : Fin 3 → (Fin m → ℝ) → ℝ) (mu : Fin m → ℝ)
    (cs : ℝ → Fin 3 → Fin m → ℝ) (cs' : Fin 3 → Fin m → ℝ) (phi : ℝ → Fin (n + 1) → ℝ)
    (v : Fin (n + 1) → ℝ) (t : ℝ) (hv : ∀ k, HasDerivAt (fun s => phi s k) (v k) t) (h : ∑ k, phi t k ^ 2 ≠ 0)
    (hc : ∀ j i, HasDerivAt (fun s => cs s j i) (cs' j i) t)
    (hf : ∀ j, HasFDerivAt (f j) (∑ i, mu i • ContinuousLinearMap.proj (R := ℝ) (φ := fun _ : Fin m => ℝ) i) (cs t j)) :
    ∃ h' : Fin 3 → ℝ, (∀ j, HasDerivAt (fun s => shares n nA (phi s) j) (h' j) t) ∧
      (∀ d : Fin 3 → ℝ, ∑ p, ternaryDriving n nA (d 0) (d 1) (d 2) (phi t) p * v p = -∑ j, d j * h' j) ∧
      HasDerivAt (mixture3 (fun s => shares n nA (phi s)) kap f cs)
        (∑ j, (h' j * (kap j * f j (cs t j)) + shares n nA (phi t) j * (kap j * ∑ i, mu i * cs' j i))) t := by
  obtain ⟨h', hh, hd⟩ := shares_deriv n nA hnA phi v t hv h
  refine ⟨h', hh, hd, ?_⟩
  refine HasDerivAt.fun_sum fun j _ => ?_
  have hcj : HasDerivAt (fun s => cs s j) (cs' j) t := hasDerivAt_pi.2 (hc j)
  have g := (hf j).comp_hasDerivAt t hcj
  refine ((hh j).mul (g.const_mul (kap j))).congr_deriv ?_
  simp [Function.comp]

/-- **C72** (ternary alloys with quadratic energies, three phases): along any motion of the order parameters at fixed
overall composition, minus the power of the added forces differs from the rate of change of the energy density by the
chemical potential (per mole) times the rate of change of the molar amounts weighted by the inverse molar volumes. -/
theorem c72_three_phase_deviation {n nA : ℕ} (hnA : nA ≤ n) (vm : Fin 3 → ℝ) (f : Fin 3 → (Fin 2 → ℝ) → ℝ)
    (df : Fin 3 → (Fin 2 → ℝ) → Fin 2 → ℝ) (c : Fin 2 → ℝ) (cs : ℝ → Fin 3 → Fin 2 → ℝ) (cs' : Fin 3 → Fin 2 → ℝ)
    (phi : ℝ → Fin (n + 1) → ℝ) (v : Fin (n + 1) → ℝ) (t : ℝ) (hv : ∀ k, HasDerivAt (fun s => phi s k) (v k) t)
    (h : ∑ k, phi t k ^ 2 ≠ 0) (hs : Split3 (fun s => shares n nA (phi s)) df c cs)
    (hc : ∀ j i, HasDerivAt (fun s => cs s j i) (cs' j i) t)
    (hf : ∀ j x, HasFDerivAt (f j) (∑ i, df j x i • ContinuousLinearMap.proj (R := ℝ) (φ := fun _ : Fin 2 => ℝ) i) x) :
    ∃ D : Fin 2 → ℝ,
      (∀ i, HasDerivAt (fun s => ∑ j, invVm (vm j) * (shares n nA (phi s) j * cs s j i)) (D i) t) ∧
      HasDerivAt (mixture3 (fun s => shares n nA (phi s)) (fun j => invVm (vm j)) f cs)
        (-∑ p, driveQuadratic n nA vm df (fun j => invVm (vm j) * f j (cs t j)) (cs t) (phi t) p * v p
          + ∑ i, df 0 (cs t 0) i * D i) t := by
  obtain ⟨h', hh, hd, hE⟩ := three_phase hnA (fun j => invVm (vm j)) f (df 0 (cs t 0)) cs cs' phi v t hv h hc
    fun j => by rw [← hs.equal t j]; exact hf j _
  refine ⟨fun i => ∑ j, invVm (vm j) * (h' j * cs t j i + shares n nA (phi t) j * cs' j i), fun i =>
    HasDerivAt.fun_sum fun j _ => ((hh j).mul (hc j i)).const_mul _, hE.congr_deriv ?_⟩
  unfold driveQuadratic
  simp only [hs.equal t]
  have e := hd fun j => invVm (vm j) * f j (cs t j) - df 0 (cs t 0) 0 * invVm (vm j) * cs t j 0
    - df 0 (cs t 0) 1 * invVm (vm j) * cs t j 1
  rw [e]
  simp only [Fin.sum_univ_three, Fin.sum_univ_two]
  ring

/-- **C72** (ternary alloys with quadratic energies, three phases, one molar volume): the added forces are minus the
derivative of the energy density at fixed overall composition. -/
theorem c72_three_phase_ternary {n nA : ℕ} (hnA : nA ≤ n) (vm : ℝ) (f : Fin 3 → (Fin 2 → ℝ) → ℝ)
    (df : Fin 3 → (Fin 2 → ℝ) → Fin 2 → ℝ) (c : Fin 2 → ℝ) (cs : ℝ → Fin 3 → Fin 2 → ℝ) (cs' : Fin 3 → Fin 2 → ℝ)
    (phi : ℝ → Fin (n + 1) → ℝ) (v : Fin (n + 1) → ℝ) (t : ℝ) (hv : ∀ k, HasDerivAt (fun s => phi s k) (v k) t)
    (h : ∑ k, phi t k ^ 2 ≠ 0) (hs : Split3 (fun s => shares n nA (phi s)) df c cs)
    (hc : ∀ j i, HasDerivAt (fun s => cs s j i) (cs' j i) t)
    (hf : ∀ j x, HasFDerivAt (f j) (∑ i, df j x i • ContinuousLinearMap.proj (R := ℝ) (φ := fun _ : Fin 2 => ℝ) i) x) :
    HasDerivAt (mixture3 (fun s => shares n nA (phi s)) (fun _ => invVm vm) f cs)
      (-∑ p, driveQuadratic n nA (fun _ => vm) df (fun j => invVm vm * f j (cs t j)) (cs t) (phi t) p * v p) t := by
  obtain ⟨D, hD, hE⟩ := c72_three_phase_deviation hnA (fun _ => vm) f df c cs cs' phi v t hv h hs hc hf
  refine hE.congr_deriv ?_
  have z : ∀ i, D i = 0 := fun i => by
    refine (hD i).unique ?_
    have : (fun s => ∑ j, invVm vm * (shares n nA (phi s) j * cs s j i)) = fun _ => invVm vm * c i := by
      funext s
      rw [← Finset.mul_sum, hs.mass s i]
    rw [this]
    exact hasDerivAt_const _ _
  simp [z]

/-- **C72** (binary CALPHAD alloys, three phases and several order parameters): with one molar volume the forces are
minus the derivative of the energy density; with three, the deviation is the chemical potential times
`Σ_j (1/V_j - 1/V_L) h_j ċ_j`. -/
theorem c72_three_phase_binary {n nA : ℕ} (hnA : nA ≤ n) (vm : Fin 3 → ℝ) (f df : Fin 3 → ℝ → ℝ) (c : ℝ)
    (cs : ℝ → Fin 3 → ℝ) (cs' : Fin 3 → ℝ) (phi : ℝ → Fin (n + 1) → ℝ) (v : Fin (n + 1) → ℝ) (t : ℝ)
    (hv : ∀ k, HasDerivAt (fun s => phi s k) (v k) t) (h : ∑ k, phi t k ^ 2 ≠ 0)
    (hm : ∀ s, ∑ j, shares n nA (phi s) j * cs s j = c) (he : ∀ s j, df j (cs s j) = df 0 (cs s 0))
    (hc : ∀ j, HasDerivAt (fun s => cs s j) (cs' j) t) (hf : ∀ j x, HasDerivAt (f j) (df j x) x) :
    HasDerivAt (fun s => ∑ j, shares n nA (phi s) j * (invVm (vm j) * f j (cs s j)))
      (-∑ p, driveCalphad n nA true (vm 0) (df 0) (fun j => invVm (vm j) * f j (cs t j)) (cs t) (phi t) p * v p
        + df 0 (cs t 0) * ∑ j, (invVm (vm j) - invVm (vm 0)) * (shares n nA (phi t) j * cs' j)) t := by
  obtain ⟨h', hh, hd⟩ := shares_deriv n nA hnA phi v t hv h
  have hE : HasDerivAt (fun s => ∑ j, shares n nA (phi s) j * (invVm (vm j) * f j (cs s j)))
      (∑ j, (h' j * (invVm (vm j) * f j (cs t j))
        + shares n nA (phi t) j * (invVm (vm j) * (df 0 (cs t 0) * cs' j)))) t :=
    HasDerivAt.fun_sum fun j _ => ((hh j).mul (((by rw [← he t j]; exact hf j _ :
      HasDerivAt (f j) (df 0 (cs t 0)) (cs t j)).comp t (hc j)).const_mul _)).congr_deriv (by simp [Function.comp])
  have hmass : ∑ j, (h' j * cs t j + shares n nA (phi t) j * cs' j) = 0 := by
    have a : HasDerivAt (fun s => ∑ j, shares n nA (phi s) j * cs s j)
        (∑ j, (h' j * cs t j + shares n nA (phi t) j * cs' j)) t := HasDerivAt.fun_sum fun j _ => (hh j).mul (hc j)
    rw [show (fun s => ∑ j, shares n nA (phi s) j * cs s j) = fun _ => c from funext hm] at a
    exact a.unique (hasDerivAt_const _ _)
  refine hE.congr_deriv ?_
  unfold driveCalphad
  simp only [if_true]
  have e := hd fun j => invVm (vm j) * f j (cs t j) - df 0 (cs t 0) * invVm (vm 0) * cs t j
  rw [e]
  simp only [Fin.sum_univ_three] at hmass ⊢
  linear_combination df 0 (cs t 0) * invVm (vm 0) * hmass

/-- **C72** (three phases): the deviation for different molar volumes does occur: parabolas with equal curvature and
three different minima, the order parameters of liquid and phase A moving against each other. -/
theorem c72_violation_three_phase_volumes (vl va : ℝ) (hl : 0 < vl) (ha : 0 < va) (hne : vl ≠ va) :
    ∃ (f df : Fin 3 → ℝ → ℝ) (c : ℝ) (cs : ℝ → Fin 3 → ℝ) (cs' : Fin 3 → ℝ) (phi : ℝ → Fin 3 → ℝ) (v : Fin 3 → ℝ),
      (∀ k, HasDerivAt (fun s => phi s k) (v k) 0) ∧ (∑ k, phi 0 k ^ 2 ≠ 0) ∧
      (∀ s, ∑ j, shares 2 1 (phi s) j * cs s j = c) ∧ (∀ s j, df j (cs s j) = df 0 (cs s 0)) ∧
      (∀ j, HasDerivAt (fun s => cs s j) (cs' j) 0) ∧ (∀ j x, HasDerivAt (f j) (df j x) x) ∧
      ¬ HasDerivAt (fun s => ∑ j, shares 2 1 (phi s) j * (invVm (![vl, va, va] j) * f j (cs s j)))
        (-∑ p, driveCalphad 2 1 true vl (df 0) (fun j => invVm (![vl, va, va] j) * f j (cs 0 j)) (cs 0) (phi 0) p * v p)
        0 := by
  let h : ℝ → ℝ := fun s => (1 + s) * (1 + s) * (1 / (1 + (1 + s) * (1 + s)))
  have hsh : ∀ s, shares 2 1 ![1 + s, 0, 1] = ![1 - h s, h s, 0] := fun s => by
    have : (1 : ℝ) + (1 + s) * (1 + s) ≠ 0 := by nlinarith [mul_self_nonneg (1 + s)]
    funext j
    fin_cases j <;> simp [shares, h, Fin.sum_univ_two, Fin.last]
    field_simp; ring
  have hh : HasDerivAt h (1 / 2) 0 := by
    have a : HasDerivAt (fun s : ℝ => (1 + s) * (1 + s)) 2 0 :=
      (((hasDerivAt_id (0 : ℝ)).const_add 1).mul ((hasDerivAt_id (0 : ℝ)).const_add 1)).congr_deriv (by norm_num)
    have b := a.mul ((hasDerivAt_const (0 : ℝ) (1 : ℝ)).div (a.const_add 1) (by norm_num))
    refine b.congr_deriv ?_
    norm_num
  let m : Fin 3 → ℝ := ![0, 1, 0]
  let phi : ℝ → Fin 3 → ℝ := fun s => ![1 + s, 0, 1]
  have h1 : ∀ k, HasDerivAt (fun s => phi s k) ((![1, 0, 0] : Fin 3 → ℝ) k) 0 := fun k => by
    fin_cases k
    · exact (hasDerivAt_id (0 : ℝ)).const_add 1
    · exact hasDerivAt_const _ _
    · exact hasDerivAt_const _ _
  have h2 : ∑ k, phi 0 k ^ 2 ≠ 0 := by simp [phi, Fin.sum_univ_three]
  have h3 : ∀ s, ∑ j, shares 2 1 (phi s) j * (1 - h s + m j) = 1 := fun s => by
    simp only [phi, hsh, Fin.sum_univ_three, m]
    simp
    ring
  have h5 : ∀ j : Fin 3, HasDerivAt (fun s => 1 - h s + m j) (-(1 / 2)) 0 := fun j => (hh.const_sub 1).add_const _
  have h6 : ∀ (j : Fin 3) (x : ℝ), HasDerivAt (fun y : ℝ => (y - m j) ^ 2) (2 * (x - m j)) x := fun j x =>
    (((hasDerivAt_id x).sub_const (m j)).pow 2).congr_deriv (by simp)
  refine ⟨fun j x => (x - m j) ^ 2, fun j x => 2 * (x - m j), 1, fun s j => 1 - h s + m j, fun _ => -(1 / 2), phi,
    ![1, 0, 0], h1, h2, h3, fun s j => by simp [m], h5, h6, fun hd => ?_⟩
  have key := c72_three_phase_binary (n := 2) (nA := 1) (by norm_num) ![vl, va, va] (fun j x => (x - m j) ^ 2)
    (fun j x => 2 * (x - m j)) 1 (fun s j => 1 - h s + m j) (fun _ => -(1 / 2)) phi ![1, 0, 0] 0 h1 h2 h3
    (fun s j => by simp [m]) h5 h6
  have e := add_eq_left.1 (hd.unique key).symm
  have h0 : h 0 = 1 / 2 := by simp only [h]; norm_num
  have hs0 : shares 2 1 (phi 0) = ![1 - h 0, h 0, 0] := hsh 0
  rw [hs0] at e
  have z : (invVm va - invVm vl) = 0 := by
    simp [h0, m, Fin.sum_univ_three] at e
    rcases e with e | e
    · norm_num at e
    · exact e
  unfold invVm at z
  have : vl = va := by
    field_simp at z
    linarith
  exact hne this

theorem shares_sum (n nA : ℕ) (phi : Fin (n + 1) → ℝ) (h : ∑ k, phi k ^ 2 ≠ 0) : ∑ j, shares n nA phi j = 1 := by
  have hs := sum_squares n nA phi
  rw [← hs] at h
  unfold shares
  simp only [Fin.sum_univ_three]
  have a : ∀ x y z : ℝ, x + y + z ≠ 0 → x * (1 / (x + y + z)) + y * (1 / (x + y + z)) + z * (1 / (x + y + z)) = 1 :=
    fun x y z h => by rw [← add_mul, ← add_mul, mul_one_div, div_self h]
  exact a _ _ _ h

/-- The hypotheses of `c72_three_phase_ternary` hold along every motion of the order parameters, e.g. for energies with
constant chemical potentials and phases whose compositions differ by fixed amounts. -/
example (n nA : ℕ) (hnA : nA ≤ n) (phi : ℝ → Fin (n + 1) → ℝ) (v : Fin (n + 1) → ℝ) (t : ℝ)
    (hv : ∀ k, HasDerivAt (fun s => phi s k) (v k) t) (h : ∀ s, ∑ k, phi s k ^ 2 ≠ 0) (c mu : Fin 2 → ℝ)
    (m : Fin 3 → Fin 2 → ℝ) :
    ∃ (f : Fin 3 → (Fin 2 → ℝ) → ℝ) (cs : ℝ → Fin 3 → Fin 2 → ℝ) (cs' : Fin 3 → Fin 2 → ℝ),
      Split3 (fun s => shares n nA (phi s)) (fun _ _ => mu) c cs ∧ (∀ j i, HasDerivAt (fun s => cs s j i) (cs' j i) t) ∧
      (∀ j x, HasFDerivAt (f j) (∑ i, mu i • ContinuousLinearMap.proj (R := ℝ) (φ := fun _ : Fin 2 => ℝ) i) x) ∧
      ∀ s i, cs s 1 i - cs s 0 i = m 1 i - m 0 i := by
  obtain ⟨h', hh, -⟩ := shares_deriv n nA hnA phi v t hv (h t)
  refine ⟨fun _ x => (∑ i, mu i • ContinuousLinearMap.proj (R := ℝ) (φ := fun _ : Fin 2 => ℝ) i) x,
    fun s j i => c i + m j i - ∑ k, shares n nA (phi s) k * m k i, fun j i => 0 - ∑ k, h' k * m k i,
    ⟨fun s i => ?_, fun s j => rfl⟩, fun j i => ?_, fun j x => ContinuousLinearMap.hasFDerivAt _, fun s i => by ring⟩
  · have e := shares_sum n nA (phi s) (h s)
    rw [Fin.sum_univ_three] at e
    simp only [Fin.sum_univ_three]
    linear_combination (c i - (shares n nA (phi s) 0 * m 0 i + shares n nA (phi s) 1 * m 1 i
      + shares n nA (phi s) 2 * m 2 i)) * e
  · exact (hasDerivAt_const _ _).sub (HasDerivAt.fun_sum fun k _ => (hh k).mul_const _)

end AMPE.AlloyThree.Props
