import Verif.Props.PhaseRHS
import Mathlib.Analysis.SpecialFunctions.Trigonometric.Arctan
import Mathlib.Algebra.BigOperators.Field

/-! # C35, C36, C46, C54-C56: multi-order forces, convection stencils, sintering energy, thermal driving forces -/

namespace AMPE.PhaseRHS.Props

open AMPE.Functions AMPE.Functions.Props AMPE.Flux AMPE.Flux.Props AMPE.PhaseRHS

/-! ## C35 -/

/-- Specification: the multi-well potential of Moelans et al. -/
noncomputable def multiPotential (n : ℕ) (gamma m : ℝ) (phi : Fin n → ℝ) : ℝ :=
  m * ((∑ k, (phi k ^ 4 / 4 - phi k ^ 2 / 2)) + gamma * ∑ i, ∑ j, if i < j then phi i ^ 2 * phi j ^ 2 else 0)

theorem pair_sum (n : ℕ) (q : Fin n → ℝ) :
    (∑ i, ∑ j, if i < j then q i * q j else 0) = 1 / 2 * ((∑ k, q k) ^ 2 - ∑ k, q k ^ 2) := by
  have h1 : (∑ k, q k) ^ 2 = ∑ i, ∑ j, q i * q j := by rw [pow_two, Finset.sum_mul_sum]
  have h2 : (∑ i, ∑ j, q i * q j) = (∑ i, ∑ j, if i < j then q i * q j else 0)
      + (∑ i, ∑ j, if j < i then q i * q j else 0) + ∑ i, ∑ j, if i = j then q i * q j else 0 := by
    rw [← Finset.sum_add_distrib, ← Finset.sum_add_distrib]
    refine Finset.sum_congr rfl fun i _ => ?_
    rw [← Finset.sum_add_distrib, ← Finset.sum_add_distrib]
    refine Finset.sum_congr rfl fun j _ => ?_
    rcases lt_trichotomy i j with h | h | h
    · simp [h, h.ne, not_lt.mpr h.le]
    · simp [h]
    · simp [h, h.ne', not_lt.mpr h.le]
  have h3 : (∑ i, ∑ j, if j < i then q i * q j else 0) = ∑ i, ∑ j, if i < j then q i * q j else 0 := by
    rw [Finset.sum_comm]
    refine Finset.sum_congr rfl fun i _ => Finset.sum_congr rfl fun j _ => ?_
    rw [mul_comm]
  have h4 : (∑ i, ∑ j, if i = j then q i * q j else 0) = ∑ k, q k ^ 2 := by
    refine Finset.sum_congr rfl fun i _ => ?_
    rw [Finset.sum_ite_eq Finset.univ i]
    simp [pow_two]
  rw [h1, h2, h3, h4]
  ring

/-- Derivative of the potential along any curve of order parameters. -/
theorem multiPotential_deriv (n : ℕ) (gamma m : ℝ) (phi : ℝ → Fin n → ℝ) (v : Fin n → ℝ) (t : ℝ)
    (hv : ∀ k, HasDerivAt (fun s => phi s k) (v k) t) :
    HasDerivAt (fun s => multiPotential n gamma m (phi s))
      (∑ p, m * (phi t p ^ 3 - phi t p + 2 * gamma * phi t p * ((∑ k, phi t k ^ 2) - phi t p ^ 2)) * v p) t := by
  have e : (fun s => multiPotential n gamma m (phi s)) = fun s => m * ((∑ k, (phi s k ^ 4 / 4 - phi s k ^ 2 / 2))
      + gamma * (1 / 2 * ((∑ k, phi s k ^ 2) ^ 2 - ∑ k, (phi s k ^ 2) ^ 2))) := by
    funext s
    unfold multiPotential
    rw [pair_sum n fun k => phi s k ^ 2]
  rw [e]
  have hq : ∀ k, HasDerivAt (fun s => phi s k ^ 2) (2 * phi t k * v k) t := fun k =>
    ((hv k).pow 2).congr_deriv (by simp)
  have h1 := HasDerivAt.fun_sum (u := (Finset.univ : Finset (Fin n))) fun k _ =>
    (((hv k).pow 4).div_const 4).sub ((hq k).div_const 2)
  have h2 := HasDerivAt.fun_sum (u := (Finset.univ : Finset (Fin n))) fun k _ => hq k
  have h3 := HasDerivAt.fun_sum (u := (Finset.univ : Finset (Fin n))) fun k _ => (hq k).pow 2
  refine ((h1.add ((((h2.pow 2).sub h3).const_mul (1 / 2)).const_mul gamma)).const_mul m).congr_deriv ?_
  generalize ∑ k, phi t k ^ 2 = S
  simp only [mul_add, mul_sub, Finset.mul_sum, ← Finset.sum_add_distrib, ← Finset.sum_sub_distrib]
  refine Finset.sum_congr rfl fun p _ => ?_
  push_cast
  ring

/-- **C35** (violation): for every number of order parameters the implemented force is minus the derivative of
the potential plus `2 m gamma phi^2 (1 - phi)`: the sum of the *other* squares is formed by subtracting `phi`
instead of `phi^2`. -/
theorem c35_violation_extra_force (n : ℕ) (gamma m : ℝ) (phi : Fin n → ℝ) (p : Fin n) :
    multiWell n gamma m phi p =
      -(m * (phi p ^ 3 - phi p + 2 * gamma * phi p * ((∑ k, phi k ^ 2) - phi p ^ 2)))
        + 2 * m * gamma * phi p ^ 2 * (1 - phi p) := by
  unfold multiWell
  simp only [pow_two]
  ring

/-- **C35** (violation): the force is the right one exactly when the cross term is off or the order parameter is
0 or 1. -/
theorem c35_violation_iff (n : ℕ) (gamma m : ℝ) (phi : Fin n → ℝ) (p : Fin n) :
    multiWell n gamma m phi p = -(m * (phi p ^ 3 - phi p + 2 * gamma * phi p * ((∑ k, phi k ^ 2) - phi p ^ 2))) ↔
      m = 0 ∨ gamma = 0 ∨ phi p = 0 ∨ phi p = 1 := by
  rw [c35_violation_extra_force]
  constructor
  · intro h
    have h' : m * (gamma * (phi p ^ 2 * (1 - phi p))) = 0 := by linarith
    rcases mul_eq_zero.mp h' with h | h
    · exact Or.inl h
    rcases mul_eq_zero.mp h with h | h
    · exact Or.inr (Or.inl h)
    rcases mul_eq_zero.mp h with h | h
    · exact Or.inr (Or.inr (Or.inl (by simpa using h)))
    · exact Or.inr (Or.inr (Or.inr (by linarith)))
  · rintro (h | h | h | h) <;> simp [h]

/-- **C35** (partial): away from interfaces (every order parameter 0 or 1), or without the cross term, the force
is minus the gradient of the stated potential. Missing: everything else, see the violation. -/
theorem c35_force_partial (n : ℕ) (gamma m : ℝ) (phi : ℝ → Fin n → ℝ) (v : Fin n → ℝ) (t : ℝ)
    (hv : ∀ k, HasDerivAt (fun s => phi s k) (v k) t) (h : gamma = 0 ∨ ∀ k, phi t k = 0 ∨ phi t k = 1) :
    HasDerivAt (fun s => multiPotential n gamma m (phi s)) (-∑ p, multiWell n gamma m (phi t) p * v p) t := by
  refine (multiPotential_deriv n gamma m phi v t hv).congr_deriv ?_
  rw [← Finset.sum_neg_distrib]
  refine Finset.sum_congr rfl fun p _ => ?_
  rw [(c35_violation_iff n gamma m (phi t) p).mpr]
  · ring
  · rcases h with h | h
    · exact Or.inr (Or.inl h)
    · exact Or.inr (Or.inr (h p))

/-- **C35**: what the implemented force is the gradient of: the stated potential minus
`m gamma sum (2/3 phi^3 - 1/2 phi^4)`. -/
theorem c35_actual_potential (n : ℕ) (gamma m : ℝ) (phi : ℝ → Fin n → ℝ) (v : Fin n → ℝ) (t : ℝ)
    (hv : ∀ k, HasDerivAt (fun s => phi s k) (v k) t) :
    HasDerivAt (fun s => multiPotential n gamma m (phi s)
        - m * gamma * ∑ k, (2 / 3 * phi s k ^ 3 - 1 / 2 * phi s k ^ 4))
      (-∑ p, multiWell n gamma m (phi t) p * v p) t := by
  have h1 := HasDerivAt.fun_sum (u := (Finset.univ : Finset (Fin n))) fun k _ =>
    (((hv k).pow 3).const_mul (2 / 3)).sub (((hv k).pow 4).const_mul (1 / 2))
  refine ((multiPotential_deriv n gamma m phi v t hv).sub (h1.const_mul (m * gamma))).congr_deriv ?_
  rw [Finset.mul_sum, ← Finset.sum_sub_distrib, ← Finset.sum_neg_distrib]
  refine Finset.sum_congr rfl fun p _ => ?_
  rw [c35_violation_extra_force]
  push_cast
  ring

/-- **C35**: a pure grain feels no well force, and neither does an absent one. -/
theorem c35_pure_grain_stationary (n : ℕ) (gamma m : ℝ) (q p : Fin n) :
    multiWell n gamma m (fun k => if k = q then 1 else 0) p = 0 := by
  unfold multiWell
  by_cases h : p = q <;> simp [h]

/-- The flaw is not hidden by the constraint: in a 50/50 two-grain interface the force differs. -/
example : multiWell 2 1.5 1 ![1 / 2, 1 / 2] 0 ≠
    -(1 * ((1 / 2 : ℝ) ^ 3 - 1 / 2 + 2 * 1.5 * (1 / 2) * (((1 / 2 : ℝ) ^ 2 + (1 / 2) ^ 2) - (1 / 2) ^ 2))) := by
  simp [multiWell, Fin.sum_univ_two]; norm_num

/-! ## C36 -/

/-- Specification: energy interpolated with normalised squares. -/
noncomputable def interpEnergy {n : ℕ} (W phi : Fin n → ℝ) : ℝ := (∑ k, W k * phi k ^ 2) / ∑ k, phi k ^ 2

theorem interpEnergy_deriv {n : ℕ} (W : Fin n → ℝ) (phi : ℝ → Fin n → ℝ) (v : Fin n → ℝ) (t : ℝ)
    (hv : ∀ k, HasDerivAt (fun s => phi s k) (v k) t) (h : ∑ k, phi t k ^ 2 ≠ 0) :
    HasDerivAt (fun s => interpEnergy W (phi s))
      (∑ p, 2 * phi t p * (W p * (∑ k, phi t k ^ 2) - ∑ k, W k * phi t k ^ 2) / (∑ k, phi t k ^ 2) ^ 2 * v p) t := by
  have hq : ∀ k, HasDerivAt (fun s => phi s k ^ 2) (2 * phi t k * v k) t := fun k =>
    ((hv k).pow 2).congr_deriv (by simp)
  have h1 := HasDerivAt.fun_sum (u := (Finset.univ : Finset (Fin n))) fun k _ => (hq k).const_mul (W k)
  have h2 := HasDerivAt.fun_sum (u := (Finset.univ : Finset (Fin n))) fun k _ => hq k
  refine (h1.div h2 h).congr_deriv ?_
  rw [Finset.sum_mul, Finset.mul_sum, ← Finset.sum_sub_distrib, Finset.sum_div]
  refine Finset.sum_congr rfl fun p _ => ?_
  ring

/-- **C36**: fractions from normalised squares lie in [0,1] and sum to one. -/
theorem c36_fractions {n : ℕ} (phi : Fin n → ℝ) (h : ∑ k, phi k ^ 2 ≠ 0) :
    (∀ p, 0 ≤ phi p ^ 2 / ∑ k, phi k ^ 2 ∧ phi p ^ 2 / ∑ k, phi k ^ 2 ≤ 1) ∧
      ∑ p, phi p ^ 2 / ∑ k, phi k ^ 2 = 1 := by
  have h0 : 0 ≤ ∑ k, phi k ^ 2 := Finset.sum_nonneg fun k _ => sq_nonneg _
  have hp : 0 < ∑ k, phi k ^ 2 := lt_of_le_of_ne h0 (Ne.symm h)
  refine ⟨fun p => ⟨by positivity, ?_⟩, ?_⟩
  · rw [div_le_one hp]
    exact Finset.single_le_sum (f := fun k => phi k ^ 2) (fun k _ => sq_nonneg _) (Finset.mem_univ p)
  · rw [← Finset.sum_div, div_self h]

/-- **C36**: two-phase multi-order driving force = minus the gradient of the interpolated bulk energy. -/
theorem c36_two_phase (n : ℕ) (fl fa : ℝ) (phi : ℝ → Fin (n + 1) → ℝ) (v : Fin (n + 1) → ℝ) (t : ℝ)
    (hv : ∀ k, HasDerivAt (fun s => phi s k) (v k) t) (h : ∑ k, phi t k ^ 2 ≠ 0) :
    HasDerivAt (fun s => interpEnergy (fun k => if k = Fin.last n then fl else fa) (phi s))
      (-∑ p, multiDriving n fl fa (phi t) p * v p) t := by
  refine (interpEnergy_deriv _ phi v t hv h).congr_deriv ?_
  rw [← Finset.sum_neg_distrib]
  refine Finset.sum_congr rfl fun p _ => ?_
  have hS : ∑ k, phi t k ^ 2 = (∑ k : Fin n, phi t k.castSucc * phi t k.castSucc)
      + phi t (Fin.last n) * phi t (Fin.last n) := by
    rw [Fin.sum_univ_castSucc]; simp [pow_two]
  have hW : ∑ k, (if k = Fin.last n then fl else fa) * phi t k ^ 2 =
      fa * (∑ k : Fin n, phi t k.castSucc * phi t k.castSucc) + fl * (phi t (Fin.last n) * phi t (Fin.last n)) := by
    rw [Fin.sum_univ_castSucc, Finset.mul_sum]
    congr 1
    · exact Finset.sum_congr rfl fun k _ => by rw [if_neg (Fin.castSucc_lt_last k).ne]; ring
    · rw [if_pos rfl]; ring
  unfold multiDriving
  simp only []
  rw [hW]
  rw [hS] at h ⊢
  set S := ∑ k : Fin n, phi t k.castSucc * phi t k.castSucc
  by_cases hp : p = Fin.last n
  · subst hp
    simp only [if_true]
    field_simp
    ring
  · simp only [if_neg hp]
    field_simp
    ring

/-- **C36**: three-phase (ternary) multi-order driving force, with any split of the solid order parameters. -/
theorem c36_three_phase (n nA : ℕ) (hnA : nA ≤ n) (dfl dfa dfb : ℝ) (phi : ℝ → Fin (n + 1) → ℝ) (v : Fin (n + 1) → ℝ)
    (t : ℝ) (hv : ∀ k, HasDerivAt (fun s => phi s k) (v k) t) (h : ∑ k, phi t k ^ 2 ≠ 0) :
    HasDerivAt (fun s => interpEnergy (fun k => if k = Fin.last n then dfl else if k.val < nA then dfa else dfb) (phi s))
      (-∑ p, ternaryDriving n nA dfl dfa dfb (phi t) p * v p) t := by
  refine (interpEnergy_deriv _ phi v t hv h).congr_deriv ?_
  rw [← Finset.sum_neg_distrib]
  refine Finset.sum_congr rfl fun p _ => ?_
  have hS : ∑ k, phi t k ^ 2 = phi t (Fin.last n) * phi t (Fin.last n)
      + (∑ k : Fin n, if k.val < nA then phi t k.castSucc * phi t k.castSucc else 0)
      + ∑ k : Fin n, if k.val < nA then 0 else phi t k.castSucc * phi t k.castSucc := by
    rw [Fin.sum_univ_castSucc, add_assoc, ← Finset.sum_add_distrib, add_comm]
    congr 1
    · ring
    · exact Finset.sum_congr rfl fun k _ => by split_ifs <;> ring
  have hW : ∑ k, (if k = Fin.last n then dfl else if k.val < nA then dfa else dfb) * phi t k ^ 2 =
      dfl * (phi t (Fin.last n) * phi t (Fin.last n))
      + dfa * (∑ k : Fin n, if k.val < nA then phi t k.castSucc * phi t k.castSucc else 0)
      + dfb * ∑ k : Fin n, if k.val < nA then 0 else phi t k.castSucc * phi t k.castSucc := by
    rw [Fin.sum_univ_castSucc, Finset.mul_sum, Finset.mul_sum, add_assoc, ← Finset.sum_add_distrib, add_comm]
    congr 1
    · rw [if_pos rfl]; ring
    · refine Finset.sum_congr rfl fun k _ => ?_
      rw [if_neg (Fin.castSucc_lt_last k).ne]
      simp only [Fin.val_castSucc]
      split_ifs <;> ring
  unfold ternaryDriving
  simp only []
  rw [hW]
  rw [hS] at h ⊢
  set A := ∑ k : Fin n, if k.val < nA then phi t k.castSucc * phi t k.castSucc else 0
  set B := ∑ k : Fin n, if k.val < nA then 0 else phi t k.castSucc * phi t k.castSucc
  set L := phi t (Fin.last n) * phi t (Fin.last n)
  clear_value A B L
  generalize hD : L + A + B = D at *
  by_cases hp : p = Fin.last n
  · subst hp
    simp only [if_true]
    field_simp
    rw [← hD]
    ring
  · simp only [if_neg hp]
    by_cases hq : p.val < nA
    · simp only [if_pos hq]
      field_simp
      rw [← hD]
      ring
    · simp only [if_neg hq]
      field_simp
      rw [← hD]
      ring

/-- Non-trivial instance: two grains and liquid, all present. -/
example : (∑ k, (![0.2, 0.3, 0.5] : Fin 3 → ℝ) k ^ 2) ≠ 0 ∧ multiDriving 2 1 3 ![0.2, 0.3, 0.5] 0 ≠ 0 := by
  constructor
  · simp [Fin.sum_univ_three]; norm_num
  · simp [multiDriving, Fin.sum_univ_two, Fin.last]; norm_num [Fin.ext_iff]

/-! ## C46 -/

/-- **C46**: the upwind moving-frame term is exact on cubics. -/
theorem c46_upwind3_cubic (dx vel x0 a0 a1 a2 a3 : ℝ) (hdx : dx ≠ 0) (physb : Bool) (ilast i : ℤ)
    (hi : ¬(physb = true ∧ i = ilast)) :
    convectUpwind3 dx vel (fun k => a0 + a1 * (x0 + k * dx) + a2 * (x0 + k * dx) ^ 2 + a3 * (x0 + k * dx) ^ 3) physb ilast i
      = vel * (a1 + 2 * a2 * (x0 + i * dx) + 3 * a3 * (x0 + i * dx) ^ 2) := by
  unfold convectUpwind3
  simp only [if_neg hi]
  push_cast
  field_simp
  ring

/-- **C46**: its error on quartics is exactly `-2 vel a4 dx^3`: third order, not fourth. -/
theorem c46_upwind3_quartic (dx vel x0 a4 : ℝ) (hdx : dx ≠ 0) (physb : Bool) (ilast i : ℤ)
    (hi : ¬(physb = true ∧ i = ilast)) :
    convectUpwind3 dx vel (fun k => a4 * (x0 + k * dx) ^ 4) physb ilast i - vel * (4 * a4 * (x0 + i * dx) ^ 3) =
      -2 * vel * a4 * dx ^ 3 := by
  unfold convectUpwind3
  simp only [if_neg hi]
  push_cast
  field_simp
  ring

/-- **C46**: the last cell at a physical boundary, and the plain term everywhere, are exact on quadratics and off
by `vel a3 dx^2` on cubics. -/
theorem c46_centred (dx vel x0 a0 a1 a2 a3 : ℝ) (hdx : dx ≠ 0) (ilast i : ℤ) :
    let u : ℤ → ℝ := fun k => a0 + a1 * (x0 + k * dx) + a2 * (x0 + k * dx) ^ 2 + a3 * (x0 + k * dx) ^ 3
    let d := fun i : ℤ => vel * (a1 + 2 * a2 * (x0 + i * dx) + 3 * a3 * (x0 + i * dx) ^ 2)
    convectUpwind3 dx vel u true ilast ilast = d ilast + vel * a3 * dx ^ 2 ∧
      convect dx vel u i = d i + vel * a3 * dx ^ 2 := by
  constructor
  · unfold convectUpwind3
    simp only [and_self, if_true]
    push_cast
    field_simp
    ring
  · unfold convect
    push_cast
    field_simp
    ring

/-- The boundary switch matters only at the last cell: the cell reads two cells ahead otherwise. -/
theorem c46_boundary_footprint (dx vel : ℝ) (u w : ℤ → ℝ) (ilast i : ℤ) (hi : i ≤ ilast)
    (h : ∀ k, k ≤ ilast + 1 → u k = w k) :
    convectUpwind3 dx vel u true ilast i = convectUpwind3 dx vel w true ilast i := by
  unfold convectUpwind3
  by_cases e : i = ilast
  · simp only [e, and_self, if_true]
    rw [h _ (by lia), h _ (by lia)]
  · simp only [e, and_false, if_false]
    rw [h _ (by lia), h _ (by lia), h _ (by lia), h _ (by lia)]

theorem sum_shift1 (N : ℕ) (lo : ℤ) (g : ℤ → ℝ) (hg : ∀ i, g (i + N) = g i) :
    ∑ a ∈ Finset.range N, g (lo + a + 1) = ∑ a ∈ Finset.range N, g (lo + a) := by
  have h1 := Finset.sum_range_succ (fun a : ℕ => g (lo + a)) N
  have h2 := Finset.sum_range_succ' (fun a : ℕ => g (lo + a)) N
  have e : ∀ a : ℕ, g (lo + ((a + 1 : ℕ) : ℤ)) = g (lo + a + 1) := fun a => by congr 1; push_cast; ring
  simp only [e] at h2
  have := hg lo
  simp only [Nat.cast_zero, add_zero] at h2
  linarith

theorem sum_shift (N : ℕ) (lo : ℤ) (g : ℤ → ℝ) (hg : ∀ i, g (i + N) = g i) (k : ℕ) :
    ∑ a ∈ Finset.range N, g (lo + a + k) = ∑ a ∈ Finset.range N, g (lo + a) := by
  induction k with
  | zero => simp
  | succ k ih =>
    rw [← ih]
    have := sum_shift1 N (lo + k) g hg
    have e1 : ∀ a : ℕ, lo + (k : ℤ) + (a : ℤ) + 1 = lo + a + ((k + 1 : ℕ) : ℤ) := fun a => by push_cast; ring
    have e2 : ∀ a : ℕ, lo + (k : ℤ) + (a : ℤ) = lo + a + (k : ℤ) := fun a => by ring
    simp only [e1] at this
    rw [this]
    exact Finset.sum_congr rfl fun a _ => by rw [e2]

theorem sum_shift_neg (N : ℕ) (lo : ℤ) (g : ℤ → ℝ) (hg : ∀ i, g (i + N) = g i) (k : ℕ) :
    ∑ a ∈ Finset.range N, g (lo + a - k) = ∑ a ∈ Finset.range N, g (lo + a) := by
  have := sum_shift N lo (fun i => g (i - k)) (fun i => by rw [show i + (N : ℤ) - k = i - k + N by ring, hg]) k
  simp only [add_sub_cancel_right] at this
  exact this.symm

/-- **C46**: on a periodic row convection moves material but creates none. -/
theorem c46_conservative (N : ℕ) (lo : ℤ) (dx vel : ℝ) (u : ℤ → ℝ) (hu : ∀ i, u (i + N) = u i) (ilast : ℤ) :
    ∑ a ∈ Finset.range N, convectUpwind3 dx vel u false ilast (lo + a) = 0 ∧
      ∑ a ∈ Finset.range N, convect dx vel u (lo + a) = 0 := by
  have p1 := sum_shift N lo u hu 1
  have p2 := sum_shift N lo u hu 2
  have m1 := sum_shift_neg N lo u hu 1
  simp only [Nat.cast_one, Nat.cast_ofNat] at p1 p2 m1
  constructor
  · simp only [convectUpwind3, Bool.false_eq_true, false_and, if_false, ← Finset.mul_sum, Finset.sum_sub_distrib,
      Finset.sum_add_distrib, p1, p2, m1]
    ring
  · simp only [convect, ← Finset.mul_sum, Finset.sum_sub_distrib, p1, m1, sub_self, mul_zero]

/-- **C46**: the upwind stencil looks toward increasing index. The work it does on a periodic row is
`-vel/(12 dx)` times the sum of squared second differences: it damps for `vel ≥ 0` and amplifies for `vel < 0`. -/
theorem c46_upwind3_work (N : ℕ) (lo : ℤ) (dx vel : ℝ) (u : ℤ → ℝ) (hu : ∀ i, u (i + N) = u i) (ilast : ℤ) :
    ∑ a ∈ Finset.range N, u (lo + a) * convectUpwind3 dx vel u false ilast (lo + a) =
      -(vel / (12 * dx)) * ∑ a ∈ Finset.range N, (u (lo + a + 1) - 2 * u (lo + a) + u (lo + a - 1)) ^ 2 := by
  have q1 := sum_shift N lo (fun i => u i ^ 2) (fun i => by simp only [hu]) 1
  have q2 := sum_shift_neg N lo (fun i => u i ^ 2) (fun i => by simp only [hu]) 1
  have hu' : ∀ k i : ℤ, u (i + N + k) = u (i + k) := fun k i => by rw [show i + (N : ℤ) + k = i + k + N by ring, hu]
  have r1 := sum_shift_neg N lo (fun i => u i * u (i + 1)) (fun i => by simp only [hu, hu' 1]) 1
  have r2 := sum_shift_neg N lo (fun i => u i * u (i + 2)) (fun i => by simp only [hu, hu' 2]) 1
  simp only [Nat.cast_one] at q1 q2 r1 r2
  have e1 : ∀ a : ℕ, lo + (a : ℤ) - 1 + 1 = lo + a := fun a => by ring
  have e2 : ∀ a : ℕ, lo + (a : ℤ) - 1 + 2 = lo + a + 1 := fun a => by ring
  simp only [e1] at r1
  simp only [e2] at r2
  have L : ∀ a : ℕ, u (lo + a) * convectUpwind3 dx vel u false ilast (lo + a) = vel / (6 * dx) *
      (-2 * (u (lo + a - 1) * u (lo + a)) - 3 * u (lo + a) ^ 2 + 6 * (u (lo + a) * u (lo + a + 1))
        - u (lo + a) * u (lo + a + 2)) := fun a => by
    simp only [convectUpwind3, Bool.false_eq_true, false_and, if_false]; ring
  have R : ∀ a : ℕ, (u (lo + a + 1) - 2 * u (lo + a) + u (lo + a - 1)) ^ 2 =
      u (lo + a + 1) ^ 2 + 4 * u (lo + a) ^ 2 + u (lo + a - 1) ^ 2 - 4 * (u (lo + a) * u (lo + a + 1))
        - 4 * (u (lo + a - 1) * u (lo + a)) + 2 * (u (lo + a - 1) * u (lo + a + 1)) := fun a => by ring
  simp only [L, R, ← Finset.mul_sum, Finset.sum_sub_distrib, Finset.sum_add_distrib]
  rw [q1, q2, r1, r2]
  ring

/-- **C46** (stability): consequence for the row energy. -/
theorem c46_upwind3_damps (N : ℕ) (lo : ℤ) (dx vel : ℝ) (hdx : 0 < dx) (hvel : 0 ≤ vel) (u : ℤ → ℝ)
    (hu : ∀ i, u (i + N) = u i) (ilast : ℤ) :
    ∑ a ∈ Finset.range N, u (lo + a) * convectUpwind3 dx vel u false ilast (lo + a) ≤ 0 := by
  rw [c46_upwind3_work N lo dx vel u hu]
  have : 0 ≤ (vel / (12 * dx)) * ∑ a ∈ Finset.range N, (u (lo + a + 1) - 2 * u (lo + a) + u (lo + a - 1)) ^ 2 :=
    mul_nonneg (by positivity) (Finset.sum_nonneg fun _ _ => sq_nonneg _)
  linarith

/-- **C46** (limitation): for negative frame velocity the same stencil is downwind and feeds every
non-degenerate profile. -/
theorem c46_violation_downwind (N : ℕ) (lo : ℤ) (dx vel : ℝ) (hdx : 0 < dx) (hvel : vel < 0) (u : ℤ → ℝ)
    (hu : ∀ i, u (i + N) = u i) (ilast : ℤ) (a0 : ℕ) (ha : a0 < N)
    (hne : u (lo + a0 + 1) - 2 * u (lo + a0) + u (lo + a0 - 1) ≠ 0) :
    0 < ∑ a ∈ Finset.range N, u (lo + a) * convectUpwind3 dx vel u false ilast (lo + a) := by
  rw [c46_upwind3_work N lo dx vel u hu]
  refine mul_pos ?_ ?_
  · have := div_neg_of_neg_of_pos hvel (show (0 : ℝ) < 12 * dx by positivity); linarith
  · exact Finset.sum_pos' (fun _ _ => sq_nonneg _) ⟨a0, Finset.mem_range.mpr ha, by positivity⟩

/-! ## C54: sintering -/

/-- Specification: bulk energy of Wang (2006). -/
noncomputable def wangEnergy (n : ℕ) (A B c : ℝ) (eta : Fin n → ℝ) : ℝ :=
  A * c ^ 2 * (1 - c) ^ 2 + B * (c ^ 2 + 6 * (1 - c) * (∑ k, eta k ^ 2) - 4 * (2 - c) * (∑ k, eta k ^ 3)
    + 3 * (∑ k, eta k ^ 2) ^ 2)

theorem icc_sum (n : ℕ) (g : ℕ → ℝ) : ∑ ip ∈ Finset.Icc 1 n, g ip = ∑ k : Fin n, g (k.val + 1) := by
  rw [Fin.sum_univ_eq_sum_range fun k => g (k + 1)]
  rw [Finset.sum_bij (fun a _ => a - 1)]
  · intro a ha; rw [Finset.mem_Icc] at ha; rw [Finset.mem_range]; lia
  · intro a ha b hb h; rw [Finset.mem_Icc] at ha hb; lia
  · intro b hb; rw [Finset.mem_range] at hb; exact ⟨b + 1, by rw [Finset.mem_Icc]; lia, by simp⟩
  · intro a ha; rw [Finset.mem_Icc] at ha; congr 1; lia

/-- **C54**: the bulk parts of the composition potential and of the order-parameter rates are the partial
derivatives of one common energy: along any curve the energy changes by `mu c' - sum rate eta'`. -/
theorem c54_common_energy (n : ℕ) (A B beta : ℝ) (c : ℝ → ℝ) (eta : ℝ → Fin n → ℝ) (c' : ℝ) (v : Fin n → ℝ) (t : ℝ)
    (hc : HasDerivAt c c' t) (hv : ∀ k, HasDerivAt (fun s => eta s k) (v k) t) (phi : ℕ → Field2) (i j : ℤ) (dx dy : ℝ)
    (hphi : ∀ k : Fin n, phi (k.val + 1) i j = eta t k) :
    HasDerivAt (fun s => wangEnergy n A B (c s) (eta s))
      (muWang A B 0 dx dy n (fun _ _ => c t) phi i j * c'
        - ∑ p, wangRate n beta B (c t) (fun _ => 0) (eta t) p * v p) t := by
  have hq : ∀ k, HasDerivAt (fun s => eta s k ^ 2) (2 * eta t k * v k) t := fun k =>
    ((hv k).pow 2).congr_deriv (by simp)
  have hcu : ∀ k, HasDerivAt (fun s => eta s k ^ 3) (3 * eta t k ^ 2 * v k) t := fun k =>
    ((hv k).pow 3).congr_deriv (by simp)
  have h2 := HasDerivAt.fun_sum (u := (Finset.univ : Finset (Fin n))) fun k _ => hq k
  have h3 := HasDerivAt.fun_sum (u := (Finset.univ : Finset (Fin n))) fun k _ => hcu k
  have hc1 := hc.const_sub 1
  have hc2 := hc.const_sub 2
  have H := (((hc.pow 2).const_mul A).mul (hc1.pow 2)).add
    (((((hc.pow 2).add ((hc1.const_mul 6).mul h2)).sub ((hc2.const_mul 4).mul h3)).add ((h2.pow 2).const_mul 3)).const_mul B)
  refine H.congr_deriv ?_
  have s2 : ∑ ip ∈ Finset.Icc 1 n, phi ip i j * phi ip i j = ∑ k, eta t k ^ 2 := by
    rw [icc_sum n fun ip => phi ip i j * phi ip i j]
    exact Finset.sum_congr rfl fun k _ => by rw [hphi, pow_two]
  have s3 : ∑ ip ∈ Finset.Icc 1 n, phi ip i j * phi ip i j * phi ip i j = ∑ k, eta t k ^ 3 := by
    rw [icc_sum n fun ip => phi ip i j * phi ip i j * phi ip i j]
    exact Finset.sum_congr rfl fun k _ => by rw [hphi]; ring
  have s4 : ∑ p, wangRate n beta B (c t) (fun _ => 0) (eta t) p * v p =
      -(12 * B) * ((1 - c t) * (∑ p, eta t p * v p) - (2 - c t) * (∑ p, eta t p ^ 2 * v p)
        + (∑ k, eta t k ^ 2) * ∑ p, eta t p * v p) := by
    simp only [Finset.mul_sum, ← Finset.sum_sub_distrib, ← Finset.sum_add_distrib]
    refine Finset.sum_congr rfl fun p _ => ?_
    have : ∑ k, eta t k * eta t k = ∑ k, eta t k ^ 2 := Finset.sum_congr rfl fun k _ => (pow_two _).symm
    unfold wangRate
    rw [this]
    ring
  have s5 : ∑ k, 2 * eta t k * v k = 2 * ∑ p, eta t p * v p := by
    rw [Finset.mul_sum]; exact Finset.sum_congr rfl fun k _ => by ring
  have s6 : ∑ k, 3 * eta t k ^ 2 * v k = 3 * ∑ p, eta t p ^ 2 * v p := by
    rw [Finset.mul_sum]; exact Finset.sum_congr rfl fun k _ => by ring
  unfold muWang
  simp only [s2, s3, s4, s5, s6, Pi.pow_apply]
  push_cast
  simp only [Nat.add_one_sub_one, pow_one]
  ring

/-- **C54**: void (`c = 0`, all order parameters 0) and the inside of any single grain (`c = 1`, one order
parameter 1) are equilibria with energy zero. -/
theorem c54_equilibria (n : ℕ) (A B beta : ℝ) (q p : Fin n) :
    wangEnergy n A B 0 (fun _ => 0) = 0 ∧ wangEnergy n A B 1 (fun k => if k = q then 1 else 0) = 0 ∧
    wangRate n beta B 0 (fun _ => 0) (fun _ => 0) p = 0 ∧
    wangRate n beta B 1 (fun _ => 0) (fun k => if k = q then 1 else 0) p = 0 := by
  refine ⟨by simp [wangEnergy], ?_, by simp [wangRate], ?_⟩
  · simp [wangEnergy, ite_pow]; norm_num
  · unfold wangRate
    by_cases h : p = q <;> simp [h]
    right; norm_num

/-- **C54**: for nonnegative parameters no single-grain state has negative energy: void and solid are ground
states (any composition, order parameter in [0,1]). -/
theorem c54_ground_state (A B c e : ℝ) (hA : 0 ≤ A) (hB : 0 ≤ B) (h0 : 0 ≤ e) (h1 : e ≤ 1) :
    0 ≤ wangEnergy 1 A B c (fun _ => e) := by
  unfold wangEnergy
  simp only [Finset.univ_unique, Finset.sum_singleton]
  have h : c ^ 2 + 6 * (1 - c) * e ^ 2 - 4 * (2 - c) * e ^ 3 + 3 * (e ^ 2) ^ 2 =
      (c - 3 * e ^ 2 + 2 * e ^ 3) ^ 2 + e ^ 2 * (1 - e) ^ 2 * (6 + 4 * e * (1 - e)) := by ring
  have h2 : 0 ≤ 1 - e := by linarith
  rw [h]
  positivity

example : wangRate 2 1 1 0.5 ![0, 0] ![0.5, 0.5] 0 ≠ 0 := by
  simp [wangRate, Fin.sum_univ_two]; norm_num

/-! ## C55: thermal driving forces -/

theorem mul_neg_pos_left {a b : ℝ} (h : 0 < a) : a * b < 0 ↔ b < 0 := by
  constructor
  · intro hb; by_contra hc; push Not at hc; have := mul_nonneg h.le hc; linarith
  · intro hb; exact mul_neg_of_pos_of_neg h hb

/-- **C55**: the bias-well term drives toward solid below the melting temperature and away from it above, is
bounded by `alpha/8` however large the undercooling, and acts only inside interfaces. -/
theorem c55_bias_well (alpha gamma te temp phi : ℝ) (ha : 0 < alpha) (hg : 0 < gamma) (h0 : 0 < phi) (h1 : phi < 1) :
    (0 < biasWell alpha gamma te temp phi ↔ temp < te) ∧ (biasWell alpha gamma te temp phi < 0 ↔ te < temp) ∧
      (biasWell alpha gamma te temp phi = 0 ↔ temp = te) ∧ |biasWell alpha gamma te temp phi| < alpha / 8 := by
  have hpi : 4 * Real.arctan 1 = Real.pi := by rw [Real.arctan_one]; ring
  have e : biasWell alpha gamma te temp phi = (alpha / Real.pi * (phi * (1 - phi))) * Real.arctan (gamma * (te - temp)) := by
    unfold biasWell; rw [hpi]; ring
  have hk : 0 < alpha / Real.pi * (phi * (1 - phi)) :=
    mul_pos (div_pos ha Real.pi_pos) (mul_pos h0 (by linarith))
  have hat : ∀ x : ℝ, (0 < Real.arctan x ↔ 0 < x) ∧ (Real.arctan x < 0 ↔ x < 0) := fun x => by
    have := Real.arctan_strictMono.lt_iff_lt (a := 0) (b := x)
    have := Real.arctan_strictMono.lt_iff_lt (a := x) (b := 0)
    simp only [Real.arctan_zero] at *
    tauto
  have p : 0 < biasWell alpha gamma te temp phi ↔ temp < te := by
    rw [e, mul_pos_iff_of_pos_left hk, (hat _).1, mul_pos_iff_of_pos_left hg]; constructor <;> intro h <;> linarith
  have n : biasWell alpha gamma te temp phi < 0 ↔ te < temp := by
    rw [e, mul_neg_pos_left hk, (hat _).2, mul_neg_pos_left hg]; constructor <;> intro h <;> linarith
  refine ⟨p, n, ⟨fun h => ?_, fun h => ?_⟩, ?_⟩
  · rcases lt_trichotomy temp te with h' | h' | h'
    · exact absurd h (p.mpr h').ne'
    · exact h'
    · exact absurd h (n.mpr h').ne
  · rw [e, h]; simp
  · rw [e, abs_mul, abs_of_pos hk]
    have hb : |Real.arctan (gamma * (te - temp))| < Real.pi / 2 :=
      abs_lt.mpr ⟨Real.neg_pi_div_two_lt_arctan _, Real.arctan_lt_pi_div_two _⟩
    have hq : phi * (1 - phi) ≤ 1 / 4 := by nlinarith [sq_nonneg (phi - 1 / 2)]
    calc alpha / Real.pi * (phi * (1 - phi)) * |Real.arctan (gamma * (te - temp))|
        < alpha / Real.pi * (phi * (1 - phi)) * (Real.pi / 2) := by gcongr
      _ ≤ alpha / Real.pi * (1 / 4) * (Real.pi / 2) := by
          have := Real.pi_pos
          gcongr
      _ = alpha / 8 := by field_simp; norm_num

/-- **C55**: it vanishes in the pure phases, as does Beckermann's variant, which is linear in the undercooling. -/
theorem c55_bulk_inactive (alpha gamma te temp : ℝ) :
    biasWell alpha gamma te temp 0 = 0 ∧ biasWell alpha gamma te temp 1 = 0 ∧
      biasWellBeckermann alpha te temp 0 = 0 ∧ biasWellBeckermann alpha te temp 1 = 0 := by
  simp [biasWell, biasWellBeckermann]

theorem c55_beckermann_sign (alpha te temp phi : ℝ) (ha : 0 < alpha) (h0 : 0 < phi) (h1 : phi < 1) :
    (0 < biasWellBeckermann alpha te temp phi ↔ temp < te) ∧ (biasWellBeckermann alpha te temp phi < 0 ↔ te < temp) := by
  have e : biasWellBeckermann alpha te temp phi = (alpha * (phi * (1 - phi))) * (te - temp) := by
    unfold biasWellBeckermann; ring
  have hk : 0 < alpha * (phi * (1 - phi)) := mul_pos ha (mul_pos h0 (by linarith))
  rw [e, mul_pos_iff_of_pos_left hk, mul_neg_pos_left hk, sub_pos, sub_neg]
  exact ⟨Iff.rfl, Iff.rfl⟩

/-- **C55**: the latent-heat driving force is the entropy difference times the undercooling: at uniform temperature
the five-point average drops out. -/
theorem c55_delta_uniform (ty : Char) (tm latent T phi : ℝ) (i j : ℤ) (H : ℝ) (hH : derivInterpFunc ty phi = some H) :
    deltaTemperature ty tm latent (fun _ _ => T) phi i j = some (latent / tm * (tm - T) * H) := by
  unfold deltaTemperature
  simp only [hH, Option.bind_eq_bind, Option.bind_some]
  congr 3
  ring

/-- **C55**: on a linear temperature field the average equals the cell temperature (the weights sum to one and are
symmetric), so the force is second-order consistent. -/
theorem c55_delta_linear (ty : Char) (tm latent a b c phi : ℝ) (i j : ℤ) (H : ℝ) (hH : derivInterpFunc ty phi = some H) :
    deltaTemperature ty tm latent (fun i j => a + b * i + c * j) phi i j =
      some (latent / tm * (tm - (a + b * i + c * j)) * H) := by
  unfold deltaTemperature
  simp only [hH, Option.bind_eq_bind, Option.bind_some]
  congr 3
  push_cast
  ring

/-! ## C56: the phase-temperature block of the preconditioner -/

/-- Specification: the derivative of the (mobility-scaled) driving force in the direction of a temperature
correction `zT`, at current phase `phi`. -/
theorem c56_true_block (ty : Char) (tm latent mob phi : ℝ) (T zT : Field2) (i j : ℤ) (H : ℝ)
    (hH : derivInterpFunc ty phi = some H) :
    ∃ F : ℝ → ℝ, (∀ s, deltaTemperature ty tm latent (fun i j => T i j + s * zT i j) phi i j = some (F s)) ∧
      HasDerivAt (fun s => mob * F s) (-(mob * latent / tm * H) *
        (0.75 * zT i j + 0.0625 * (zT (i - 1) j + zT i (j - 1) + zT (i + 1) j + zT i (j + 1)))) 0 := by
  refine ⟨_, fun s => by unfold deltaTemperature; simp only [hH, Option.bind_eq_bind, Option.bind_some]; rfl, ?_⟩
  have l : ∀ a b : ℝ, HasDerivAt (fun s : ℝ => a + s * b) b 0 := fun a b => by
    simpa using ((hasDerivAt_id' (0 : ℝ)).mul_const b).const_add a
  have W := ((l (T i j) (zT i j)).const_mul 0.75).add (((((l (T (i - 1) j) (zT (i - 1) j)).add
    (l (T i (j - 1)) (zT i (j - 1)))).add (l (T (i + 1) j) (zT (i + 1) j))).add
    (l (T i (j + 1)) (zT i (j + 1)))).const_mul 0.0625)
  refine ((((W.const_sub tm).const_mul (latent / tm)).mul_const H).const_mul mob).congr_deriv ?_
  ring

/-- **C56** (violation): the block applied by the preconditioner, `-dDeltaTemperature` evaluated at the
phase *correction* `zphi`, does not depend on the temperature correction; with no correction at all it still
produces a nonzero term wherever `h'(zphi)` is nonzero, and it agrees with the true block only when the
five-point average of the temperature correction happens to be `h'(zphi)/h'(phi)`. -/
theorem c56_violation (ty : Char) (tm latent mob phi zphi w H Hz : ℝ) (hm : mob * latent / tm ≠ 0)
    (_hH : derivInterpFunc ty phi = some H) (hHz : derivInterpFunc ty zphi = some Hz) :
    ∃ d, dDeltaTemperature ty tm latent mob zphi = some d ∧ (-d = -(mob * latent / tm * H) * w ↔ Hz = H * w) := by
  refine ⟨mob * latent / tm * Hz, by unfold dDeltaTemperature; simp only [hHz, Option.bind_eq_bind, Option.bind_some], ?_⟩
  constructor
  · intro h
    have : (mob * latent / tm) * (Hz - H * w) = 0 := by linarith
    rcases mul_eq_zero.mp this with h | h
    · exact absurd h hm
    · linarith
  · intro h; rw [h]; ring

end AMPE.PhaseRHS.Props
