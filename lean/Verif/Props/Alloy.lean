import Mathlib.Analysis.Calculus.Deriv.Add
import Mathlib.Analysis.Calculus.Deriv.Mul
import Mathlib.Analysis.Calculus.Deriv.Pow
import Mathlib.Analysis.Calculus.Deriv.Comp
import Mathlib.Analysis.Calculus.Deriv.Prod
import Mathlib.Analysis.SpecialFunctions.Integrals.Basic
import Mathlib.Analysis.SpecialFunctions.ExpDeriv
import Mathlib.Tactic.Linarith
import Mathlib.Tactic.Ring
import Mathlib.Tactic.FieldSimp
import Mathlib.Tactic.LinearCombination
import Verif.Model.Alloy
import Verif.Props.Functions
import Verif.Props.PairWeights
import Verif.Props.MultiOrder

/-!
# C72: the alloy driving force is the derivative of the reported energy

Specification: at fixed temperature and overall composition `c`, the phase concentrations `cL`, `cA` are functions of
the order parameter with `(1-p) cL + p cA = c` and equal chemical potentials; the energy density is
`(1-h) f_l + h f_a`.
-/

namespace AMPE.Alloy.Props

open AMPE.Functions AMPE.Functions.Props AMPE.PairWeights.Props

/-- The conditions the phase concentrations satisfy (KKS): mass balance with the solid fraction `p`, and equal
derivatives of the molar free energies. -/
structure Split (p : ℝ → ℝ) (dfL dfA : ℝ → ℝ) (c : ℝ) (cL cA : ℝ → ℝ) : Prop where
  mass : ∀ s, (1 - p s) * cL s + p s * cA s = c
  equal : ∀ s, dfL (cL s) = dfA (cA s)

/-- Energy density of the mixture, with solid fraction `h` and energies per volume. -/
noncomputable def mixture (h : ℝ → ℝ) (vL vA : ℝ) (fL fA cL cA : ℝ → ℝ) (s : ℝ) : ℝ :=
  (1 - h s) * (vL * fL (cL s)) + h s * (vA * fA (cA s))

theorem mass_deriv {p cL cA : ℝ → ℝ} {c t p' cL' cA' : ℝ} (hm : ∀ s, (1 - p s) * cL s + p s * cA s = c)
    (hp : HasDerivAt p p' t) (h1 : HasDerivAt cL cL' t) (h2 : HasDerivAt cA cA' t) :
    (1 - p t) * cL' + p t * cA' = p' * (cL t - cA t) := by
  have hd := (((hp.const_sub 1).mul h1).add (hp.mul h2))
  have hc : HasDerivAt (fun s => (1 - p s) * cL s + p s * cA s) 0 t := by
    have : (fun s => (1 - p s) * cL s + p s * cA s) = fun _ => c := funext hm
    rw [this]; exact hasDerivAt_const _ _
  have e := hd.unique hc
  linarith

theorem mixture_deriv {h fL fA cL cA : ℝ → ℝ} {vL vA t h' muL muA cL' cA' : ℝ}
    (hh : HasDerivAt h h' t) (h1 : HasDerivAt cL cL' t) (h2 : HasDerivAt cA cA' t)
    (hL : HasDerivAt fL muL (cL t)) (hA : HasDerivAt fA muA (cA t)) :
    HasDerivAt (mixture h vL vA fL fA cL cA)
      (-h' * (vL * fL (cL t) - vA * fA (cA t)) + (1 - h t) * vL * muL * cL' + h t * vA * muA * cA') t := by
  have a := (hh.const_sub 1).mul ((hL.comp t h1).const_mul vL)
  have b := hh.mul ((hA.comp t h2).const_mul vA)
  refine ((a.add b).congr_deriv ?_).congr_of_eventuallyEq (Filter.Eventually.of_forall fun s => ?_)
  · simp only [Function.comp]; ring
  · simp [mixture, Function.comp]

/-- General form, any two fractions `h` (energy) and `p` (concentration) and any two volumes. -/
theorem two_phase {h p dfL dfA fL fA cL cA : ℝ → ℝ} {c v t h' p' cL' cA' : ℝ} (hs : Split p dfL dfA c cL cA)
    (hh : HasDerivAt h h' t) (hp : HasDerivAt p p' t) (h1 : HasDerivAt cL cL' t) (h2 : HasDerivAt cA cA' t)
    (hL : HasDerivAt fL (dfL (cL t)) (cL t)) (hA : HasDerivAt fA (dfA (cA t)) (cA t)) :
    HasDerivAt (mixture h v v fL fA cL cA)
      (-(h' * (v * fL (cL t) - v * fA (cA t) - dfL (cL t) * v * (cL t - cA t)))
        + v * dfL (cL t) * ((p' - h') * (cL t - cA t) + (p t - h t) * (cL' - cA'))) t := by
  refine (mixture_deriv hh h1 h2 hL hA).congr_deriv ?_
  have m := mass_deriv hs.mass hp h1 h2
  rw [← hs.equal t]
  linear_combination v * dfL (cL t) * m

/-- **C72**: with the same interpolation function for energy and concentrations and one molar volume, the force added to
the phase equation is minus the derivative of the energy density with respect to the order parameter at fixed overall
composition — for the quadratic strategy (chemical potential of the liquid) and for the CALPHAD and dilute
strategies (chemical potential of phase A). -/
theorem c72_driving_is_derivative_partial (ty : Char) (vm c phi : ℝ) (H : ℝ → ℝ) (hH : Computes (interpFunc ty) H)
    (hr : ReportsDerivAt (derivInterpFunc ty) (interpFunc ty) phi) {dfL dfA fL fA cL cA : ℝ → ℝ}
    (hs : Split H dfL dfA c cL cA) (h1 : DifferentiableAt ℝ cL phi) (h2 : DifferentiableAt ℝ cA phi)
    (hL : ∀ x, HasDerivAt fL (dfL x) x) (hA : ∀ x, HasDerivAt fA (dfA x) x) :
    ∃ d, driveQuadratic ty vm dfL phi (invVm vm * fL (cL phi)) (invVm vm * fA (cA phi)) (cL phi) (cA phi) = some d ∧
      driveCalphad ty vm dfA phi (invVm vm * fL (cL phi)) (invVm vm * fA (cA phi)) (cL phi) (cA phi) = some d ∧
      HasDerivAt (mixture H (invVm vm) (invVm vm) fL fA cL cA) (-d) phi := by
  obtain ⟨F, h', hF, hd, hder⟩ := hr
  have hFH : F = H := funext fun s => Option.some_injective _ ((hF s).symm.trans (hH s))
  subst hFH
  refine ⟨_, by simp only [driveQuadratic, hd]; rfl, by simp only [driveCalphad, hd, ← hs.equal phi]; rfl, ?_⟩
  refine (two_phase hs hder hder h1.hasDerivAt h2.hasDerivAt (hL _) (hA _)).congr_deriv ?_
  ring

/-- **C72** (which deviation): with different fractions `h` for the energy and `p` for the concentrations, the force
differs from minus the derivative by the chemical potential times the derivative of `(p - h)(cL - cA)`. -/
theorem c72_mismatch (ty tc : Char) (vm c phi : ℝ) (H P : ℝ → ℝ) (hH : Computes (interpFunc ty) H)
    (hr : ReportsDerivAt (derivInterpFunc ty) (interpFunc ty) phi) (_hP : Computes (interpFunc tc) P) {P' : ℝ}
    (hP' : HasDerivAt P P' phi) {dfL dfA fL fA cL cA : ℝ → ℝ} {cL' cA' : ℝ}
    (hs : Split P dfL dfA c cL cA) (h1 : HasDerivAt cL cL' phi) (h2 : HasDerivAt cA cA' phi)
    (hL : ∀ x, HasDerivAt fL (dfL x) x) (hA : ∀ x, HasDerivAt fA (dfA x) x) :
    ∃ d D, driveQuadratic ty vm dfL phi (invVm vm * fL (cL phi)) (invVm vm * fA (cA phi)) (cL phi) (cA phi) = some d ∧
      HasDerivAt (fun s => (P s - H s) * (cL s - cA s)) D phi ∧
      HasDerivAt (mixture H (invVm vm) (invVm vm) fL fA cL cA) (-d + invVm vm * dfL (cL phi) * D) phi := by
  obtain ⟨F, h', hF, hd, hder⟩ := hr
  have hFH : F = H := funext fun s => Option.some_injective _ ((hF s).symm.trans (hH s))
  subst hFH
  refine ⟨_, (P' - h') * (cL phi - cA phi) + (P phi - F phi) * (cL' - cA'),
    by simp only [driveQuadratic, hd]; rfl, ?_, ?_⟩
  · exact ((hP'.sub hder).mul (h1.sub h2)).congr_deriv (by simp [Pi.sub_apply])
  · exact (two_phase hs hder hP' h1 h2 (hL _) (hA _)).congr_deriv (by ring)

/-- The solution of the two conditions for two parabolas of equal curvature. -/
noncomputable def parabolaL (P : ℝ → ℝ) (a b c : ℝ) (s : ℝ) : ℝ := c + P s * (a - b)
noncomputable def parabolaA (P : ℝ → ℝ) (a b c : ℝ) (s : ℝ) : ℝ := c - (1 - P s) * (a - b)

theorem parabola_split (P : ℝ → ℝ) (a b c : ℝ) :
    Split P (fun x => 2 * (x - a)) (fun x => 2 * (x - b)) c (parabolaL P a b c) (parabolaA P a b c) :=
  ⟨fun s => by unfold parabolaL parabolaA; ring, fun s => by unfold parabolaL parabolaA; ring⟩

theorem parabola_deriv (a x : ℝ) : HasDerivAt (fun y : ℝ => (y - a) ^ 2) (2 * (x - a)) x :=
  (((hasDerivAt_id x).sub_const a).pow 2).congr_deriv (by simp)

/-- **C72** (violation): two parabolas `(c-a)^2`, `(c-b)^2` with different minima, interpolation functions with
different slopes at `phi`, and phases not at their minima: the force is not minus the derivative of the energy. -/
theorem c72_violation_two_interpolations (ty tc : Char) (vm c phi a b : ℝ) (hvm : 0 < vm) (H P : ℝ → ℝ)
    (hH : Computes (interpFunc ty) H) (hP : Computes (interpFunc tc) P) {h' p' : ℝ} (hd : derivInterpFunc ty phi = some h')
    (hder : HasDerivAt H h' phi) (hP' : HasDerivAt P p' phi) (hne : p' ≠ h') (hab : a ≠ b)
    (hmu : parabolaL P a b c phi ≠ a) :
    ∃ d e, driveQuadratic ty vm (fun x => 2 * (x - a)) phi (invVm vm * (parabolaL P a b c phi - a) ^ 2)
        (invVm vm * (parabolaA P a b c phi - b) ^ 2) (parabolaL P a b c phi) (parabolaA P a b c phi) = some d ∧
      HasDerivAt (mixture H (invVm vm) (invVm vm) (fun x => (x - a) ^ 2) (fun x => (x - b) ^ 2) (parabolaL P a b c)
        (parabolaA P a b c)) e phi ∧ e ≠ -d := by
  have hv : invVm vm ≠ 0 := by unfold invVm; positivity
  have h1 : HasDerivAt (parabolaL P a b c) (p' * (a - b)) phi := (hP'.mul_const _).const_add _
  have h2 : HasDerivAt (parabolaA P a b c) (p' * (a - b)) phi :=
    (((hP'.const_sub 1).mul_const (a - b)).const_sub c).congr_deriv (by ring)
  refine ⟨_, _, by simp only [driveQuadratic, hd]; rfl,
    two_phase (parabola_split P a b c) hder hP' h1 h2 (parabola_deriv a _) (parabola_deriv b _), ?_⟩
  have e : parabolaL P a b c phi - parabolaA P a b c phi = a - b := by unfold parabolaL parabolaA; ring
  intro heq
  have hz : invVm vm * (2 * (parabolaL P a b c phi - a)) * ((p' - h') * (a - b)) = 0 := by
    rw [e] at heq
    linear_combination heq
  have : invVm vm * (2 * (parabolaL P a b c phi - a)) * ((p' - h') * (a - b)) ≠ 0 :=
    mul_ne_zero (mul_ne_zero hv (mul_ne_zero two_ne_zero (sub_ne_zero.2 hmu)))
      (mul_ne_zero (sub_ne_zero.2 hne) (sub_ne_zero.2 hab))
  exact this hz

/-- **C72** (two molar volumes): with one interpolation function but molar volumes `vmL`, `vmA`, the force of the quadratic
strategy misses `mu h (1/vmA - 1/vmL) cA'` and that of the CALPHAD strategy `mu (1-h) (1/vmL - 1/vmA) cL'`. -/
theorem c72_two_volumes (ty : Char) (vmL vmA c phi : ℝ) (H : ℝ → ℝ) (hH : Computes (interpFunc ty) H)
    (hr : ReportsDerivAt (derivInterpFunc ty) (interpFunc ty) phi) {dfL dfA fL fA cL cA : ℝ → ℝ} {cL' cA' : ℝ}
    (hs : Split H dfL dfA c cL cA) (h1 : HasDerivAt cL cL' phi) (h2 : HasDerivAt cA cA' phi)
    (hL : ∀ x, HasDerivAt fL (dfL x) x) (hA : ∀ x, HasDerivAt fA (dfA x) x) :
    ∃ dq dc e, driveQuadratic ty vmL dfL phi (invVm vmL * fL (cL phi)) (invVm vmA * fA (cA phi)) (cL phi) (cA phi) = some dq ∧
      driveCalphad ty vmA dfA phi (invVm vmL * fL (cL phi)) (invVm vmA * fA (cA phi)) (cL phi) (cA phi) = some dc ∧
      HasDerivAt (mixture H (invVm vmL) (invVm vmA) fL fA cL cA) e phi ∧
      e = -dq + dfL (cL phi) * H phi * (invVm vmA - invVm vmL) * cA' ∧
      e = -dc + dfL (cL phi) * (1 - H phi) * (invVm vmL - invVm vmA) * cL' := by
  obtain ⟨F, h', hF, hd, hder⟩ := hr
  have hFH : F = H := funext fun s => Option.some_injective _ ((hF s).symm.trans (hH s))
  subst hFH
  have m := mass_deriv hs.mass hder h1 h2
  refine ⟨_, _, _, by simp only [driveQuadratic, hd]; rfl, by simp only [driveCalphad, hd]; rfl,
    mixture_deriv hder h1 h2 (hL _) (hA _), ?_, ?_⟩
  · rw [← hs.equal phi]; linear_combination invVm vmL * dfL (cL phi) * m
  · rw [← hs.equal phi]; linear_combination invVm vmA * dfL (cL phi) * m

/-- **C72** (reference states): adding the same function `a + b c` to the molar free energies of both phases changes the
force by `h' (1/vmL - 1/vmA)` times `a + b cA` (quadratic strategy) or `a + b cL` (CALPHAD strategy): the choice of the
reference states is immaterial exactly when the molar volumes agree. -/
theorem c72_reference_state (ty : Char) (vmL vmA phi a b : ℝ) (dfL dfA fL fA : ℝ → ℝ) (cl ca h' : ℝ)
    (hd : derivInterpFunc ty phi = some h') :
    ∃ q q' k k', driveQuadratic ty vmL dfL phi (invVm vmL * fL cl) (invVm vmA * fA ca) cl ca = some q ∧
      driveQuadratic ty vmL (fun x => dfL x + b) phi (invVm vmL * (fL cl + (a + b * cl)))
        (invVm vmA * (fA ca + (a + b * ca))) cl ca = some q' ∧
      q' = q + h' * (invVm vmL - invVm vmA) * (a + b * ca) ∧
      driveCalphad ty vmA dfA phi (invVm vmL * fL cl) (invVm vmA * fA ca) cl ca = some k ∧
      driveCalphad ty vmA (fun x => dfA x + b) phi (invVm vmL * (fL cl + (a + b * cl)))
        (invVm vmA * (fA ca + (a + b * ca))) cl ca = some k' ∧
      k' = k + h' * (invVm vmL - invVm vmA) * (a + b * cl) := by
  refine ⟨_, _, _, _, by simp only [driveQuadratic, hd]; rfl, by simp only [driveQuadratic, hd]; rfl, ?_,
    by simp only [driveCalphad, hd]; rfl, by simp only [driveCalphad, hd]; rfl, ?_⟩ <;> ring

/-- **C72** (ternary alloy): same statement for two independent compositions. -/
theorem c72_ternary_partial (ty : Char) (vm phi : ℝ) (c : ℝ × ℝ) (H : ℝ → ℝ) (hH : Computes (interpFunc ty) H)
    (hr : ReportsDerivAt (derivInterpFunc ty) (interpFunc ty) phi) {dfL dfA : ℝ × ℝ → ℝ × ℝ} {fL fA : ℝ × ℝ → ℝ}
    {cL cA : ℝ → ℝ × ℝ} (hm : ∀ s, (1 - H s) • cL s + H s • cA s = c) (heq : ∀ s, dfL (cL s) = dfA (cA s))
    (h1 : DifferentiableAt ℝ cL phi) (h2 : DifferentiableAt ℝ cA phi)
    (hL : ∀ x, HasFDerivAt fL ((dfL x).1 • ContinuousLinearMap.fst ℝ ℝ ℝ + (dfL x).2 • ContinuousLinearMap.snd ℝ ℝ ℝ) x)
    (hA : ∀ x, HasFDerivAt fA ((dfA x).1 • ContinuousLinearMap.fst ℝ ℝ ℝ + (dfA x).2 • ContinuousLinearMap.snd ℝ ℝ ℝ) x) :
    ∃ d, driveTernary ty vm dfA phi (invVm vm * fL (cL phi)) (invVm vm * fA (cA phi)) (cL phi) (cA phi) = some d ∧
      HasDerivAt (fun s => (1 - H s) * (invVm vm * fL (cL s)) + H s * (invVm vm * fA (cA s))) (-d) phi := by
  obtain ⟨F, h', hF, hd, hder⟩ := hr
  have hFH : F = H := funext fun s => Option.some_injective _ ((hF s).symm.trans (hH s))
  subst hFH
  refine ⟨_, by simp only [driveTernary, hd]; rfl, ?_⟩
  have d1 := h1.hasDerivAt
  have d2 := h2.hasDerivAt
  have f1 : HasDerivAt (fun s => (cL s).1) (deriv cL phi).1 phi := (hasFDerivAt_fst (𝕜 := ℝ) (p := cL phi)).comp_hasDerivAt phi d1
  have f2 : HasDerivAt (fun s => (cL s).2) (deriv cL phi).2 phi := (hasFDerivAt_snd (𝕜 := ℝ) (p := cL phi)).comp_hasDerivAt phi d1
  have g1 : HasDerivAt (fun s => (cA s).1) (deriv cA phi).1 phi := (hasFDerivAt_fst (𝕜 := ℝ) (p := cA phi)).comp_hasDerivAt phi d2
  have g2 : HasDerivAt (fun s => (cA s).2) (deriv cA phi).2 phi := (hasFDerivAt_snd (𝕜 := ℝ) (p := cA phi)).comp_hasDerivAt phi d2
  have m1 := mass_deriv (c := c.1) (fun s => by have := congrArg Prod.fst (hm s); simpa using this) hder f1 g1
  have m2 := mass_deriv (c := c.2) (fun s => by have := congrArg Prod.snd (hm s); simpa using this) hder f2 g2
  have a := (hder.const_sub 1).mul (((hL (cL phi)).comp_hasDerivAt phi d1).const_mul (invVm vm))
  have b := hder.mul (((hA (cA phi)).comp_hasDerivAt phi d2).const_mul (invVm vm))
  refine ((a.add b).congr_deriv ?_)
  simp only [Function.comp, ContinuousLinearMap.add_apply, ContinuousLinearMap.smul_apply,
    ContinuousLinearMap.coe_fst', ContinuousLinearMap.coe_snd', smul_eq_mul, ← heq phi]
  linear_combination invVm vm * (dfL (cL phi)).1 * m1 + invVm vm * (dfL (cL phi)).2 * m2

/-! ## Several order parameters -/

/-- Energy fraction of the solid: normalised squares. -/
noncomputable def solidShare {n : ℕ} (phi : Fin (n + 1) → ℝ) : ℝ :=
  (∑ k : Fin n, phi k.castSucc ^ 2) / ∑ k, phi k ^ 2

theorem solidShare_deriv {n : ℕ} (phi : ℝ → Fin (n + 1) → ℝ) (v : Fin (n + 1) → ℝ) (t : ℝ)
    (hv : ∀ k, HasDerivAt (fun s => phi s k) (v k) t) (h : ∑ k, phi t k ^ 2 ≠ 0) :
    ∃ w', HasDerivAt (fun s => solidShare (phi s)) w' t ∧
      ∀ dfs dfl, ∑ p, driveMultiOrder n dfs dfl (phi t) p * v p = w' * (dfl - dfs) := by
  have hd := AMPE.PhaseRHS.Props.interpEnergy_deriv (fun k => if k = Fin.last n then (0:ℝ) else 1) phi v t hv h
  have e : (fun s => solidShare (phi s)) =
      fun s => AMPE.PhaseRHS.Props.interpEnergy (fun k => if k = Fin.last n then (0:ℝ) else 1) (phi s) := by
    funext s
    unfold solidShare AMPE.PhaseRHS.Props.interpEnergy
    congr 1
    rw [Fin.sum_univ_castSucc]
    simp [Fin.castSucc_ne_last]
  refine ⟨_, by rw [e]; exact hd, fun dfs dfl => ?_⟩
  rw [Finset.sum_mul]
  refine Finset.sum_congr rfl fun p _ => ?_
  have hS : ∑ k, phi t k ^ 2 = phi t (Fin.last n) * phi t (Fin.last n) + ∑ k : Fin n, phi t k.castSucc * phi t k.castSucc := by
    rw [Fin.sum_univ_castSucc, add_comm]
    simp only [pow_two]
  have hW : ∑ k, (if k = Fin.last n then (0:ℝ) else 1) * phi t k ^ 2 = ∑ k : Fin n, phi t k.castSucc * phi t k.castSucc := by
    rw [Fin.sum_univ_castSucc]
    simp [Fin.castSucc_ne_last, pow_two]
  rw [hW]
  rw [hS] at h ⊢
  unfold driveMultiOrder
  simp only
  generalize (∑ k : Fin n, phi t k.castSucc * phi t k.castSucc) = S at h ⊢
  by_cases hp : p = Fin.last n
  · subst hp
    rw [if_pos rfl, if_pos rfl]
    field_simp
    ring
  · rw [if_neg hp, if_neg hp]
    field_simp
    ring

/-- **C72** (several order parameters): along any motion of the order parameters, with the solid fraction `p` used for the
phase concentrations, the power of the forces is minus the rate of change of the energy, up to the chemical potential
times the rate of change of `(p - w)(cL - cA)`, `w` the normalised squares. -/
theorem c72_multi_order (n : ℕ) (vm c t : ℝ) (phi : ℝ → Fin (n + 1) → ℝ) (u : Fin (n + 1) → ℝ)
    (hu : ∀ k, HasDerivAt (fun s => phi s k) (u k) t) (h : ∑ k, phi t k ^ 2 ≠ 0) {p : ℝ → ℝ} {p' : ℝ}
    (hp : HasDerivAt p p' t) {dfL dfA fL fA cL cA : ℝ → ℝ} {cL' cA' : ℝ} (hs : Split p dfL dfA c cL cA)
    (h1 : HasDerivAt cL cL' t) (h2 : HasDerivAt cA cA' t)
    (hL : ∀ x, HasDerivAt fL (dfL x) x) (hA : ∀ x, HasDerivAt fA (dfA x) x) :
    ∃ D, HasDerivAt (fun s => (p s - solidShare (phi s)) * (cL s - cA s)) D t ∧
      HasDerivAt (mixture (fun s => solidShare (phi s)) (invVm vm) (invVm vm) fL fA cL cA)
        (-(∑ k, driveMultiOrder n (invVm vm * fA (cA t) - dfL (cL t) * invVm vm * cA t)
            (invVm vm * fL (cL t) - dfL (cL t) * invVm vm * cL t) (phi t) k * u k)
          + invVm vm * dfL (cL t) * D) t := by
  obtain ⟨w', hw, hforce⟩ := solidShare_deriv phi u t hu h
  refine ⟨(p' - w') * (cL t - cA t) + (p t - solidShare (phi t)) * (cL' - cA'),
    ((hp.sub hw).mul (h1.sub h2)).congr_deriv (by simp [Pi.sub_apply]), ?_⟩
  refine (two_phase hs hw hp h1 h2 (hL _) (hA _)).congr_deriv ?_
  rw [hforce]
  ring

/-- **C72** (violation, several order parameters): the fractions used for the concentrations are not the normalised squares.
With three equal order parameters (two grains and the liquid) the energy uses 2/3 of solid; every supported
interpolation function gives another value for the concentrations, except the linear one. -/
theorem c72_violation_multi_fraction :
    let phi : Fin 3 → ℝ := fun _ => 1 / 3
    solidShare (n := 2) phi = 2 / 3 ∧ solidFraction 'l' 2 phi = some (2 / 3) ∧ solidFraction 'm' 2 phi = some (4 / 5) ∧
      solidFraction 'p' 2 phi = some (64 / 81) ∧ solidFraction 'h' 2 phi = some (20 / 27) := by
  have hc : clamp (2 / 3) = 2 / 3 := clamp_of_mem (by norm_num) (by norm_num)
  have hp : pos (2 / 3) = 2 / 3 := pos_of_nonneg (by norm_num)
  have hsum : ∑ _k : Fin 2, (1 / 3 : ℝ) = 2 / 3 := by simp; norm_num
  refine ⟨?_, ?_, ?_, ?_, ?_⟩
  · simp [solidShare]; norm_num
  all_goals
    simp only [solidFraction, hsum]
    simp [interpFunc, hc, hp]
    try norm_num

/-- **C72** (violation, linear fraction): with the linear fraction the energies agree at that state but not their rates:
growing the first grain changes the energy fraction at rate 2/3, the concentration fraction at rate 1. -/
theorem c72_violation_multi_rate :
    ∃ w', HasDerivAt (fun s => solidShare (n := 2) ![s, 1 / 3, 1 / 3]) w' (1 / 3) ∧ w' = 2 / 3 ∧
      HasDerivAt (fun s : ℝ => ∑ k : Fin 2, (![s, 1 / 3, 1 / 3] : Fin 3 → ℝ) k.castSucc) 1 (1 / 3) := by
  have e : (fun s => solidShare (n := 2) ![s, 1 / 3, 1 / 3]) = fun s => (s ^ 2 + 1 / 9) / (s ^ 2 + 2 / 9) := by
    funext s
    simp [solidShare, Fin.sum_univ_succ]
    norm_num
  have hq : HasDerivAt (fun s : ℝ => s ^ 2) (2 / 3) (1 / 3) := by
    refine ((hasDerivAt_id (1 / 3 : ℝ)).pow 2).congr_deriv ?_
    norm_num
  refine ⟨2 / 3, ?_, rfl, ?_⟩
  · rw [e]
    refine ((hq.add_const (1 / 9)).div (hq.add_const (2 / 9)) (by norm_num)).congr_deriv ?_
    norm_num
  · have e2 : (fun s : ℝ => ∑ k : Fin 2, (![s, 1 / 3, 1 / 3] : Fin 3 → ℝ) k.castSucc) = fun s => s + 1 / 3 := by
      funext s; simp [Fin.sum_univ_succ]
    rw [e2]
    exact (hasDerivAt_id _).add_const _

/-- The hypotheses of the C72 theorems hold for two parabolas, harmonic interpolation, at a half-way order parameter. -/
example : ∃ d, driveQuadratic 'h' 1e-5 (fun x => 2 * (x - 0.2)) 0.5
      (invVm 1e-5 * (parabolaL (fun s => clamp s * clamp s * (3 - 2 * clamp s)) 0.2 0.6 0.3 0.5 - 0.2) ^ 2)
      (invVm 1e-5 * (parabolaA (fun s => clamp s * clamp s * (3 - 2 * clamp s)) 0.2 0.6 0.3 0.5 - 0.6) ^ 2)
      (parabolaL (fun s => clamp s * clamp s * (3 - 2 * clamp s)) 0.2 0.6 0.3 0.5)
      (parabolaA (fun s => clamp s * clamp s * (3 - 2 * clamp s)) 0.2 0.6 0.3 0.5) = some d := by
  have hH : Computes (interpFunc 'h') (fun s => clamp s * clamp s * (3 - 2 * clamp s)) := fun s => rfl
  have hr := c11_first_partial 'h' 0.5 (Or.inl (by simp [derivGood]))
  have hd : DifferentiableAt ℝ (fun s => clamp s * clamp s * (3 - 2 * clamp s)) (0.5 : ℝ) := by
    obtain ⟨F, d, hF, -, h⟩ := hr
    have : F = fun s => clamp s * clamp s * (3 - 2 * clamp s) :=
      funext fun s => Option.some_injective _ ((hF s).symm.trans (hH s))
    rw [← this]; exact h.differentiableAt
  obtain ⟨d, h, -⟩ := c72_driving_is_derivative_partial 'h' 1e-5 0.3 0.5 _ hH hr
    (parabola_split _ 0.2 0.6 0.3) ((hd.mul_const _).const_add _) (((hd.const_sub 1).mul_const _).const_sub _)
    (parabola_deriv 0.2) (parabola_deriv 0.6)
  exact ⟨d, h⟩

end AMPE.Alloy.Props
