import Verif.Props.AlloyFlow

/-!
# C110, where the second law fails

Two phases whose molar free energies are parabolas of the same curvature: the split of a composition is explicit, so the energy of a
uniform sample can be followed exactly.
-/

namespace AMPE.AlloyFlow.Props

open AMPE.Functions AMPE.Functions.Props AMPE.Flux AMPE.Flux.Props AMPE.PhaseRHS AMPE.PhaseRHS.Props AMPE.Alloy AMPE.DiffCoeff
  AMPE.DiffCoeff.Props AMPE.Coupling AMPE.ConservedFlow.Props AMPE.AlloyFlow

/-- Energies `A (c - a)²` of the liquid and `A (c - b)²` of the solid. -/
noncomputable def parabolas (A a b : ℝ) : Energies where
  fL := fun x => A * (x - a) ^ 2
  dfL := fun x => 2 * A * (x - a)
  fA := fun x => A * (x - b) ^ 2
  dfA := fun x => 2 * A * (x - b)

theorem parabola_deriv (A a x : ℝ) : HasDerivAt (fun x => A * (x - a) ^ 2) (2 * A * (x - a)) x :=
  ((((hasDerivAt_id' x).sub_const a).pow 2).const_mul A).congr_deriv (by simp; ring)

theorem parabolas_convex {A : ℝ} (hA : 0 < A) (a b : ℝ) : Convex (parabolas A a b) where
  hL := parabola_deriv A a
  hA := parabola_deriv A b
  mL := fun x y h => by simp only [parabolas]; nlinarith
  mA := fun x y h => by simp only [parabolas]; nlinarith
  kL := by simp only [parabolas]; fun_prop
  kA := by simp only [parabolas]; fun_prop

/-- The split of a composition between two parabolas of the same curvature. -/
theorem parabolas_split (tc : Char) (A a b : ℝ) {P : ℝ → ℝ} (hP : Computes (interpFunc tc) P) (phi c : Field2) :
    Split tc (parabolas A a b) phi c (fun i j => c i j + P (phi i j) * (a - b)) (fun i j => c i j - (1 - P (phi i j)) * (a - b)) :=
  fun i j => ⟨P (phi i j), hP _, by ring, by simp only [parabolas]; ring⟩

/-- Molar volume whose inverse multiplies the chemical potential in the driving force. -/
noncomputable def potentialVolume (kind : Kind) (vmL vmA : ℝ) : ℝ :=
  match kind with
  | .quadratic => vmL
  | .calphad => vmA

theorem total_uniform (N M : ℕ) (lo0 lo1 : ℤ) (x : ℝ) : total N M lo0 lo1 (fun _ _ => x) = (M : ℝ) * ((N : ℝ) * x) := by
  simp [total]

/-- **C110, the exact rate for a uniform sample** of phase `p` and composition `c`, any interpolations, any molar volumes: with `r` the
force on the phase (the rate is `mob r`), the energy changes at `- w mob r (r - δ)` per cell.  `δ` is the part of the force that is not
a derivative of the energy; the energy grows exactly when `r` is strictly between 0 and `δ`. -/
theorem c110_violation_uniform (kind : Kind) (ty tc : Char) (N M : ℕ) (lo0 lo1 : ℤ) (A a b eps scale dx dy vmL vmA m w mb p c₀ h h' q q' : ℝ)
    (hty : ReportsDerivAt (derivInterpFunc ty) (interpFunc ty) p) (htc : ReportsDerivAt (derivInterpFunc tc) (interpFunc tc) p)
    (eh : interpFunc ty p = some h) (eh' : derivInterpFunc ty p = some h') (eq : interpFunc tc p = some q)
    (eq' : derivInterpFunc tc p = some q') (dl0 da0 dl1 da1 : Field2) :
    let x := c₀ - a + q * (a - b)
    let k := invVm (potentialVolume kind vmL vmA)
    let r := -(scale * (32 * p * (1 - p) * (1 - 2 * p))) + h' * (A * x ^ 2 * (invVm vmL - invVm vmA) - 2 * A * x * k * (a - b))
    let δ := 2 * A * x * (a - b) * (((1 - h) * invVm vmL + h * invVm vmA) * q' - h' * k)
    ∃ phi c cl ca : ℝ → Field2, (∀ i j, phi 0 i j = p) ∧ (∀ i j, c 0 i j = c₀) ∧ (∀ s, Periodic2 N M (phi s)) ∧
      (∀ s, Periodic2 N M (c s)) ∧ (∀ s, Split tc (parabolas A a b) (phi s) (c s) (cl s) (ca s)) ∧
      Follows kind ty (parabolas A a b) eps scale dx dy vmL vmA m (fun _ _ => mb) (ebsX dx dl0 da0 (cl 0) (ca 0))
        (ebsY dy dl1 da1 (cl 0) (ca 0)) phi c (cl 0) (ca 0) 0 ∧
      ∀ En : ℝ → ℝ, (∀ s, energy ty (parabolas A a b) eps scale dx dy vmL vmA w lo0 (lo0 + N - 1) lo1 (lo1 + M - 1) (phi s) (cl s) (ca s) =
          some (En s)) →
        HasDerivAt En (-(M * (N * (w * mb * (r * (r - δ)))))) 0 := by
  intro x k r δ
  obtain ⟨H, hp, hH, e1, hD⟩ := hty
  obtain ⟨P, qp, hP, e2, hQ⟩ := htc
  obtain rfl : hp = h' := Option.some.inj (e1.symm.trans eh')
  obtain rfl : qp = q' := Option.some.inj (e2.symm.trans eq')
  have hh : H p = h := Option.some.inj ((hH p).symm.trans eh)
  have hq : P p = q := Option.some.inj ((hP p).symm.trans eq)
  set v := mb * r with hv
  have s0 : ∀ y : ℝ, y + 0 * v = y := fun y => by ring
  refine ⟨fun s _ _ => p + s * v, fun _ _ _ => c₀, fun s _ _ => c₀ + P (p + s * v) * (a - b), fun s _ _ => c₀ - (1 - P (p + s * v)) * (a - b),
    fun i j => s0 p, fun i j => rfl, fun s => ⟨fun _ _ => rfl, fun _ _ => rfl⟩, fun s => ⟨fun _ _ => rfl, fun _ _ => rfl⟩,
    fun s => parabolas_split tc A a b hP (fun _ _ => p + s * v) (fun _ _ => c₀), ⟨fun _ _ => v, fun i j => ?_, fun i j => ?_, fun i j => ?_⟩,
    fun En hEn => ?_⟩
  · exact (((hasDerivAt_id' (0 : ℝ)).mul_const v).const_add p).congr_deriv (by ring)
  · simp only [s0]
    rw [rate_value kind ty (parabolas A a b) eps scale dx dy vmL vmA (fun _ _ => mb) (fun _ _ => p) _ _ i j hp eh'
      (by simp only [parabolas]; ring)]
    simp only [hq, Option.some.injEq, hv, r, k, x, parabolas, div2, gradFluxX, gradFluxY]
    cases kind <;> simp only [potentialVolume] <;> ring
  · refine (hasDerivAt_const (0 : ℝ) c₀).congr_deriv ?_
    simp only [rhs2, ebsX_value, ebsY_value]
    ring
  · have val : En = fun s => (M : ℝ) * ((N : ℝ) * ((scale * (16 * (p + s * v) * (p + s * v) * (1 - (p + s * v)) * (1 - (p + s * v)))
        + ((1 - H (p + s * v)) * (invVm vmL * (A * (c₀ + P (p + s * v) * (a - b) - a) ^ 2))
          + H (p + s * v) * (invVm vmA * (A * (c₀ + P (p + s * v) * (a - b) - a) ^ 2)))) * w)) := by
      funext s
      refine Option.some.inj ((hEn s).symm.trans ((energy_some ty _ eps scale dx dy vmL vmA w N M lo0 lo1 _ _ _ hH).trans ?_))
      rw [Option.some.injEq, total_uniform]
      simp only [interfaceCell, Finset.sum_const, Finset.card_range, nsmul_eq_mul, parabolas]
      generalize P (p + s * v) = P'
      generalize H (p + s * v) = H'
      generalize p + s * v = p'
      generalize invVm vmL = vL
      generalize invVm vmA = vA
      have i0 : 0.5 * eps * eps * (1 / dx ^ 2 * (-p' + 2 * p' - p') + 1 / dy ^ 2 * (-p' + 2 * p' - p')) * p' = 0 := by ring
      have e0 : c₀ - (1 - P') * (a - b) - b = c₀ + P' * (a - b) - a := by ring
      rw [i0, e0]
      ring
    rw [val]
    have hphi : HasDerivAt (fun s : ℝ => p + s * v) v 0 := (((hasDerivAt_id' (0 : ℝ)).mul_const v).const_add p).congr_deriv (by ring)
    have hphi' : p + 0 * v = p := s0 p
    have dH : HasDerivAt (fun s => H (p + s * v)) (hp * v) 0 := HasDerivAt.comp (h₂ := H) (0 : ℝ) (by rw [hphi']; exact hD) hphi
    have dP : HasDerivAt (fun s => P (p + s * v)) (qp * v) 0 := HasDerivAt.comp (h₂ := P) (0 : ℝ) (by rw [hphi']; exact hQ) hphi
    have dW : HasDerivAt (fun s => scale * (16 * (p + s * v) * (p + s * v) * (1 - (p + s * v)) * (1 - (p + s * v))))
        (scale * (32 * p * (1 - p) * (1 - 2 * p)) * v) 0 :=
      HasDerivAt.comp (h₂ := fun x => scale * (16 * x * x * (1 - x) * (1 - x))) (0 : ℝ) (by rw [hphi']; exact well_deriv scale p) hphi
    have dX : HasDerivAt (fun s => A * (c₀ + P (p + s * v) * (a - b) - a) ^ 2) (A * (2 * x * (qp * v * (a - b)))) 0 := by
      refine (((((dP.mul_const (a - b)).const_add c₀).sub_const a).pow 2).const_mul A).congr_deriv ?_
      rw [hphi', hq, show x = c₀ + q * (a - b) - a by simp only [x]; ring, pow_one, Nat.cast_ofNat]
    have all := ((((dW.add (((dH.const_sub 1).mul (dX.const_mul (invVm vmL))).add (dH.mul (dX.const_mul (invVm vmA))))).mul_const w).const_mul
      (N : ℝ)).const_mul (M : ℝ))
    refine all.congr_deriv ?_
    rw [hphi', hq, hh]
    have hx : c₀ + q * (a - b) - a = x := by simp only [x]; ring
    rw [hx]
    simp only [hv, δ]
    have hr : r = -(scale * (32 * p * (1 - p) * (1 - 2 * p))) + hp * (A * x ^ 2 * (invVm vmL - invVm vmA) - 2 * A * x * k * (a - b)) := rfl
    have hs : scale * (32 * p * (1 - p) * (1 - 2 * p)) = -r + hp * (A * x ^ 2 * (invVm vmL - invVm vmA) - 2 * A * x * k * (a - b)) := by
      rw [hr]; ring
    rw [hs]
    clear_value r x k
    generalize invVm vmL = vL
    generalize invVm vmA = vA
    ring

/-- A motion along the equations of the code from a uniform sample during which the reported energy starts to grow. -/
def Grows (kind : Kind) (ty tc : Char) (E : Energies) (eps scale dx dy vmL vmA m w mb : ℝ) (N M : ℕ) (lo0 lo1 : ℤ)
    (dl0 da0 dl1 da1 : Field2) : Prop :=
  ∃ p c₀ : ℝ, ∃ phi c cl ca : ℝ → Field2, 0 < p ∧ p < 1 ∧ (∀ i j, phi 0 i j = p) ∧ (∀ i j, c 0 i j = c₀) ∧
    (∀ s, Periodic2 N M (phi s)) ∧ (∀ s, Periodic2 N M (c s)) ∧ (∀ s, Split tc E (phi s) (c s) (cl s) (ca s)) ∧
    Follows kind ty E eps scale dx dy vmL vmA m (fun _ _ => mb) (ebsX dx dl0 da0 (cl 0) (ca 0)) (ebsY dy dl1 da1 (cl 0) (ca 0)) phi c
      (cl 0) (ca 0) 0 ∧
    ∀ En : ℝ → ℝ, (∀ s, energy ty E eps scale dx dy vmL vmA w lo0 (lo0 + N - 1) lo1 (lo1 + M - 1) (phi s) (cl s) (ca s) = some (En s)) →
      ∃ e > 0, HasDerivAt En e 0

/-- **C110 is violated by two molar volumes**, whatever they are: the interpolation is `p` for both, the phases have different minima; there
is a uniform sample, half solid, from which the energy grows. -/
theorem c110_violation_volumes (kind : Kind) (N M : ℕ) (hN : 0 < N) (hM : 0 < M) (lo0 lo1 : ℤ) (A a b eps scale dx dy vmL vmA m w mb : ℝ)
    (hA : 0 < A) (hab : a ≠ b) (hL : 0 < vmL) (hS : 0 < vmA) (hne : vmL ≠ vmA) (hw : 0 < w) (hmb : 0 < mb) (dl0 da0 dl1 da1 : Field2) :
    Grows kind 'p' 'p' (parabolas A a b) eps scale dx dy vmL vmA m w mb N M lo0 lo1 dl0 da0 dl1 da1 := by
  have kL : 0 < invVm vmL := by unfold invVm; positivity
  have kA : 0 < invVm vmA := by unfold invVm; positivity
  have kne : invVm vmA - invVm vmL ≠ 0 := by
    intro h0
    have : invVm vmA = invVm vmL := by linarith
    unfold invVm at this
    rw [div_eq_div_iff hS.ne' hL.ne'] at this
    exact hne (mul_left_cancel₀ (by norm_num) this)
  have hD : a - b ≠ 0 := sub_ne_zero.2 hab
  have rd : ReportsDerivAt (derivInterpFunc 'p') (interpFunc 'p') (1 / 2) := c11_first_partial _ _ (Or.inl (by simp [derivGood]))
  have e1 : interpFunc 'p' (1 / 2) = some (1 / 2) := by
    rw [Coupling.Props.interp_p (by norm_num) (by norm_num)]; norm_num
  have e2 : derivInterpFunc 'p' (1 / 2) = some (15 / 8) := by
    rw [Coupling.Props.deriv_p (by norm_num) (by norm_num)]; norm_num
  have pos : ∀ δ : ℝ, δ ≠ 0 → 0 < -((M : ℝ) * ((N : ℝ) * (w * mb * (δ / 2 * (δ / 2 - δ))))) := fun δ hδ => by
    have : 0 < δ ^ 2 := by positivity
    have hM' : (0 : ℝ) < M := by exact_mod_cast hM
    have hN' : (0 : ℝ) < N := by exact_mod_cast hN
    have : -((M : ℝ) * ((N : ℝ) * (w * mb * (δ / 2 * (δ / 2 - δ))))) = M * (N * (w * mb * (δ ^ 2 / 4))) := by ring
    rw [this]; positivity
  generalize hkl : invVm vmL = vL at *
  generalize hka : invVm vmA = vA at *
  cases kind
  · set x := -(a - b) * (vA + 3 * vL) / (2 * (vA - vL)) with hx
    have x0 : x ≠ 0 := by
      rw [hx]; refine div_ne_zero (mul_ne_zero (neg_ne_zero.2 hD) (by positivity)) (mul_ne_zero two_ne_zero kne)
    obtain ⟨phi, c, cl, ca, h1, h2, h3, h4, h5, h6, h7⟩ := c110_violation_uniform .quadratic 'p' 'p' N M lo0 lo1 A a b eps scale dx dy vmL vmA
      m w mb (1 / 2) (x + a - 1 / 2 * (a - b)) (1 / 2) (15 / 8) (1 / 2) (15 / 8) rd rd e1 e2 e1 e2 dl0 da0 dl1 da1
    refine ⟨1 / 2, _, phi, c, cl, ca, by norm_num, by norm_num, h1, h2, h3, h4, h5, h6, fun En hEn => ?_⟩
    have h8 := h7 En hEn
    set δ := 2 * A * x * (a - b) * (15 / 16 * (vA - vL)) with hδ
    have hδ0 : δ ≠ 0 := by
      rw [hδ]; exact mul_ne_zero (mul_ne_zero (mul_ne_zero (by positivity) x0) hD) (mul_ne_zero (by norm_num) kne)
    refine ⟨_, pos δ hδ0, h8.congr_deriv ?_⟩
    simp only [potentialVolume, hkl, hka]
    have ex : x + a - 1 / 2 * (a - b) - a + 1 / 2 * (a - b) = x := by ring
    rw [ex]
    have key : x * (2 * (vA - vL)) = -(a - b) * (vA + 3 * vL) := by
      rw [hx, div_mul_cancel₀ _ (mul_ne_zero two_ne_zero kne)]
    have er : -(scale * (32 * (1 / 2) * (1 - 1 / 2) * (1 - 2 * (1 / 2)))) + 15 / 8 * (A * x ^ 2 * (vL - vA) - 2 * A * x * vL * (a - b))
        = δ / 2 := by
      rw [hδ]; linear_combination (-(15 / 16) * A * x) * key
    have ed : 2 * A * x * (a - b) * (((1 - 1 / 2) * vL + 1 / 2 * vA) * (15 / 8) - 15 / 8 * vL) = δ := by rw [hδ]; ring
    rw [er, ed]
  · set x := -(a - b) * (3 * vA + vL) / (2 * (vA - vL)) with hx
    have x0 : x ≠ 0 := by
      rw [hx]; refine div_ne_zero (mul_ne_zero (neg_ne_zero.2 hD) (by positivity)) (mul_ne_zero two_ne_zero kne)
    obtain ⟨phi, c, cl, ca, h1, h2, h3, h4, h5, h6, h7⟩ := c110_violation_uniform .calphad 'p' 'p' N M lo0 lo1 A a b eps scale dx dy vmL vmA
      m w mb (1 / 2) (x + a - 1 / 2 * (a - b)) (1 / 2) (15 / 8) (1 / 2) (15 / 8) rd rd e1 e2 e1 e2 dl0 da0 dl1 da1
    refine ⟨1 / 2, _, phi, c, cl, ca, by norm_num, by norm_num, h1, h2, h3, h4, h5, h6, fun En hEn => ?_⟩
    have h8 := h7 En hEn
    set δ := -(2 * A * x * (a - b) * (15 / 16 * (vA - vL))) with hδ
    have hδ0 : δ ≠ 0 := by
      rw [hδ]; exact neg_ne_zero.2 (mul_ne_zero (mul_ne_zero (mul_ne_zero (by positivity) x0) hD) (mul_ne_zero (by norm_num) kne))
    refine ⟨_, pos δ hδ0, h8.congr_deriv ?_⟩
    simp only [potentialVolume, hkl, hka]
    have ex : x + a - 1 / 2 * (a - b) - a + 1 / 2 * (a - b) = x := by ring
    rw [ex]
    have key : x * (2 * (vA - vL)) = -(a - b) * (3 * vA + vL) := by
      rw [hx, div_mul_cancel₀ _ (mul_ne_zero two_ne_zero kne)]
    have er : -(scale * (32 * (1 / 2) * (1 - 1 / 2) * (1 - 2 * (1 / 2)))) + 15 / 8 * (A * x ^ 2 * (vL - vA) - 2 * A * x * vA * (a - b))
        = δ / 2 := by
      rw [hδ]; linear_combination (-(15 / 16) * A * x) * key
    have ed : 2 * A * x * (a - b) * (((1 - 1 / 2) * vL + 1 / 2 * vA) * (15 / 8) - 15 / 8 * vA) = δ := by rw [hδ]; ring
    rw [er, ed]

/-- **C110 is violated by two interpolations**: with one molar volume, if the interpolation of the energy and that of the composition have
different slopes at some `p` between 0 and 1/2, then for every height of the double well there is a uniform sample of that phase from
which the energy grows. -/
theorem c110_violation_interpolations (kind : Kind) (ty tc : Char) (N M : ℕ) (hN : 0 < N) (hM : 0 < M) (lo0 lo1 : ℤ)
    (A a b eps scale dx dy vm m w mb p h h' q q' : ℝ) (hA : 0 < A) (hab : a ≠ b) (hvm : 0 < vm) (hw : 0 < w) (hmb : 0 < mb) (hsc : 0 < scale)
    (hp0 : 0 < p) (hp1 : p < 1 / 2)
    (hty : ReportsDerivAt (derivInterpFunc ty) (interpFunc ty) p) (htc : ReportsDerivAt (derivInterpFunc tc) (interpFunc tc) p)
    (eh : interpFunc ty p = some h) (eh' : derivInterpFunc ty p = some h') (eq : interpFunc tc p = some q)
    (eq' : derivInterpFunc tc p = some q') (hs : 0 < h' + q') (hdiff : h' ≠ q') (dl0 da0 dl1 da1 : Field2) :
    Grows kind ty tc (parabolas A a b) eps scale dx dy vm vm m w mb N M lo0 lo1 dl0 da0 dl1 da1 := by
  have kv : 0 < invVm vm := by unfold invVm; positivity
  have hD : a - b ≠ 0 := sub_ne_zero.2 hab
  set g := 32 * p * (1 - p) * (1 - 2 * p) with hg
  have g0 : 0 < g := by
    rw [hg]; exact mul_pos (mul_pos (by positivity) (by linarith)) (by linarith)
  set y := -(2 * scale * g) / (h' + q') with hy
  have y0 : y ≠ 0 := div_ne_zero (neg_ne_zero.2 (by positivity)) hs.ne'
  set x := y / (2 * A * (a - b) * invVm vm) with hx
  have hden : 2 * A * (a - b) * invVm vm ≠ 0 := mul_ne_zero (mul_ne_zero (by positivity) hD) kv.ne'
  have hxy : 2 * A * x * (a - b) * invVm vm = y := by
    have : x * (2 * A * (a - b) * invVm vm) = y := by rw [hx, div_mul_cancel₀ _ hden]
    linarith
  obtain ⟨phi, c, cl, ca, h1, h2, h3, h4, h5, h6, h7⟩ := c110_violation_uniform kind ty tc N M lo0 lo1 A a b eps scale dx dy vm vm
      m w mb p (x + a - q * (a - b)) h h' q q' hty htc eh eh' eq eq' dl0 da0 dl1 da1
  refine ⟨p, _, phi, c, cl, ca, hp0, by linarith, h1, h2, h3, h4, h5, h6, fun En hEn => ?_⟩
  have h8 := h7 En hEn
  set δ := y * (q' - h') with hδ
  have hδ0 : δ ≠ 0 := mul_ne_zero y0 (sub_ne_zero.2 hdiff.symm)
  have hM' : (0 : ℝ) < M := by exact_mod_cast hM
  have hN' : (0 : ℝ) < N := by exact_mod_cast hN
  have pd : 0 < δ ^ 2 := by positivity
  refine ⟨M * (N * (w * mb * (δ ^ 2 / 4))), by positivity, h8.congr_deriv ?_⟩
  have hk : invVm (potentialVolume kind vm vm) = invVm vm := by cases kind <;> rfl
  have ex : x + a - q * (a - b) - a + q * (a - b) = x := by ring
  rw [hk, ex]
  have ys : y * (h' + q') = -(2 * scale * g) := by rw [hy, div_mul_cancel₀ _ hs.ne']
  have er : -(scale * g) + h' * (A * x ^ 2 * (invVm vm - invVm vm) - 2 * A * x * invVm vm * (a - b)) = δ / 2 := by
    have : h' * (A * x ^ 2 * (invVm vm - invVm vm) - 2 * A * x * invVm vm * (a - b)) = -(h' * y) := by rw [← hxy]; ring
    rw [this, hδ]; linear_combination -(1 / 2) * ys
  have ed : 2 * A * x * (a - b) * (((1 - h) * invVm vm + h * invVm vm) * q' - h' * invVm vm) = δ := by rw [hδ, ← hxy]; ring
  rw [er, ed]
  ring

/-- A case: energy interpolated with `p`, composition linearly (`conc_interp_func_type = "lin"`), a quarter solid. -/
example : Grows .quadratic 'p' 'l' (parabolas 1 (1 / 10) (3 / 10)) 1 1 1 1 1 1 1 1 1 4 4 0 0 (fun _ _ => 1) (fun _ _ => 1) (fun _ _ => 1)
    (fun _ _ => 1) :=
  c110_violation_interpolations .quadratic 'p' 'l' 4 4 (by norm_num) (by norm_num) 0 0 1 (1 / 10) (3 / 10) 1 1 1 1 1 1 1 1 (1 / 4) _ _ _ _
    one_pos (by norm_num) one_pos one_pos one_pos one_pos (by norm_num) (by norm_num) (c11_first_partial _ _ (Or.inl (by simp [derivGood])))
    (c11_first_partial _ _ (Or.inr (Or.inl ⟨rfl, by norm_num, by norm_num⟩)))
    (Coupling.Props.interp_p (by norm_num) (by norm_num)) (Coupling.Props.deriv_p (by norm_num) (by norm_num))
    (Coupling.Props.interp_l (by norm_num) (by norm_num)) (Coupling.Props.deriv_l _) (by norm_num) (by norm_num) _ _ _ _

end AMPE.AlloyFlow.Props
