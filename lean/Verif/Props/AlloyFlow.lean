import Verif.Model.AlloyFlow
import Verif.Proofs.AlloyFlow
import Verif.Proofs.MeltFlow
import Verif.Props.ConservedFlow
import Verif.Props.Coupling

/-!
# C110: the second law for an isothermal alloy

Phase and composition are integrated together; the driving force reads the compositions of the phases, the composition equation moves
solute along their differences.  In a closed sample the energy the program reports never increases.
-/

namespace AMPE.AlloyFlow.Props

open AMPE.Functions AMPE.Functions.Props AMPE.Flux AMPE.Flux.Props AMPE.PhaseRHS AMPE.PhaseRHS.Props AMPE.Alloy AMPE.DiffCoeff
  AMPE.DiffCoeff.Props AMPE.Coupling AMPE.ConservedFlow.Props AMPE.AlloyFlow

/-! ## Specification -/

/-- Both molar free energies are differentiable with the derivative the library returns, strictly convex and smooth enough. -/
structure Convex (E : Energies) : Prop where
  hL : ∀ x, HasDerivAt E.fL (E.dfL x) x
  hA : ∀ x, HasDerivAt E.fA (E.dfA x) x
  mL : StrictMono E.dfL
  mA : StrictMono E.dfA
  kL : Continuous E.dfL
  kA : Continuous E.dfA

/-- What the library returns for the compositions of the phases: mixture with the fraction of type `tc`, equal potentials. -/
def Split (tc : Char) (E : Energies) (phi c cl ca : Field2) : Prop :=
  ∀ i j, ∃ h, interpFunc tc (phi i j) = some h ∧ (1 - h) * cl i j + h * ca i j = c i j ∧ E.dfL (cl i j) = E.dfA (ca i j)

/-- The interpolations of an input file whose slope the code has right: `p`, `h`, `m` everywhere, `l` between 0 and 1. -/
def Sloped (ty : Char) (phi : Field2) : Prop := ty ∈ clamped ∧ (ty = 'l' → ∀ i j, 0 < phi i j ∧ phi i j < 1)

/-- At time `t` the fields move as the code says; `f0`, `f1` are the solute fluxes on the faces. -/
def Follows (kind : Kind) (ty : Char) (E : Energies) (eps scale dx dy vmL vmA m : ℝ) (mob f0 f1 : Field2) (phi c : ℝ → Field2)
    (cl ca : Field2) (t : ℝ) : Prop :=
  ∃ v : Field2, (∀ i j, HasDerivAt (fun s => phi s i j) (v i j) t) ∧
    (∀ i j, phaseRate2 kind ty E eps scale dx dy vmL vmA mob (phi t) cl ca i j = some (v i j)) ∧
    ∀ i j, HasDerivAt (fun s => c s i j) (rhs2 dx dy m f0 f1 i j) t

/-- Chemical potential per volume. -/
noncomputable def mu (E : Energies) (vm : ℝ) (cl : Field2) : Field2 := fun i j => invVm vm * E.dfL (cl i j)

/-- Power of the fluxes against the gradient of a potential, per cell. -/
noncomputable def power (dx dy : ℝ) (f0 f1 u : Field2) : Field2 := fun i j =>
  f0 i j * ((u i j - u (i - 1) j) / dx) + f1 i j * ((u i j - u i (j - 1)) / dy)

/-! ## Lemmas -/

theorem fraction (ty : Char) (h : ty ∈ clamped) : ∃ H : ℝ → ℝ, Computes (interpFunc ty) H ∧ ∀ x, 0 ≤ H x ∧ H x ≤ 1 := by
  have hp : ty ∈ proper := by revert h; simp only [clamped, proper, List.mem_cons, List.not_mem_nil, or_false]; tauto
  have : ∀ x, ∃ u, interpFunc ty x = some u ∧ 0 ≤ u ∧ u ≤ 1 := by
    intro x
    obtain ⟨u, hu⟩ := Option.isSome_iff_exists.mp ((c10_supported_kinds ty x).mpr (List.mem_cons_of_mem _ hp))
    refine ⟨u, hu, ?_⟩
    rcases le_total x 0 with h0 | h0
    · have e := Option.some.inj (hu.symm.trans ((c10_clamped_outside ty h x).1 h0)); constructor <;> linarith
    rcases le_total 1 x with h1 | h1
    · have e := Option.some.inj (hu.symm.trans ((c10_clamped_outside ty h x).2 h1)); constructor <;> linarith
    exact c10_range ty hp x u h0 h1 hu
  choose H h1 h2 using this
  exact ⟨H, h1, h2⟩

theorem slope {ty : Char} {phi : Field2} (h : Sloped ty phi) {H : ℝ → ℝ} (hH : Computes (interpFunc ty) H) (i j : ℤ) :
    ∃ d, derivInterpFunc ty (phi i j) = some d ∧ HasDerivAt H d (phi i j) := by
  have : ty ∈ derivGood ∨ (ty = 'l' ∧ 0 < phi i j ∧ phi i j < 1) ∨ (ty = 's' ∧ 0 ≤ phi i j) := by
    have hc := h.1
    simp only [clamped, List.mem_cons, List.not_mem_nil, or_false] at hc
    rcases hc with rfl | rfl | rfl | rfl
    · left; simp [derivGood]
    · left; simp [derivGood]
    · right; left; exact ⟨rfl, h.2 rfl i j⟩
    · left; simp [derivGood]
  obtain ⟨F, d, hF, hd, hh⟩ := c11_first_partial ty (phi i j) this
  have e : F = H := funext fun x => Option.some.inj ((hF x).symm.trans (hH x))
  exact ⟨d, hd, e ▸ hh⟩

theorem energy_some (ty : Char) (E : Energies) (eps scale dx dy vmL vmA w : ℝ) (N M : ℕ) (lo0 lo1 : ℤ) (phi cl ca : Field2)
    {H : ℝ → ℝ} (hH : Computes (interpFunc ty) H) :
    energy ty E eps scale dx dy vmL vmA w lo0 (lo0 + N - 1) lo1 (lo1 + M - 1) phi cl ca =
      some ((∑ b ∈ Finset.range M, ∑ a ∈ Finset.range N, (interfaceCell eps dx dy phi (lo0 + (a : ℤ)) (lo1 + (b : ℤ))
        + (fun (_ _ : ℤ) x => scale * (16 * x * x * (1 - x) * (1 - x))) (lo0 + (a : ℤ)) (lo1 + (b : ℤ))
          (phi (lo0 + (a : ℤ)) (lo1 + (b : ℤ)))) * w)
        + total N M lo0 lo1 fun i j => ((1 - H (phi i j)) * (invVm vmL * E.fL (cl i j)) + H (phi i j) * (invVm vmA * E.fA (ca i j))) * w) := by
  unfold energy energy2 total
  simp only [Option.bind_eq_bind]
  rw [accumulate_some _ _ _ (fun c => rfl),
    accumulate_some (fun c : ℤ × ℤ => wellCell 'd' scale (phi c.1 c.2))
      (fun c => scale * (16 * phi c.1 c.2 * phi c.1 c.2 * (1 - phi c.1 c.2) * (1 - phi c.1 c.2))) _ (fun c => rfl),
    accumulate_some (fun c : ℤ × ℤ => bulkCell ty (fLiquid E vmL (cl c.1 c.2)) (fSolid E vmA (ca c.1 c.2)) (phi c.1 c.2))
      (fun c => (1 - H (phi c.1 c.2)) * (invVm vmL * E.fL (cl c.1 c.2)) + H (phi c.1 c.2) * (invVm vmA * E.fA (ca c.1 c.2))) _
      (fun c => by simp [bulkCell, hH _, fLiquid, fSolid])]
  simp only [Option.bind_some, loop2_sum, ← Finset.sum_add_distrib, Option.some.injEq]
  exact Finset.sum_congr rfl fun b _ => Finset.sum_congr rfl fun a _ => by ring

theorem rate_value (kind : Kind) (ty : Char) (E : Energies) (eps scale dx dy vmL vmA : ℝ) (mob phi cl ca : Field2) (i j : ℤ) (d : ℝ)
    (hd : derivInterpFunc ty (phi i j) = some d) (he : E.dfL (cl i j) = E.dfA (ca i j)) :
    phaseRate2 kind ty E eps scale dx dy vmL vmA mob phi cl ca i j = some (mob i j *
      (div2 dx dy (gradFluxX eps dx phi) (gradFluxY eps dy phi) i j - scale * (32 * phi i j * (1 - phi i j) * (1 - 2 * phi i j))
        + d * (invVm vmL * E.fL (cl i j) - invVm vmA * E.fA (ca i j)
          - E.dfL (cl i j) * (match kind with | .quadratic => invVm vmL | .calphad => invVm vmA) * (cl i j - ca i j)))) := by
  have hpbg : pbgCell 'd' 'd' ty 'c' 'c' scale 0 0 0 false false
      (div2 dx dy (gradFluxX eps dx phi) (gradFluxY eps dy phi) i j) (phi i j) 0 0 0 =
      some (div2 dx dy (gradFluxX eps dx phi) (gradFluxY eps dy phi) i j
        - scale * (32 * phi i j * (1 - phi i j) * (1 - 2 * phi i j))) := by
    simp [pbgCell, derivWellFunc]
  unfold phaseRate2
  rw [hpbg]
  cases kind
  · simp [drive, driveQuadratic, hd, fLiquid, fSolid]
  · simp [drive, driveCalphad, hd, fLiquid, fSolid, he]

theorem split_periodic {ty : Char} {E : Energies} (hE : Convex E) (hc : ty ∈ clamped) {N M : ℕ} {phi c cl ca : Field2}
    (hs : Split ty E phi c cl ca) (hphi : Periodic2 N M phi) (hcc : Periodic2 N M c) : Periodic2 N M cl ∧ Periodic2 N M ca := by
  obtain ⟨H, hH, hb⟩ := fraction ty hc
  have key : ∀ i j i' j', phi i j = phi i' j' → c i j = c i' j' → cl i j = cl i' j' ∧ ca i j = ca i' j' := by
    intro i j i' j' h1 h2
    obtain ⟨h, e1, e2, e3⟩ := hs i j
    obtain ⟨h', e1', e2', e3'⟩ := hs i' j'
    have : h = H (phi i j) := Option.some.inj (e1.symm.trans (hH _))
    subst this
    have : h' = H (phi i j) := Option.some.inj (e1'.symm.trans (by rw [h1]; exact hH _))
    subst this
    exact split_unique hE.mL hE.mA (hb _) (by rw [e2, e2', h2]) e3 e3'
  exact ⟨⟨fun i j => (key _ _ _ _ (hphi.1 i j) (hcc.1 i j)).1, fun i j => (key _ _ _ _ (hphi.2 i j) (hcc.2 i j)).1⟩,
    ⟨fun i j => (key _ _ _ _ (hphi.1 i j) (hcc.1 i j)).2, fun i j => (key _ _ _ _ (hphi.2 i j) (hcc.2 i j)).2⟩⟩

theorem power_parts {N M : ℕ} (lo0 lo1 : ℤ) (dx dy m : ℝ) {f0 f1 u : Field2} (h0 : Periodic2 N M f0) (h1 : Periodic2 N M f1)
    (hu : Periodic2 N M u) : total N M lo0 lo1 (fun i j => u i j * rhs2 dx dy m f0 f1 i j) =
      -(m * total N M lo0 lo1 (power dx dy f0 f1 u)) := by
  have X := partsX lo0 lo1 hu h0
  have Y := partsY lo0 lo1 hu h1
  have e : total N M lo0 lo1 (fun i j => u i j * rhs2 dx dy m f0 f1 i j) =
      m * (1 / dx) * total N M lo0 lo1 (fun i j => u i j * (f0 (i + 1) j - f0 i j))
        + m * (1 / dy) * total N M lo0 lo1 (fun i j => u i j * (f1 i (j + 1) - f1 i j)) := by
    rw [← total_mul, ← total_mul, ← total_add]
    exact total_congr fun i j => by simp only [rhs2]; ring
  rw [e, X, Y, mul_neg, mul_neg, ← neg_add, ← total_mul, ← total_mul, ← total_add, ← total_mul]
  congr 1
  exact total_congr fun i j => by simp only [power]; ring

/-! ## C110 -/

/-- **C110** (the energy is always defined for the interpolations of an input file). -/
theorem c110_defined (ty : Char) (h : ty ∈ clamped) (E : Energies) (eps scale dx dy vmL vmA w : ℝ) (N M : ℕ) (lo0 lo1 : ℤ)
    (phi cl ca : Field2) : ∃ e, energy ty E eps scale dx dy vmL vmA w lo0 (lo0 + N - 1) lo1 (lo1 + M - 1) phi cl ca = some e := by
  obtain ⟨H, hH, _⟩ := fraction ty h
  exact ⟨_, energy_some ty E eps scale dx dy vmL vmA w N M lo0 lo1 phi cl ca hH⟩

/-- **C110** (exact balance), for whatever solute flux: with one molar volume and one interpolation for energy and composition, the
reported energy of a closed sample changes at minus the power dissipated by the moving interface, minus the power of the fluxes
against the gradient of the chemical potential.  Nothing is assumed about how the compositions of the phases move. -/
theorem c110_balance (kind : Kind) (ty : Char) (E : Energies) (hE : Convex E) (N M : ℕ) (lo0 lo1 : ℤ) (eps scale dx dy vm m w : ℝ)
    (mob f0 f1 : Field2) (phi c cl ca : ℝ → Field2) (t : ℝ) (hty : Sloped ty (phi t)) (hs : ∀ s, Split ty E (phi s) (c s) (cl s) (ca s))
    (hphi : ∀ s, Periodic2 N M (phi s)) (hc : ∀ s, Periodic2 N M (c s)) (h0 : Periodic2 N M f0) (h1 : Periodic2 N M f1)
    (h : Follows kind ty E eps scale dx dy vm vm m mob f0 f1 phi c (cl t) (ca t) t) (En : ℝ → ℝ)
    (hEn : ∀ s, energy ty E eps scale dx dy vm vm w lo0 (lo0 + N - 1) lo1 (lo1 + M - 1) (phi s) (cl s) (ca s) = some (En s)) :
    ∃ r : Field2, (∀ i j, phaseRate2 kind ty E eps scale dx dy vm vm (fun _ _ => 1) (phi t) (cl t) (ca t) i j = some (r i j)) ∧
      (∀ i j, phaseRate2 kind ty E eps scale dx dy vm vm mob (phi t) (cl t) (ca t) i j = some (mob i j * r i j)) ∧
      HasDerivAt En (-(w * (total N M lo0 lo1 (fun i j => mob i j * r i j ^ 2)
        + m * total N M lo0 lo1 (power dx dy f0 f1 (mu E vm (cl t)))))) t := by
  obtain ⟨v, hv, hr, hcd⟩ := h
  obtain ⟨H, hH, hb⟩ := fraction ty hty.1
  choose d hd hD using fun i j => slope hty hH i j
  have heq : ∀ s i j, E.dfL (cl s i j) = E.dfA (ca s i j) := fun s i j => by obtain ⟨_, _, _, e⟩ := hs s i j; exact e
  have hmass : ∀ s i j, (1 - H (phi s i j)) * cl s i j + H (phi s i j) * ca s i j = c s i j := fun s i j => by
    obtain ⟨h, e1, e2, _⟩ := hs s i j
    rw [Option.some.inj (e1.symm.trans (hH _))] at e2; exact e2
  set r : Field2 := fun i j => div2 dx dy (gradFluxX eps dx (phi t)) (gradFluxY eps dy (phi t)) i j
    - scale * (32 * phi t i j * (1 - phi t i j) * (1 - 2 * phi t i j))
    + d i j * (invVm vm * E.fL (cl t i j) - invVm vm * E.fA (ca t i j) - E.dfL (cl t i j) * invVm vm * (cl t i j - ca t i j)) with hrdef
  have hrate : ∀ (mb : Field2) i j, phaseRate2 kind ty E eps scale dx dy vm vm mb (phi t) (cl t) (ca t) i j = some (mb i j * r i j) := by
    intro mb i j
    rw [rate_value kind ty E eps scale dx dy vm vm mb (phi t) (cl t) (ca t) i j (d i j) (hd i j) (heq t i j)]
    cases kind <;> rfl
  refine ⟨r, fun i j => by rw [hrate, one_mul], hrate mob, ?_⟩
  have hvr : ∀ i j, v i j = mob i j * r i j := fun i j => Option.some.inj ((hr i j).symm.trans (hrate mob i j))
  have hEn' : En = fun s => _ := funext fun s =>
    Option.some.inj ((hEn s).symm.trans (energy_some ty E eps scale dx dy vm vm w N M lo0 lo1 (phi s) (cl s) (ca s) hH))
  rw [hEn']
  have d1 := energy_deriv2 N M lo0 lo1 eps dx dy w phi v t hphi hv
    (fun _ _ x => scale * (16 * x * x * (1 - x) * (1 - x)))
    (fun i j => scale * (32 * phi t i j * (1 - phi t i j) * (1 - 2 * phi t i j))) (fun i j => well_deriv scale _)
  have d2 : HasDerivAt (fun s => total N M lo0 lo1 fun i j =>
      ((1 - H (phi s i j)) * (invVm vm * E.fL (cl s i j)) + H (phi s i j) * (invVm vm * E.fA (ca s i j))) * w)
      (total N M lo0 lo1 fun i j => (invVm vm * (-(d i j * v i j) * (E.fL (cl t i j) - E.fA (ca t i j)
        - E.dfL (cl t i j) * (cl t i j - ca t i j)) + E.dfL (cl t i j) * rhs2 dx dy m f0 f1 i j)) * w) t := by
    refine total_deriv fun i j => ?_
    have e := envelope (h := fun s => H (phi s i j)) (c := fun s => c s i j) (cl := fun s => cl s i j) (ca := fun s => ca s i j)
      hE.hL hE.hA hE.mL hE.mA hE.kL hE.kA (fun s => hb _) (fun s => hmass s i j) (fun s => heq s i j)
      ((hD i j).comp t (hv i j)) (hcd i j)
    refine ((e.const_mul (invVm vm)).mul_const w).congr_of_eventuallyEq (Filter.Eventually.of_forall fun s => ?_)
    simp only
    ring
  refine (d1.add d2).congr_deriv ?_
  have pmu : Periodic2 N M (mu E vm (cl t)) := by
    have := (split_periodic hE hty.1 (hs t) (hphi t) (hc t)).1
    exact ⟨fun i j => by simp only [mu, this.1], fun i j => by simp only [mu, this.2]⟩
  have pw := power_parts lo0 lo1 dx dy m h0 h1 pmu
  have : ∀ x : ℝ, m * x = -(-(m * x)) := fun x => by ring
  rw [this, ← pw, ← sub_eq_add_neg, mul_sub, ← total_mul, ← total_mul, neg_sub]
  have fold : (∑ b ∈ Finset.range M, ∑ a ∈ Finset.range N,
      (-div2 dx dy (gradFluxX eps dx (phi t)) (gradFluxY eps dy (phi t)) (lo0 + (a : ℤ)) (lo1 + (b : ℤ))
        + (fun i j => scale * (32 * phi t i j * (1 - phi t i j) * (1 - 2 * phi t i j))) (lo0 + (a : ℤ)) (lo1 + (b : ℤ)))
        * v (lo0 + (a : ℤ)) (lo1 + (b : ℤ)) * w) =
      total N M lo0 lo1 (fun i j => (-div2 dx dy (gradFluxX eps dx (phi t)) (gradFluxY eps dy (phi t)) i j
        + scale * (32 * phi t i j * (1 - phi t i j) * (1 - 2 * phi t i j))) * v i j * w) := rfl
  rw [fold, ← total_add, eq_sub_iff_add_eq, ← total_add]
  refine total_congr fun i j => ?_
  simp only [hvr, hrdef, mu]
  ring

/-- What a flux must do for the second law: never run up the gradient of the chemical potential. -/
def Downhill (E : Energies) (cl f0 f1 : Field2) : Prop :=
  ∀ i j, 0 ≤ f0 i j * (E.dfL (cl i j) - E.dfL (cl (i - 1) j)) ∧ 0 ≤ f1 i j * (E.dfL (cl i j) - E.dfL (cl i (j - 1)))

theorem power_nonneg {E : Energies} {vm dx dy : ℝ} (hvm : 0 < vm) (hx : 0 < dx) (hy : 0 < dy) {cl f0 f1 : Field2}
    (h : Downhill E cl f0 f1) (i j : ℤ) : 0 ≤ power dx dy f0 f1 (mu E vm cl) i j := by
  have k : 0 < invVm vm := by unfold invVm; positivity
  have e : power dx dy f0 f1 (mu E vm cl) i j = invVm vm * (f0 i j * (E.dfL (cl i j) - E.dfL (cl (i - 1) j)) / dx
      + f1 i j * (E.dfL (cl i j) - E.dfL (cl i (j - 1))) / dy) := by
    simp only [power, mu]; ring
  rw [e]
  exact mul_nonneg k.le (add_nonneg (div_nonneg (h i j).1 hx.le) (div_nonneg (h i j).2 hy.le))

/-- **C110**: with a flux that never runs up the chemical potential the energy does not increase.  Missing from the full claim: two
molar volumes (`c110_violation_volumes`), two interpolations (`c110_violation_interpolations`), and fluxes that do run uphill (`c110_violation_kks`). -/
theorem c110_decay_partial (kind : Kind) (ty : Char) (E : Energies) (hE : Convex E) (N M : ℕ) (lo0 lo1 : ℤ) (eps scale dx dy vm m w : ℝ)
    (hvm : 0 < vm) (hx : 0 < dx) (hy : 0 < dy) (hm : 0 ≤ m) (hw : 0 ≤ w)
    (mob f0 f1 : Field2) (phi c cl ca : ℝ → Field2) (t : ℝ) (hmob : ∀ i j, 0 ≤ mob i j) (hty : Sloped ty (phi t))
    (hs : ∀ s, Split ty E (phi s) (c s) (cl s) (ca s))
    (hphi : ∀ s, Periodic2 N M (phi s)) (hc : ∀ s, Periodic2 N M (c s)) (h0 : Periodic2 N M f0) (h1 : Periodic2 N M f1)
    (hdown : Downhill E (cl t) f0 f1)
    (h : Follows kind ty E eps scale dx dy vm vm m mob f0 f1 phi c (cl t) (ca t) t) (En : ℝ → ℝ)
    (hEn : ∀ s, energy ty E eps scale dx dy vm vm w lo0 (lo0 + N - 1) lo1 (lo1 + M - 1) (phi s) (cl s) (ca s) = some (En s)) :
    ∃ e ≤ 0, HasDerivAt En e t := by
  obtain ⟨r, _, _, hd⟩ := c110_balance kind ty E hE N M lo0 lo1 eps scale dx dy vm m w mob f0 f1 phi c cl ca t hty hs hphi hc h0 h1 h En hEn
  refine ⟨_, neg_nonpos.2 (mul_nonneg hw (add_nonneg ?_ (mul_nonneg hm ?_))), hd⟩
  · exact total_nonneg fun i j => mul_nonneg (hmob i j) (sq_nonneg _)
  · exact total_nonneg fun i j => power_nonneg hvm hx hy hdown i j

/-! ### Fluxes of the code -/

theorem ebsX_value (dx : ℝ) (dl da cl ca : Field2) (i j : ℤ) : ebsX dx dl da cl ca i j =
    1 / dx * (dl i j * (cl i j - cl (i - 1) j) + da i j * (ca i j - ca (i - 1) j)) := by
  simp [ebsX, addFluxX]; ring

theorem ebsY_value (dy : ℝ) (dl da cl ca : Field2) (i j : ℤ) : ebsY dy dl da cl ca i j =
    1 / dy * (dl i j * (cl i j - cl i (j - 1)) + da i j * (ca i j - ca i (j - 1))) := by
  simp [ebsY, addFluxY]; ring

theorem same_sign {f : ℝ → ℝ} (hf : StrictMono f) (x y : ℝ) : 0 ≤ (x - y) * (f x - f y) := by
  rcases le_total x y with h | h
  · nlinarith [hf.monotone h]
  · exact mul_nonneg (sub_nonneg.2 h) (sub_nonneg.2 (hf.monotone h))

/-- A mixture of the two differences with non-negative weights runs downhill. -/
theorem mixture_down {E : Energies} (hE : Convex E) {k p q x y x' y' : ℝ} (hk : 0 ≤ k) (hp : 0 ≤ p) (hq : 0 ≤ q) (e : E.dfL x = E.dfA y)
    (e' : E.dfL x' = E.dfA y') : 0 ≤ k * (p * (x - x') + q * (y - y')) * (E.dfL x - E.dfL x') := by
  have a := mul_nonneg hp (same_sign hE.mL x x')
  have b := mul_nonneg hq (same_sign hE.mA y y')
  rw [← e, ← e'] at b
  have := mul_nonneg hk (add_nonneg a b)
  nlinarith

/-- **C110**: the flux as a sum over the phases never runs up the chemical potential, whatever the non-negative coefficients. -/
theorem c110_ebs_downhill (ty : Char) (E : Energies) (hE : Convex E) (dx dy : ℝ) (hx : 0 < dx) (hy : 0 < dy)
    (phi c cl ca dl0 da0 dl1 da1 : Field2) (hs : Split ty E phi c cl ca)
    (h : ∀ i j, 0 ≤ dl0 i j ∧ 0 ≤ da0 i j ∧ 0 ≤ dl1 i j ∧ 0 ≤ da1 i j) :
    Downhill E cl (ebsX dx dl0 da0 cl ca) (ebsY dy dl1 da1 cl ca) := by
  have heq : ∀ i j, E.dfL (cl i j) = E.dfA (ca i j) := fun i j => by obtain ⟨_, _, _, e⟩ := hs i j; exact e
  intro i j
  rw [ebsX_value, ebsY_value]
  exact ⟨mixture_down hE (by positivity) (h i j).1 (h i j).2.1 (heq _ _) (heq _ _),
    mixture_down hE (by positivity) (h i j).2.2.1 (h i j).2.2.2 (heq _ _) (heq _ _)⟩

/-- **C110**: neither does the flux in phase-gradient form with linear interpolation. -/
theorem c110_kks_downhill_partial (E : Energies) (hE : Convex E) (at_ : Char) (hat : at_ = 'a' ∨ at_ = 'h') (R : ℝ) (l s : Arrhenius)
    (hl : 0 ≤ l.d0) (hsd : 0 ≤ s.d0) (dx dy : ℝ) (hx : 0 < dx) (hy : 0 < dy) (temp phi c cl ca f0 f1 : Field2)
    (hu : Coupling.Props.Unit phi) (hs : Split 'l' E phi c cl ca)
    (h0 : ∀ i j, kksFluxX 'l' at_ R l s dx temp phi cl ca c i j = some (f0 i j))
    (h1 : ∀ i j, kksFluxY 'l' at_ R l s dy temp phi cl ca c i j = some (f1 i j)) : Downhill E cl f0 f1 := by
  have heq : ∀ i j, E.dfL (cl i j) = E.dfA (ca i j) := fun i j => by obtain ⟨_, _, _, e⟩ := hs i j; exact e
  have hm : Coupling.Props.Mixture (interpFunc 'l') phi cl ca c := fun i j => by
    obtain ⟨h, e1, e2, _⟩ := hs i j; exact ⟨h, e1, e2.symm⟩
  have hr : ∀ (m : Arrhenius) (p : Pair), 0 ≤ m.d0 → 0 ≤ rate R m p := fun m p hp => by unfold rate; positivity
  intro i j
  obtain ⟨⟨w, w0, w1, e0⟩, ⟨z, z0, z1, e1⟩⟩ := Coupling.Props.c96_kks_linear at_ hat R l s dx dy temp phi cl ca c hu hm i j
  rw [← Option.some.inj (e0.symm.trans (h0 i j)), ← Option.some.inj (e1.symm.trans (h1 i j))]
  have hd : ∀ (x : ℝ) (p : Pair), 0 ≤ x → x ≤ 1 → 0 ≤ (1 - x) * rate R l p + x * rate R s p := fun x p a b =>
    add_nonneg (mul_nonneg (by linarith) (hr l p hl)) (mul_nonneg a (hr s p hsd))
  constructor
  · refine mixture_down hE (mul_nonneg (by positivity) (hd w _ w0 w1)) ?_ ?_ (heq _ _) (heq _ _)
    · linarith [(hu (i - 1) j).2, (hu i j).2]
    · linarith [(hu (i - 1) j).1, (hu i j).1]
  · refine mixture_down hE (mul_nonneg (by positivity) (hd z _ z0 z1)) ?_ ?_ (heq _ _) (heq _ _)
    · linarith [(hu i (j - 1)).2, (hu i j).2]
    · linarith [(hu i (j - 1)).1, (hu i j).1]

/-- The coefficients of the sum over the phases, as the code computes them for the state: `TbasedCompositionDiffusionStrategy`. -/
def Coeffs (it at_ : Char) (R : ℝ) (l s : Arrhenius) (T : ℝ) (phi dl0 da0 dl1 da1 : Field2) : Prop :=
  (∀ i j, twoPhaseX it at_ R l s phi (fun _ _ => T) i j = some (dl0 i j, da0 i j)) ∧
    ∀ i j, twoPhaseY it at_ R l s phi (fun _ _ => T) i j = some (dl1 i j, da1 i j)

theorem coeffs_nonneg {it at_ : Char} (hit : it ∈ proper) (hat : at_ = 'a' ∨ at_ = 'h') {R : ℝ} {l s : Arrhenius} (hl : 0 ≤ l.d0)
    (hs : 0 ≤ s.d0) {T : ℝ} {phi dl0 da0 dl1 da1 : Field2} (hu : Coupling.Props.Unit phi)
    (h : Coeffs it at_ R l s T phi dl0 da0 dl1 da1) (i j : ℤ) : 0 ≤ dl0 i j ∧ 0 ≤ da0 i j ∧ 0 ≤ dl1 i j ∧ 0 ≤ da1 i j := by
  obtain ⟨a, b, e, a0, b0, _⟩ := c60_between it at_ hit hat R l s hl hs (X phi i j) (X (fun _ _ => T) i j) ⟨hu _ _, hu _ _⟩
  obtain ⟨a', b', e', a0', b0', _⟩ := c60_between it at_ hit hat R l s hl hs (Y phi i j) (Y (fun _ _ => T) i j) ⟨hu _ _, hu _ _⟩
  have h1 := Option.some.inj (e.symm.trans (h.1 i j))
  have h2 := Option.some.inj (e'.symm.trans (h.2 i j))
  rw [Prod.mk.injEq] at h1 h2
  rw [← h1.1, ← h1.2, ← h2.1, ← h2.2]
  exact ⟨a0, b0, a0', b0'⟩

theorem coeffs_periodic {it at_ : Char} {R : ℝ} {l s : Arrhenius} {T : ℝ} {N M : ℕ} {phi dl0 da0 dl1 da1 : Field2}
    (hp : Periodic2 N M phi) (h : Coeffs it at_ R l s T phi dl0 da0 dl1 da1) :
    Periodic2 N M dl0 ∧ Periodic2 N M da0 ∧ Periodic2 N M dl1 ∧ Periodic2 N M da1 := by
  have x0 : ∀ i j, X phi (i + N) j = X phi i j := fun i j => by
    simp only [X]; rw [hp.1, show i + (N : ℤ) - 1 = i - 1 + N by ring, hp.1]
  have x1 : ∀ i j, X phi i (j + M) = X phi i j := fun i j => by simp only [X]; rw [hp.2, hp.2]
  have y0 : ∀ i j, Y phi (i + N) j = Y phi i j := fun i j => by simp only [Y]; rw [hp.1, hp.1]
  have y1 : ∀ i j, Y phi i (j + M) = Y phi i j := fun i j => by
    simp only [Y]; rw [hp.2, show j + (M : ℤ) - 1 = j - 1 + M by ring, hp.2]
  have a : ∀ i j i' j', X phi i j = X phi i' j' → dl0 i j = dl0 i' j' ∧ da0 i j = da0 i' j' := by
    intro i j i' j' e
    have h1 := h.1 i j
    have h2 := h.1 i' j'
    unfold twoPhaseX at h1 h2
    rw [e] at h1
    exact Prod.mk.injEq _ _ _ _ ▸ Option.some.inj (h1.symm.trans h2)
  have b : ∀ i j i' j', Y phi i j = Y phi i' j' → dl1 i j = dl1 i' j' ∧ da1 i j = da1 i' j' := by
    intro i j i' j' e
    have h1 := h.2 i j
    have h2 := h.2 i' j'
    unfold twoPhaseY at h1 h2
    rw [e] at h1
    exact Prod.mk.injEq _ _ _ _ ▸ Option.some.inj (h1.symm.trans h2)
  exact ⟨⟨fun i j => (a _ _ _ _ (x0 i j)).1, fun i j => (a _ _ _ _ (x1 i j)).1⟩,
    ⟨fun i j => (a _ _ _ _ (x0 i j)).2, fun i j => (a _ _ _ _ (x1 i j)).2⟩,
    ⟨fun i j => (b _ _ _ _ (y0 i j)).1, fun i j => (b _ _ _ _ (y1 i j)).1⟩,
    ⟨fun i j => (b _ _ _ _ (y0 i j)).2, fun i j => (b _ _ _ _ (y1 i j)).2⟩⟩

theorem ebs_periodic {N M : ℕ} (dx dy : ℝ) {dl0 da0 dl1 da1 cl ca : Field2} (h0 : Periodic2 N M dl0) (h1 : Periodic2 N M da0)
    (h2 : Periodic2 N M dl1) (h3 : Periodic2 N M da1) (hl : Periodic2 N M cl) (ha : Periodic2 N M ca) :
    Periodic2 N M (ebsX dx dl0 da0 cl ca) ∧ Periodic2 N M (ebsY dy dl1 da1 cl ca) := by
  refine ⟨⟨fun i j => ?_, fun i j => ?_⟩, fun i j => ?_, fun i j => ?_⟩ <;> simp only [ebsX_value, ebsY_value]
  · rw [h0.1, h1.1, hl.1, ha.1, show i + (N : ℤ) - 1 = i - 1 + N by ring, hl.1, ha.1]
  · rw [h0.2, h1.2, hl.2, ha.2, hl.2, ha.2]
  · rw [h2.1, h3.1, hl.1, ha.1, hl.1, ha.1]
  · rw [h2.2, h3.2, hl.2, ha.2, show j + (M : ℤ) - 1 = j - 1 + M by ring, hl.2, ha.2]

/-- A run with the flux as a sum over the phases, the coefficients computed from the state (`rhs_form = "ebs"` with temperature
dependent coefficients, regular stencil): at all times the split, the coefficients and the rates are those of the code. -/
structure Run (kind : Kind) (ty it at_ : Char) (E : Energies) (eps scale dx dy vm m R T : ℝ) (l s : Arrhenius) (N M : ℕ)
    (mob phi c cl ca : ℝ → Field2) : Prop where
  perPhi : ∀ t, Periodic2 N M (phi t)
  perC : ∀ t, Periodic2 N M (c t)
  sloped : ∀ t, Sloped ty (phi t)
  unit : ∀ t, Coupling.Props.Unit (phi t)
  split : ∀ t, Split ty E (phi t) (c t) (cl t) (ca t)
  moves : ∀ t, ∃ dl0 da0 dl1 da1, Coeffs it at_ R l s T (phi t) dl0 da0 dl1 da1 ∧
    Follows kind ty E eps scale dx dy vm vm m (mob t) (ebsX dx dl0 da0 (cl t) (ca t)) (ebsY dy dl1 da1 (cl t) (ca t)) phi c (cl t) (ca t) t

/-- Inputs with their physical signs. -/
structure Physical (it at_ : Char) (dx dy vm m : ℝ) (l s : Arrhenius) (mob : ℝ → Field2) : Prop where
  it : it ∈ proper
  at_ : at_ = 'a' ∨ at_ = 'h'
  dx : 0 < dx
  dy : 0 < dy
  vm : 0 < vm
  m : 0 ≤ m
  l : 0 ≤ l.d0
  s : 0 ≤ s.d0
  mob : ∀ t i j, 0 ≤ mob t i j

/-- **C110** (second law): the energy reported along a run of an isothermal alloy with one molar volume and one interpolation, the
solute flux summed over the phases, never increases. -/
theorem c110_monotone_partial (kind : Kind) (ty it at_ : Char) (E : Energies) (hE : Convex E) (eps scale dx dy vm m R T w : ℝ)
    (l s : Arrhenius) (N M : ℕ) (lo0 lo1 : ℤ) (mob phi c cl ca : ℝ → Field2) (hp : Physical it at_ dx dy vm m l s mob) (hw : 0 ≤ w)
    (h : Run kind ty it at_ E eps scale dx dy vm m R T l s N M mob phi c cl ca) (En : ℝ → ℝ)
    (hEn : ∀ t, energy ty E eps scale dx dy vm vm w lo0 (lo0 + N - 1) lo1 (lo1 + M - 1) (phi t) (cl t) (ca t) = some (En t)) :
    Antitone En := by
  have key : ∀ t, ∃ e ≤ 0, HasDerivAt En e t := by
    intro t
    obtain ⟨dl0, da0, dl1, da1, hco, hf⟩ := h.moves t
    obtain ⟨p0, p1, p2, p3⟩ := coeffs_periodic (h.perPhi t) hco
    obtain ⟨pl, pa⟩ := split_periodic hE (h.sloped t).1 (h.split t) (h.perPhi t) (h.perC t)
    obtain ⟨q0, q1⟩ := ebs_periodic dx dy p0 p1 p2 p3 pl pa
    exact c110_decay_partial kind ty E hE N M lo0 lo1 eps scale dx dy vm m w hp.vm hp.dx hp.dy hp.m hw (mob t) _ _ phi c cl ca t (hp.mob t)
      (h.sloped t) h.split h.perPhi h.perC q0 q1
      (c110_ebs_downhill ty E hE dx dy hp.dx hp.dy (phi t) (c t) (cl t) (ca t) dl0 da0 dl1 da1 (h.split t)
        (coeffs_nonneg hp.it hp.at_ hp.l hp.s (h.unit t) hco)) hf En hEn
  choose e he0 he using key
  exact antitone_of_deriv_nonpos (fun t => (he t).differentiableAt) fun t => by rw [(he t).deriv]; exact he0 t

/-- **C110** (only rest does not dissipate): if with positive coefficients and mobilities the energy is stationary at some moment,
then no cell changes phase, the compositions of both phases are uniform and no cell changes composition. -/
theorem c110_rest_partial (kind : Kind) (ty it at_ : Char) (E : Energies) (hE : Convex E) (eps scale dx dy vm m R T w : ℝ)
    (l s : Arrhenius) (N M : ℕ) (hN : 0 < N) (hM : 0 < M) (lo0 lo1 : ℤ) (mob phi c cl ca : ℝ → Field2)
    (hp : Physical it at_ dx dy vm m l s mob) (hw : 0 < w) (hm : 0 < m) (hl : 0 < l.d0) (hsd : 0 < s.d0) (hmob : ∀ t i j, 0 < mob t i j)
    (hmp : ∀ t, Periodic2 N M (mob t))
    (h : Run kind ty it at_ E eps scale dx dy vm m R T l s N M mob phi c cl ca) (En : ℝ → ℝ)
    (hEn : ∀ t, energy ty E eps scale dx dy vm vm w lo0 (lo0 + N - 1) lo1 (lo1 + M - 1) (phi t) (cl t) (ca t) = some (En t)) (t : ℝ)
    (h0 : HasDerivAt En 0 t) :
    (∀ i j, HasDerivAt (fun t => phi t i j) 0 t) ∧ (∀ i j, HasDerivAt (fun t => c t i j) 0 t) ∧
      ∀ i j, cl t i j = cl t 0 0 ∧ ca t i j = ca t 0 0 := by
  obtain ⟨dl0, da0, dl1, da1, hco, hf⟩ := h.moves t
  obtain ⟨p0, p1, p2, p3⟩ := coeffs_periodic (h.perPhi t) hco
  obtain ⟨pl, pa⟩ := split_periodic hE (h.sloped t).1 (h.split t) (h.perPhi t) (h.perC t)
  obtain ⟨q0, q1⟩ := ebs_periodic dx dy p0 p1 p2 p3 pl pa
  have heq : ∀ i j, E.dfL (cl t i j) = E.dfA (ca t i j) := fun i j => by obtain ⟨_, _, _, e⟩ := h.split t i j; exact e
  have hdown := c110_ebs_downhill ty E hE dx dy hp.dx hp.dy (phi t) (c t) (cl t) (ca t) dl0 da0 dl1 da1 (h.split t)
        (coeffs_nonneg hp.it hp.at_ hp.l hp.s (h.unit t) hco)
  obtain ⟨r, hr1, hr2, hd⟩ := c110_balance kind ty E hE N M lo0 lo1 eps scale dx dy vm m w (mob t) _ _ phi c cl ca t (h.sloped t)
    h.split h.perPhi h.perC q0 q1 hf En hEn
  obtain ⟨v, hv, hr, hcd⟩ := hf
  have e := (hd.unique h0)
  have n1 : 0 ≤ total N M lo0 lo1 (fun i j => mob t i j * r i j ^ 2) := total_nonneg fun i j => mul_nonneg (hmob t i j).le (sq_nonneg _)
  have n2 : 0 ≤ total N M lo0 lo1 (power dx dy (ebsX dx dl0 da0 (cl t) (ca t)) (ebsY dy dl1 da1 (cl t) (ca t)) (mu E vm (cl t))) :=
    total_nonneg fun i j => power_nonneg hp.vm hp.dx hp.dy hdown i j
  have e' := (mul_eq_zero.1 (neg_eq_zero.1 e)).resolve_left hw.ne'
  have n3 := mul_nonneg hm.le n2
  have z1 : total N M lo0 lo1 (fun i j => mob t i j * r i j ^ 2) = 0 := by linarith
  have z2 := (mul_eq_zero.1 (show m * total N M lo0 lo1 (power dx dy (ebsX dx dl0 da0 (cl t) (ca t)) (ebsY dy dl1 da1 (cl t) (ca t))
    (mu E vm (cl t))) = 0 by linarith)).resolve_left hm.ne'
  have hvr : ∀ i j, v i j = mob t i j * r i j := fun i j => Option.some.inj ((hr i j).symm.trans (hr2 i j))
  have vp := Periodic2.deriv h.perPhi hv
  have sq : ∀ i j, mob t i j * r i j ^ 2 = v i j ^ 2 / mob t i j := fun i j => by
    rw [hvr]; have := (hmob t i j).ne'; field_simp
  have z1' := MeltFlow.S2_zero (f := fun i j => v i j ^ 2 / mob t i j) (lo0 := lo0) (lo1 := lo1) hN hM
    ⟨fun i j => by beta_reduce; rw [vp.1, (hmp t).1], fun i j => by beta_reduce; rw [vp.2, (hmp t).2]⟩
    (fun i j => div_nonneg (sq_nonneg _) (hmob t i j).le) ((total_congr sq).symm.trans z1)
  have v0 : ∀ i j, v i j = 0 := fun i j => by
    have := z1' i j
    simpa [div_eq_zero_iff, (hmob t i j).ne'] using this
  have pmu : Periodic2 N M (mu E vm (cl t)) := ⟨fun i j => by simp only [mu, pl.1], fun i j => by simp only [mu, pl.2]⟩
  have pp : Periodic2 N M (power dx dy (ebsX dx dl0 da0 (cl t) (ca t)) (ebsY dy dl1 da1 (cl t) (ca t)) (mu E vm (cl t))) := by
    refine ⟨fun i j => ?_, fun i j => ?_⟩ <;> simp only [power]
    · rw [q0.1, q1.1, pmu.1, pmu.1, show i + (N : ℤ) - 1 = i - 1 + N by ring, pmu.1]
    · rw [q0.2, q1.2, pmu.2, pmu.2, show j + (M : ℤ) - 1 = j - 1 + M by ring, pmu.2]
  have z2' := MeltFlow.S2_zero (lo0 := lo0) (lo1 := lo1) hN hM pp (fun i j => power_nonneg hp.vm hp.dx hp.dy hdown i j) z2
  have k : 0 < invVm vm := by unfold invVm; have := hp.vm; positivity
  have face : ∀ {d0 p q x y x' y' : ℝ}, 0 < d0 → 0 ≤ p → 0 ≤ q → (0 < p ∨ 0 < q) → E.dfL x = E.dfA y → E.dfL x' = E.dfA y' →
      1 / d0 * (p * (x - x') + q * (y - y')) * (E.dfL x - E.dfL x') = 0 → x = x' := by
    intro d0 p q x y x' y' hd0 hp0 hq0 hpq e1 e2 hz
    have a := same_sign hE.mL x x'
    have b := same_sign hE.mA y y'
    rw [← e1, ← e2] at b
    have hz' : p * ((x - x') * (E.dfL x - E.dfL x')) + q * ((y - y') * (E.dfL x - E.dfL x')) = 0 := by
      have : 1 / d0 ≠ 0 := by positivity
      have hz2 : 1 / d0 * (p * ((x - x') * (E.dfL x - E.dfL x')) + q * ((y - y') * (E.dfL x - E.dfL x'))) = 0 := by
        rw [← hz]; ring
      exact (mul_eq_zero.1 hz2).resolve_left this
    have a1 := mul_nonneg hp0 a
    have b1 := mul_nonneg hq0 b
    rcases hpq with hpp | hqq
    · have : (x - x') * (E.dfL x - E.dfL x') = 0 := by
        have : p * ((x - x') * (E.dfL x - E.dfL x')) = 0 := by linarith
        exact (mul_eq_zero.1 this).resolve_left hpp.ne'
      rcases mul_eq_zero.1 this with g | g
      · linarith
      · exact hE.mL.injective (by linarith)
    · have : (y - y') * (E.dfL x - E.dfL x') = 0 := by
        have : q * ((y - y') * (E.dfL x - E.dfL x')) = 0 := by linarith
        exact (mul_eq_zero.1 this).resolve_left hqq.ne'
      rcases mul_eq_zero.1 this with g | g
      · refine hE.mL.injective ?_
        rw [e1, e2, show y = y' by linarith]
      · exact hE.mL.injective (by linarith)
  have nn := coeffs_nonneg hp.it hp.at_ hp.l hp.s (h.unit t) hco
  have posX : ∀ i j, 0 < dl0 i j ∨ 0 < da0 i j := fun i j => by
    obtain ⟨a, b, e, a0, b0, lo, _⟩ := c60_between it at_ hp.it hp.at_ R l s hp.l hp.s (X (phi t) i j) (X (fun _ _ => T) i j)
      ⟨h.unit t _ _, h.unit t _ _⟩
    have e2 := Option.some.inj (e.symm.trans (hco.1 i j))
    rw [Prod.mk.injEq] at e2
    rw [← e2.1, ← e2.2]
    have : 0 < min (rate R l (X (fun _ _ => T) i j)) (rate R s (X (fun _ _ => T) i j)) := by
      refine lt_min ?_ ?_ <;> unfold rate <;> positivity
    by_contra hcon
    push Not at hcon
    linarith [hcon.1, hcon.2]
  have posY : ∀ i j, 0 < dl1 i j ∨ 0 < da1 i j := fun i j => by
    obtain ⟨a, b, e, a0, b0, lo, _⟩ := c60_between it at_ hp.it hp.at_ R l s hp.l hp.s (Y (phi t) i j) (Y (fun _ _ => T) i j)
      ⟨h.unit t _ _, h.unit t _ _⟩
    have e2 := Option.some.inj (e.symm.trans (hco.2 i j))
    rw [Prod.mk.injEq] at e2
    rw [← e2.1, ← e2.2]
    have : 0 < min (rate R l (Y (fun _ _ => T) i j)) (rate R s (Y (fun _ _ => T) i j)) := by
      refine lt_min ?_ ?_ <;> unfold rate <;> positivity
    by_contra hcon
    push Not at hcon
    linarith [hcon.1, hcon.2]
  have both : ∀ i j, cl t i j = cl t (i - 1) j ∧ cl t i j = cl t i (j - 1) := by
    intro i j
    have hz := z2' i j
    have hpw : power dx dy (ebsX dx dl0 da0 (cl t) (ca t)) (ebsY dy dl1 da1 (cl t) (ca t)) (mu E vm (cl t)) i j =
        invVm vm * (ebsX dx dl0 da0 (cl t) (ca t) i j * (E.dfL (cl t i j) - E.dfL (cl t (i - 1) j)) / dx
          + ebsY dy dl1 da1 (cl t) (ca t) i j * (E.dfL (cl t i j) - E.dfL (cl t i (j - 1))) / dy) := by
      simp only [power, mu]; ring
    rw [hpw] at hz
    have hz' := (mul_eq_zero.1 hz).resolve_left k.ne'
    have a := div_nonneg (hdown i j).1 hp.dx.le
    have b := div_nonneg (hdown i j).2 hp.dy.le
    have a0 := (div_eq_zero_iff.1 (show ebsX dx dl0 da0 (cl t) (ca t) i j * (E.dfL (cl t i j) - E.dfL (cl t (i - 1) j)) / dx = 0 by
      linarith)).resolve_right hp.dx.ne'
    have b0 := (div_eq_zero_iff.1 (show ebsY dy dl1 da1 (cl t) (ca t) i j * (E.dfL (cl t i j) - E.dfL (cl t i (j - 1))) / dy = 0 by
      linarith)).resolve_right hp.dy.ne'
    rw [ebsX_value] at a0
    rw [ebsY_value] at b0
    exact ⟨face hp.dx (nn i j).1 (nn i j).2.1 (posX i j) (heq _ _) (heq _ _) a0,
      face hp.dy (nn i j).2.2.1 (nn i j).2.2.2 (posY i j) (heq _ _) (heq _ _) b0⟩
  have row : ∀ i j, cl t i j = cl t 0 j := fun i j => by
    induction i using Int.induction_on with
    | zero => rfl
    | succ n ih => rw [(both _ j).1, add_sub_cancel_right]; exact ih
    | pred n ih => rw [← (both (-(n : ℤ)) j).1]; exact ih
  have col : ∀ j, cl t 0 j = cl t 0 0 := fun j => by
    induction j using Int.induction_on with
    | zero => rfl
    | succ n ih => rw [(both 0 _).2, add_sub_cancel_right]; exact ih
    | pred n ih => rw [← (both 0 (-(n : ℤ))).2]; exact ih
  have cl0 : ∀ i j, cl t i j = cl t 0 0 := fun i j => (row i j).trans (col j)
  have ca0 : ∀ i j, ca t i j = ca t 0 0 := fun i j => hE.mA.injective (by rw [← heq, ← heq, cl0 i j])
  refine ⟨fun i j => by rw [← v0 i j]; exact hv i j, fun i j => ?_, fun i j => ⟨cl0 i j, ca0 i j⟩⟩
  refine (hcd i j).congr_deriv ?_
  simp only [rhs2, ebsX_value, ebsY_value]
  rw [cl0 (i + 1) j, cl0 i j, cl0 (i - 1) j, cl0 (i + 1 - 1) j, cl0 i (j + 1), cl0 i (j - 1), cl0 i (j + 1 - 1),
    ca0 (i + 1) j, ca0 i j, ca0 (i - 1) j, ca0 (i + 1 - 1) j, ca0 i (j + 1), ca0 i (j - 1), ca0 i (j + 1 - 1)]
  ring

/-- **C110** (no cycles): a run cannot come back to an energy it had before unless nothing happened in between. -/
theorem c110_no_cycle_partial (kind : Kind) (ty it at_ : Char) (E : Energies) (hE : Convex E) (eps scale dx dy vm m R T w : ℝ)
    (l s : Arrhenius) (N M : ℕ) (hN : 0 < N) (hM : 0 < M) (lo0 lo1 : ℤ) (mob phi c cl ca : ℝ → Field2)
    (hp : Physical it at_ dx dy vm m l s mob) (hw : 0 < w) (hm : 0 < m) (hl : 0 < l.d0) (hsd : 0 < s.d0) (hmob : ∀ t i j, 0 < mob t i j)
    (hmp : ∀ t, Periodic2 N M (mob t))
    (h : Run kind ty it at_ E eps scale dx dy vm m R T l s N M mob phi c cl ca) (En : ℝ → ℝ)
    (hEn : ∀ t, energy ty E eps scale dx dy vm vm w lo0 (lo0 + N - 1) lo1 (lo1 + M - 1) (phi t) (cl t) (ca t) = some (En t)) (a b : ℝ)
    (hab : En b = En a) (t : ℝ) (ht : a < t ∧ t < b) :
    (∀ i j, HasDerivAt (fun t => phi t i j) 0 t) ∧ ∀ i j, HasDerivAt (fun t => c t i j) 0 t := by
  have mono := c110_monotone_partial kind ty it at_ E hE eps scale dx dy vm m R T w l s N M lo0 lo1 mob phi c cl ca hp hw.le h En hEn
  have hconst : ∀ᶠ u in nhds t, En u = En a := by
    filter_upwards [Ioo_mem_nhds ht.1 ht.2] with u hu
    exact le_antisymm (mono hu.1.le) (hab ▸ mono hu.2.le)
  have hd : HasDerivAt En 0 t := (hasDerivAt_const t (En a)).congr_of_eventuallyEq hconst
  obtain ⟨h1, h2, _⟩ := c110_rest_partial kind ty it at_ E hE eps scale dx dy vm m R T w l s N M hN hM lo0 lo1 mob phi c cl ca hp hw hm hl
    hsd hmob hmp h En hEn t hd
  exact ⟨h1, h2⟩

end AMPE.AlloyFlow.Props
