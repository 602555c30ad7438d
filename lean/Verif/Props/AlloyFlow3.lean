import Verif.Model.AlloyFlow3
import Verif.Props.AlloyFlow
import Verif.Props.QuatFlow3

/-!
# C119: the second law for an isothermal alloy in three dimensions
-/

namespace AMPE.AlloyFlow3.Props

open AMPE.Functions AMPE.Functions.Props AMPE.Flux AMPE.PhaseRHS AMPE.PhaseRHS.Props AMPE.Alloy AMPE.DiffCoeff AMPE.DiffCoeff.Props
  AMPE.Coupling AMPE.AlloyFlow AMPE.AlloyFlow3
open AMPE.AlloyFlow.Props (Convex fraction same_sign mixture_down)
open AMPE.QuatFlow3 (Cell mv)
open AMPE.QuatFlow3.Props (Per3 Per3.mv cellSum3 cellSum3_shift cellSum3_add cellSum3_dir cellSum3_congr cellSum3_neg mv_comm mv_down_up mv_up_down
  mv_add mv_zero)

/-! ## Specification -/

/-- What the library returns for the compositions of the phases: mixture with the fraction of type `tc`, equal potentials. -/
def Split (tc : Char) (E : Energies) (phi c cl ca : Cell → ℝ) : Prop :=
  ∀ p, ∃ h, interpFunc tc (phi p) = some h ∧ (1 - h) * cl p + h * ca p = c p ∧ E.dfL (cl p) = E.dfA (ca p)

/-- The interpolations of an input file whose slope the code has right: `p`, `h`, `m` everywhere, `l` between 0 and 1. -/
def Sloped (ty : Char) (phi : Cell → ℝ) : Prop := ty ∈ clamped ∧ (ty = 'l' → ∀ p, 0 < phi p ∧ phi p < 1)

/-- The phase is between 0 (liquid) and 1 (solid). -/
def Unit (phi : Cell → ℝ) : Prop := ∀ p, 0 ≤ phi p ∧ phi p ≤ 1

/-- At time `t` the fields move as the code says; `f` are the solute fluxes on the sides. -/
def Follows (kind : Kind) (ty : Char) (E : Energies) (eps scale : ℝ) (h : Fin 3 → ℝ) (vmL vmA m : ℝ) (mob : Cell → ℝ)
    (f : Fin 3 → Cell → ℝ) (phi c : ℝ → Cell → ℝ) (cl ca : Cell → ℝ) (t : ℝ) : Prop :=
  ∃ v : Cell → ℝ, (∀ p, HasDerivAt (fun s => phi s p) (v p) t) ∧
    (∀ p, phaseRate kind ty E eps scale h vmL vmA mob (phi t) cl ca p = some (v p)) ∧
    ∀ p, HasDerivAt (fun s => c s p) (soluteRate h m f p) t

/-- Chemical potential per volume. -/
noncomputable def mu (E : Energies) (vm : ℝ) (cl : Cell → ℝ) : Cell → ℝ := fun p => invVm vm * E.dfL (cl p)

/-- Power of the fluxes against the gradient of a potential, per cell. -/
noncomputable def power (h : Fin 3 → ℝ) (f : Fin 3 → Cell → ℝ) (u : Cell → ℝ) : Cell → ℝ := fun p =>
  ∑ d, f d p * ((u p - u (mv d (-1) p)) / h d)

/-- What a flux must do for the second law: never run up the gradient of the chemical potential. -/
def Downhill (E : Energies) (cl : Cell → ℝ) (f : Fin 3 → Cell → ℝ) : Prop :=
  ∀ d p, 0 ≤ f d p * (E.dfL (cl p) - E.dfL (cl (mv d (-1) p)))

/-! ## Sums over a periodic box -/

section sums

variable {N : Fin 3 → ℕ} {lo : Cell}

theorem cellSum3_mul (k : ℝ) (F : Cell → ℝ) : cellSum3 N lo (fun p => k * F p) = k * cellSum3 N lo F := by
  simp only [cellSum3, Finset.mul_sum]

theorem cellSum3_nonneg {F : Cell → ℝ} (h : ∀ p, 0 ≤ F p) : 0 ≤ cellSum3 N lo F :=
  Finset.sum_nonneg fun _ _ => Finset.sum_nonneg fun _ _ => Finset.sum_nonneg fun _ _ => h _

theorem cellSum3_deriv {F : ℝ → Cell → ℝ} {F' : Cell → ℝ} {t : ℝ} (h : ∀ p, HasDerivAt (fun s => F s p) (F' p) t) :
    HasDerivAt (fun s => cellSum3 N lo (F s)) (cellSum3 N lo F') t :=
  HasDerivAt.fun_sum fun _ _ => HasDerivAt.fun_sum fun _ _ => HasDerivAt.fun_sum fun _ _ => h _

theorem Per3.steps {F : Cell → ℝ} (hp : Per3 N F) (d : Fin 3) (n : ℤ) (p : Cell) : F (mv d (n * N d) p) = F p := by
  induction n using Int.induction_on generalizing p with
  | zero => rw [zero_mul, mv_zero]
  | succ n ih => rw [add_mul, one_mul, ← mv_add, hp, ih]
  | pred n ih =>
    have := hp d (mv d ((-(n : ℤ) - 1) * N d) p)
    rw [mv_add, show (-(n : ℤ) - 1) * (N d : ℤ) + N d = -(n : ℤ) * N d by ring, ih] at this
    exact this.symm

/-- A vanishing sum of nonnegative terms vanishes term by term; by periodicity in every cell. -/
theorem cellSum3_zero {F : Cell → ℝ} (hN : ∀ d, 0 < N d) (hp : Per3 N F) (h : ∀ p, 0 ≤ F p) (h0 : cellSum3 N lo F = 0) : ∀ p, F p = 0 := by
  have inside : ∀ a < N 0, ∀ b < N 1, ∀ c < N 2, F (lo.1 + (a : ℤ), lo.2.1 + (b : ℤ), lo.2.2 + (c : ℤ)) = 0 := by
    intro a ha b hb c hc
    have h1 := (Finset.sum_eq_zero_iff_of_nonneg (fun c _ => Finset.sum_nonneg fun b _ => Finset.sum_nonneg fun a _ => h _)).1 h0 c
      (Finset.mem_range.2 hc)
    have h2 := (Finset.sum_eq_zero_iff_of_nonneg (fun b _ => Finset.sum_nonneg fun a _ => h _)).1 h1 b (Finset.mem_range.2 hb)
    exact (Finset.sum_eq_zero_iff_of_nonneg (fun a _ => h _)).1 h2 a (Finset.mem_range.2 ha)
  have split : ∀ (M : ℕ) (_ : 0 < M) (x l : ℤ), ∃ a < M, ∃ n : ℤ, x = l + (a : ℤ) + n * M := by
    intro M hM x l
    have hM' : (0 : ℤ) < M := by exact_mod_cast hM
    have e0 := Int.emod_nonneg (x - l) hM'.ne'
    have e1 := Int.emod_lt_of_pos (x - l) hM'
    refine ⟨((x - l) % M).toNat, by omega, (x - l) / M, ?_⟩
    rw [Int.toNat_of_nonneg e0]
    have := Int.emod_add_mul_ediv (x - l) M
    linarith [mul_comm ((x - l) / (M : ℤ)) (M : ℤ)]
  rintro ⟨i, j, k⟩
  obtain ⟨a, ha, x, rfl⟩ := split (N 0) (hN 0) i lo.1
  obtain ⟨b, hb, y, rfl⟩ := split (N 1) (hN 1) j lo.2.1
  obtain ⟨c, hc, z, rfl⟩ := split (N 2) (hN 2) k lo.2.2
  have e := Per3.steps hp 0 x (mv 1 (y * N 1) (mv 2 (z * N 2) (lo.1 + (a : ℤ), lo.2.1 + (b : ℤ), lo.2.2 + (c : ℤ))))
  rw [Per3.steps hp 1, Per3.steps hp 2, inside a ha b hb c hc] at e
  exact e

/-- Summation by parts in any direction. -/
theorem parts {u F : Cell → ℝ} (hu : Per3 N u) (hF : Per3 N F) (d : Fin 3) :
    cellSum3 N lo (fun p => u p * (F (mv d 1 p) - F p)) = -cellSum3 N lo (fun p => F p * (u p - u (mv d (-1) p))) := by
  have pk : Per3 N fun p => u p * F (mv d 1 p) := fun e p => by
    have := hF.mv d 1 e p
    beta_reduce at this ⊢
    rw [hu e p, this]
  have s := cellSum3_shift N lo _ pk d
  rw [← cellSum3_neg, cellSum3_congr N lo (fun p => u p * (F (mv d 1 p) - F p)) (fun p => u p * F (mv d 1 p) + -(F p * u p)) (fun p => by ring),
    cellSum3_add, ← s, ← cellSum3_add]
  exact cellSum3_congr _ _ _ _ fun p => by rw [mv_up_down]; ring

end sums

/-! ## Lemmas -/

theorem slope {ty : Char} {phi : Cell → ℝ} (h : Sloped ty phi) {H : ℝ → ℝ} (hH : Computes (interpFunc ty) H) (p : Cell) :
    ∃ d, derivInterpFunc ty (phi p) = some d ∧ HasDerivAt H d (phi p) := by
  have := AlloyFlow.Props.slope (ty := ty) (phi := fun _ _ => phi p) ⟨h.1, fun e _ _ => h.2 e p⟩ hH 0 0
  exact this

theorem per_periodic {N : Fin 3 → ℕ} {u : Cell → ℝ} (h : Per3 N u) : Periodic3 (N 0) (N 1) (N 2) (f3 u) :=
  ⟨fun i j k => h 0 (i, j, k), fun i j k => h 1 (i, j, k), fun i j k => h 2 (i, j, k)⟩

theorem soluteRate_eq (h : Fin 3 → ℝ) (m : ℝ) (f : Fin 3 → Cell → ℝ) (p : Cell) :
    soluteRate h m f p = m * ∑ d, 1 / h d * (f d (mv d 1 p) - f d p) := by
  obtain ⟨i, j, k⟩ := p
  simp only [soluteRate, rhs3, f3, Fin.sum_univ_three, mv]

theorem energy_some (ty : Char) (E : Energies) (eps scale : ℝ) (h : Fin 3 → ℝ) (vmL vmA w : ℝ) (N : Fin 3 → ℕ) (lo : Cell) (phi cl ca : Cell → ℝ)
    {H : ℝ → ℝ} (hH : Computes (interpFunc ty) H) :
    energy ty E eps scale h vmL vmA w N lo phi cl ca =
      some (S3 (N 0) (N 1) (N 2) lo.1 lo.2.1 lo.2.2 (fun i j k => (interfaceCell3 eps (h 0) (h 1) (h 2) (f3 phi) i j k
        + (fun (_ _ _ : ℤ) x => scale * (16 * x * x * (1 - x) * (1 - x))) i j k (f3 phi i j k)) * w)
        + cellSum3 N lo fun p => ((1 - H (phi p)) * (invVm vmL * E.fL (cl p)) + H (phi p) * (invVm vmA * E.fA (ca p))) * w) := by
  unfold energy energy3
  simp only [Option.bind_eq_bind]
  rw [accumulate_some _ _ _ (fun c => rfl),
    accumulate_some (fun c : ℤ × ℤ × ℤ => wellCell 'd' scale (f3 phi c.1 c.2.1 c.2.2))
      (fun c => scale * (16 * phi c * phi c * (1 - phi c) * (1 - phi c))) _ (fun c => rfl),
    accumulate_some (fun c : ℤ × ℤ × ℤ => bulkCell ty (fLiquid E vmL (cl (c.1, c.2.1, c.2.2))) (fSolid E vmA (ca (c.1, c.2.1, c.2.2)))
        (f3 phi c.1 c.2.1 c.2.2))
      (fun c => (1 - H (phi c)) * (invVm vmL * E.fL (cl c)) + H (phi c) * (invVm vmA * E.fA (ca c))) _
      (fun c => by simp [bulkCell, hH _, fLiquid, fSolid, f3])]
  simp only [Option.bind_some, loop3_sum, S3, cellSum3, ← Finset.sum_add_distrib, Option.some.injEq]
  exact Finset.sum_congr rfl fun c _ => Finset.sum_congr rfl fun b _ => Finset.sum_congr rfl fun a _ => by simp only [f3]; ring

theorem rate_value (kind : Kind) (ty : Char) (E : Energies) (eps scale : ℝ) (h : Fin 3 → ℝ) (vmL vmA : ℝ) (mob phi cl ca : Cell → ℝ) (p : Cell)
    (d : ℝ) (hd : derivInterpFunc ty (phi p) = some d) (he : E.dfL (cl p) = E.dfA (ca p)) :
    phaseRate kind ty E eps scale h vmL vmA mob phi cl ca p = some (mob p *
      (phaseDiv eps h phi p - scale * (32 * phi p * (1 - phi p) * (1 - 2 * phi p))
        + d * (invVm vmL * E.fL (cl p) - invVm vmA * E.fA (ca p)
          - E.dfL (cl p) * (match kind with | .quadratic => invVm vmL | .calphad => invVm vmA) * (cl p - ca p)))) := by
  have hpbg : pbgCell 'd' 'd' ty 'c' 'c' scale 0 0 0 false false (phaseDiv eps h phi p) (phi p) 0 0 0 =
      some (phaseDiv eps h phi p - scale * (32 * phi p * (1 - phi p) * (1 - 2 * phi p))) := by
    simp [pbgCell, derivWellFunc]
  unfold phaseRate
  rw [hpbg]
  cases kind
  · simp [drive, driveQuadratic, hd, fLiquid, fSolid]
  · simp [drive, driveCalphad, hd, fLiquid, fSolid, he]

theorem split_eq {ty : Char} {E : Energies} {phi c cl ca : Cell → ℝ} (hs : Split ty E phi c cl ca) (p : Cell) : E.dfL (cl p) = E.dfA (ca p) := by
  obtain ⟨_, _, _, e⟩ := hs p; exact e

theorem split_periodic {ty : Char} {E : Energies} (hE : Convex E) (hc : ty ∈ clamped) {N : Fin 3 → ℕ} {phi c cl ca : Cell → ℝ}
    (hs : Split ty E phi c cl ca) (hphi : Per3 N phi) (hcc : Per3 N c) : Per3 N cl ∧ Per3 N ca := by
  obtain ⟨H, hH, hb⟩ := fraction ty hc
  have key : ∀ p q, phi p = phi q → c p = c q → cl p = cl q ∧ ca p = ca q := by
    intro p q h1 h2
    obtain ⟨h, e1, e2, e3⟩ := hs p
    obtain ⟨h', e1', e2', e3'⟩ := hs q
    have : h = H (phi p) := Option.some.inj (e1.symm.trans (hH _))
    subst this
    have : h' = H (phi p) := Option.some.inj (e1'.symm.trans (by rw [h1]; exact hH _))
    subst this
    exact split_unique hE.mL hE.mA (hb _) (by rw [e2, e2', h2]) e3 e3'
  exact ⟨fun d p => (key _ _ (hphi d p) (hcc d p)).1, fun d p => (key _ _ (hphi d p) (hcc d p)).2⟩

theorem power_parts {N : Fin 3 → ℕ} (lo : Cell) (h : Fin 3 → ℝ) (m : ℝ) {f : Fin 3 → Cell → ℝ} {u : Cell → ℝ} (hf : ∀ d, Per3 N (f d))
    (hu : Per3 N u) : cellSum3 N lo (fun p => u p * soluteRate h m f p) = -(m * cellSum3 N lo (power h f u)) := by
  have e : ∀ p, u p * soluteRate h m f p = ∑ d, m * (1 / h d) * (u p * (f d (mv d 1 p) - f d p)) := fun p => by
    rw [soluteRate_eq, Finset.mul_sum, Finset.mul_sum]
    exact Finset.sum_congr rfl fun d _ => by ring
  rw [cellSum3_congr _ _ _ _ e, cellSum3_dir N lo fun d p => m * (1 / h d) * (u p * (f d (mv d 1 p) - f d p))]
  unfold power
  rw [cellSum3_dir N lo fun d p => f d p * ((u p - u (mv d (-1) p)) / h d), Finset.mul_sum, ← Finset.sum_neg_distrib]
  refine Finset.sum_congr rfl fun d _ => ?_
  rw [cellSum3_mul, parts hu (hf d) d, mul_neg, neg_inj, mul_assoc, ← cellSum3_mul (1 / h d)]
  congr 1
  exact cellSum3_congr _ _ _ _ fun p => by ring

/-! ## C119 -/

/-- **C119** (the energy is always defined for the interpolations of an input file). -/
theorem c119_defined (ty : Char) (hc : ty ∈ clamped) (E : Energies) (eps scale : ℝ) (h : Fin 3 → ℝ) (vmL vmA w : ℝ) (N : Fin 3 → ℕ) (lo : Cell)
    (phi cl ca : Cell → ℝ) : ∃ e, energy ty E eps scale h vmL vmA w N lo phi cl ca = some e := by
  obtain ⟨H, hH, _⟩ := fraction ty hc
  exact ⟨_, energy_some ty E eps scale h vmL vmA w N lo phi cl ca hH⟩

/-- **C119** (exact balance), for whatever solute flux: with one molar volume and one interpolation for energy and composition, the
reported energy of a closed sample changes at minus the power dissipated by the moving interface, minus the power of the fluxes
against the gradient of the chemical potential. -/
theorem c119_balance (kind : Kind) (ty : Char) (E : Energies) (hE : Convex E) (N : Fin 3 → ℕ) (lo : Cell) (eps scale : ℝ) (h : Fin 3 → ℝ)
    (vm m w : ℝ) (mob : Cell → ℝ) (f : Fin 3 → Cell → ℝ) (phi c cl ca : ℝ → Cell → ℝ) (t : ℝ) (hty : Sloped ty (phi t))
    (hs : ∀ s, Split ty E (phi s) (c s) (cl s) (ca s)) (hphi : ∀ s, Per3 N (phi s)) (hc : ∀ s, Per3 N (c s)) (hfp : ∀ d, Per3 N (f d))
    (hf : Follows kind ty E eps scale h vm vm m mob f phi c (cl t) (ca t) t) (En : ℝ → ℝ)
    (hEn : ∀ s, energy ty E eps scale h vm vm w N lo (phi s) (cl s) (ca s) = some (En s)) :
    ∃ r : Cell → ℝ, (∀ p, phaseRate kind ty E eps scale h vm vm (fun _ => 1) (phi t) (cl t) (ca t) p = some (r p)) ∧
      (∀ p, phaseRate kind ty E eps scale h vm vm mob (phi t) (cl t) (ca t) p = some (mob p * r p)) ∧
      HasDerivAt En (-(w * (cellSum3 N lo (fun p => mob p * r p ^ 2)
        + m * cellSum3 N lo (power h f (mu E vm (cl t)))))) t := by
  obtain ⟨v, hv, hr, hcd⟩ := hf
  obtain ⟨H, hH, hb⟩ := fraction ty hty.1
  choose d hd hD using fun p => slope hty hH p
  have heq : ∀ s p, E.dfL (cl s p) = E.dfA (ca s p) := fun s p => split_eq (hs s) p
  have hmass : ∀ s p, (1 - H (phi s p)) * cl s p + H (phi s p) * ca s p = c s p := fun s p => by
    obtain ⟨h, e1, e2, _⟩ := hs s p
    rw [Option.some.inj (e1.symm.trans (hH _))] at e2; exact e2
  set r : Cell → ℝ := fun p => phaseDiv eps h (phi t) p
    - scale * (32 * phi t p * (1 - phi t p) * (1 - 2 * phi t p))
    + d p * (invVm vm * E.fL (cl t p) - invVm vm * E.fA (ca t p) - E.dfL (cl t p) * invVm vm * (cl t p - ca t p)) with hrdef
  have hrate : ∀ (mb : Cell → ℝ) p, phaseRate kind ty E eps scale h vm vm mb (phi t) (cl t) (ca t) p = some (mb p * r p) := by
    intro mb p
    rw [rate_value kind ty E eps scale h vm vm mb (phi t) (cl t) (ca t) p (d p) (hd p) (heq t p)]
    cases kind <;> rfl
  refine ⟨r, fun p => by rw [hrate, one_mul], hrate mob, ?_⟩
  have hvr : ∀ p, v p = mob p * r p := fun p => Option.some.inj ((hr p).symm.trans (hrate mob p))
  have hEn' : En = fun s => _ := funext fun s =>
    Option.some.inj ((hEn s).symm.trans (energy_some ty E eps scale h vm vm w N lo (phi s) (cl s) (ca s) hH))
  rw [hEn']
  have d1 := energy_deriv3 (N 0) (N 1) (N 2) lo.1 lo.2.1 lo.2.2 eps (h 0) (h 1) (h 2) w (fun s => f3 (phi s)) (f3 v) t
    (fun s => per_periodic (hphi s)) (fun i j k => hv (i, j, k))
    (fun _ _ _ x => scale * (16 * x * x * (1 - x) * (1 - x)))
    (fun i j k => scale * (32 * phi t (i, j, k) * (1 - phi t (i, j, k)) * (1 - 2 * phi t (i, j, k)))) (fun i j k => well_deriv scale _)
  have d2 : HasDerivAt (fun s => cellSum3 N lo fun p =>
      ((1 - H (phi s p)) * (invVm vm * E.fL (cl s p)) + H (phi s p) * (invVm vm * E.fA (ca s p))) * w)
      (cellSum3 N lo fun p => (invVm vm * (-(d p * v p) * (E.fL (cl t p) - E.fA (ca t p)
        - E.dfL (cl t p) * (cl t p - ca t p)) + E.dfL (cl t p) * soluteRate h m f p)) * w) t := by
    refine cellSum3_deriv fun p => ?_
    have e := envelope (h := fun s => H (phi s p)) (c := fun s => c s p) (cl := fun s => cl s p) (ca := fun s => ca s p)
      hE.hL hE.hA hE.mL hE.mA hE.kL hE.kA (fun s => hb _) (fun s => hmass s p) (fun s => heq s p)
      ((hD p).comp t (hv p)) (hcd p)
    refine ((e.const_mul (invVm vm)).mul_const w).congr_of_eventuallyEq (Filter.Eventually.of_forall fun s => ?_)
    simp only
    ring
  refine (d1.add d2).congr_deriv ?_
  have pmu : Per3 N (mu E vm (cl t)) := fun e p => by
    simp only [mu, (split_periodic hE hty.1 (hs t) (hphi t) (hc t)).1 e p]
  have pw := power_parts lo h m hfp pmu
  have : ∀ x : ℝ, m * x = -(-(m * x)) := fun x => by ring
  rw [this, ← pw, ← cellSum3_neg, ← cellSum3_add, ← cellSum3_mul, ← cellSum3_neg]
  have fold : S3 (N 0) (N 1) (N 2) lo.1 lo.2.1 lo.2.2 (fun i j k =>
      (-PhaseRHS.div3 (h 0) (h 1) (h 2) (gradFlux3X eps (h 0) (f3 (phi t))) (gradFlux3Y eps (h 1) (f3 (phi t)))
        (gradFlux3Z eps (h 2) (f3 (phi t))) i j k
        + scale * (32 * phi t (i, j, k) * (1 - phi t (i, j, k)) * (1 - 2 * phi t (i, j, k)))) * f3 v i j k * w) =
      cellSum3 N lo (fun p => (-phaseDiv eps h (phi t) p + scale * (32 * phi t p * (1 - phi t p) * (1 - 2 * phi t p))) * v p * w) := rfl
  rw [fold, ← cellSum3_add]
  refine cellSum3_congr _ _ _ _ fun p => ?_
  simp only [hvr, hrdef, mu]
  ring

theorem power_eq (E : Energies) (vm : ℝ) (h : Fin 3 → ℝ) (cl : Cell → ℝ) (f : Fin 3 → Cell → ℝ) (p : Cell) :
    power h f (mu E vm cl) p = ∑ d, invVm vm * (f d p * (E.dfL (cl p) - E.dfL (cl (mv d (-1) p))) / h d) := by
  simp only [power, mu]
  exact Finset.sum_congr rfl fun d _ => by ring

theorem power_term {E : Energies} {vm : ℝ} {h : Fin 3 → ℝ} (hvm : 0 < vm) (hh : ∀ d, 0 < h d) {cl : Cell → ℝ} {f : Fin 3 → Cell → ℝ}
    (hd : Downhill E cl f) (p : Cell) (d : Fin 3) : 0 ≤ invVm vm * (f d p * (E.dfL (cl p) - E.dfL (cl (mv d (-1) p))) / h d) := by
  have k : 0 < invVm vm := by unfold invVm; positivity
  exact mul_nonneg k.le (div_nonneg (hd d p) (hh d).le)

theorem power_nonneg {E : Energies} {vm : ℝ} {h : Fin 3 → ℝ} (hvm : 0 < vm) (hh : ∀ d, 0 < h d) {cl : Cell → ℝ} {f : Fin 3 → Cell → ℝ}
    (hd : Downhill E cl f) (p : Cell) : 0 ≤ power h f (mu E vm cl) p := by
  rw [power_eq]
  exact Finset.sum_nonneg fun d _ => power_term hvm hh hd p d

/-- **C119**: with a flux that never runs up the chemical potential the energy does not increase.  Missing from the full claim: two
molar volumes, two interpolations and fluxes that do run uphill (`c119_violation_kks`). -/
theorem c119_decay_partial (kind : Kind) (ty : Char) (E : Energies) (hE : Convex E) (N : Fin 3 → ℕ) (lo : Cell) (eps scale : ℝ) (h : Fin 3 → ℝ)
    (vm m w : ℝ) (hvm : 0 < vm) (hh : ∀ d, 0 < h d) (hm : 0 ≤ m) (hw : 0 ≤ w)
    (mob : Cell → ℝ) (f : Fin 3 → Cell → ℝ) (phi c cl ca : ℝ → Cell → ℝ) (t : ℝ) (hmob : ∀ p, 0 ≤ mob p) (hty : Sloped ty (phi t))
    (hs : ∀ s, Split ty E (phi s) (c s) (cl s) (ca s)) (hphi : ∀ s, Per3 N (phi s)) (hc : ∀ s, Per3 N (c s)) (hfp : ∀ d, Per3 N (f d))
    (hdown : Downhill E (cl t) f) (hf : Follows kind ty E eps scale h vm vm m mob f phi c (cl t) (ca t) t) (En : ℝ → ℝ)
    (hEn : ∀ s, energy ty E eps scale h vm vm w N lo (phi s) (cl s) (ca s) = some (En s)) :
    ∃ e ≤ 0, HasDerivAt En e t := by
  obtain ⟨r, _, _, hd⟩ := c119_balance kind ty E hE N lo eps scale h vm m w mob f phi c cl ca t hty hs hphi hc hfp hf En hEn
  refine ⟨_, neg_nonpos.2 (mul_nonneg hw (add_nonneg ?_ (mul_nonneg hm ?_))), hd⟩
  · exact cellSum3_nonneg fun p => mul_nonneg (hmob p) (sq_nonneg _)
  · exact cellSum3_nonneg fun p => power_nonneg hvm hh hdown p

/-! ### Fluxes of the code -/

theorem ebs_value (h : Fin 3 → ℝ) (dl da : Fin 3 → Cell → ℝ) (cl ca : Cell → ℝ) (d : Fin 3) (p : Cell) : ebs h dl da cl ca d p =
    1 / h d * (dl d p * (cl p - cl (mv d (-1) p)) + da d p * (ca p - ca (mv d (-1) p))) := by
  obtain ⟨i, j, k⟩ := p
  fin_cases d
  · simp [ebs, addFlux3X, f3, mv, ← sub_eq_add_neg]; ring
  · simp [ebs, addFlux3Y, f3, mv, ← sub_eq_add_neg]; ring
  · simp [ebs, addFlux3Z, f3, mv, ← sub_eq_add_neg]; ring

theorem twoPhases_eq (it at_ : Char) (R : ℝ) (l s : Arrhenius) (phi temp : Cell → ℝ) (d : Fin 3) (p : Cell) :
    twoPhases it at_ R l s phi temp d p = twoPhase it at_ R l s (sides phi d p) (sides temp d p) := by
  obtain ⟨i, j, k⟩ := p
  fin_cases d <;> rfl

/-- **C119**: the flux as a sum over the phases never runs up the chemical potential, whatever the non-negative coefficients. -/
theorem c119_ebs_downhill (ty : Char) (E : Energies) (hE : Convex E) (h : Fin 3 → ℝ) (hh : ∀ d, 0 < h d) (phi c cl ca : Cell → ℝ)
    (dl da : Fin 3 → Cell → ℝ) (hs : Split ty E phi c cl ca) (hd : ∀ d p, 0 ≤ dl d p ∧ 0 ≤ da d p) : Downhill E cl (ebs h dl da cl ca) := by
  intro d p
  rw [ebs_value]
  exact mixture_down hE (by have := hh d; positivity) (hd d p).1 (hd d p).2 (split_eq hs _) (split_eq hs _)

/-- **C119**, phase-gradient form with linear interpolation: on every side, whatever the averaging, the flux is a positive combination
of the two coefficients times the phase-weighted differences of the phase compositions. -/
theorem c119_kks_linear (at_ : Char) (hat : at_ = 'a' ∨ at_ = 'h') (R : ℝ) (l s : Arrhenius) (h : Fin 3 → ℝ)
    (temp phi cl ca c : Cell → ℝ) (hu : Unit phi) (hm : ∀ p, c p = (1 - phi p) * cl p + phi p * ca p) (d : Fin 3) (p : Cell) :
    ∃ w, 0 ≤ w ∧ w ≤ 1 ∧ kks 'l' at_ R l s h temp phi cl ca c d p =
      some (1 / h d * ((1 - w) * rate R l (sides temp d p) + w * rate R s (sides temp d p)) *
        ((1 - (phi (mv d (-1) p) + phi p) / 2) * (cl p - cl (mv d (-1) p))
          + (phi (mv d (-1) p) + phi p) / 2 * (ca p - ca (mv d (-1) p)))) := by
  obtain ⟨v, x, hv, hh, h0, h1⟩ := face_weight 'l' at_ (by simp [proper]) hat (sides phi d p) ⟨hu _, hu p⟩
  have hv' : avgP at_ (sides phi d p).swap = some v := by rw [avgP_swap]; exact hv
  refine ⟨x, h0, h1, ?_⟩
  simp only [kks, kksDiff, twoPhase, kksCoef, hv, hv', hh, Coupling.Props.deriv_l, Option.bind_eq_bind, Option.bind_some,
    Option.map_some, Option.some.injEq, concentrationFlux, hm]
  simp only [sides, Prod.swap]
  ring

/-- **C119**: the flux in phase-gradient form does not run uphill with linear interpolation. -/
theorem c119_kks_downhill_partial (E : Energies) (hE : Convex E) (at_ : Char) (hat : at_ = 'a' ∨ at_ = 'h') (R : ℝ) (l s : Arrhenius)
    (hl : 0 ≤ l.d0) (hsd : 0 ≤ s.d0) (h : Fin 3 → ℝ) (hh : ∀ d, 0 < h d) (temp phi c cl ca : Cell → ℝ) (f : Fin 3 → Cell → ℝ)
    (hu : Unit phi) (hs : Split 'l' E phi c cl ca) (hf : ∀ d p, kks 'l' at_ R l s h temp phi cl ca c d p = some (f d p)) :
    Downhill E cl f := by
  have hm : ∀ p, c p = (1 - phi p) * cl p + phi p * ca p := fun p => by
    obtain ⟨x, e1, e2, _⟩ := hs p
    rw [Coupling.Props.interp_l (hu p).1 (hu p).2] at e1
    rw [← e2, ← Option.some.inj e1]
  have hr : ∀ (a : Arrhenius) (q : Pair), 0 ≤ a.d0 → 0 ≤ rate R a q := fun a q hp => by unfold rate; positivity
  intro d p
  obtain ⟨w, w0, w1, e⟩ := c119_kks_linear at_ hat R l s h temp phi cl ca c hu hm d p
  rw [← Option.some.inj (e.symm.trans (hf d p))]
  refine mixture_down hE (mul_nonneg (by have := hh d; positivity)
    (add_nonneg (mul_nonneg (by linarith) (hr l _ hl)) (mul_nonneg w0 (hr s _ hsd)))) ?_ ?_ (split_eq hs _) (split_eq hs _)
  · linarith [(hu (mv d (-1) p)).2, (hu p).2]
  · linarith [(hu (mv d (-1) p)).1, (hu p).1]

/-- The coefficients of the sum over the phases, as the code computes them for the state: `TbasedCompositionDiffusionStrategy`. -/
def Coeffs (it at_ : Char) (R : ℝ) (l s : Arrhenius) (T : ℝ) (phi : Cell → ℝ) (dl da : Fin 3 → Cell → ℝ) : Prop :=
  ∀ d p, twoPhases it at_ R l s phi (fun _ => T) d p = some (dl d p, da d p)

theorem coeffs_value {it at_ : Char} (hit : it ∈ proper) (hat : at_ = 'a' ∨ at_ = 'h') {R : ℝ} {l s : Arrhenius} (hl : 0 ≤ l.d0)
    (hs : 0 ≤ s.d0) {T : ℝ} {phi : Cell → ℝ} {dl da : Fin 3 → Cell → ℝ} (hu : Unit phi) (h : Coeffs it at_ R l s T phi dl da) (d : Fin 3) (p : Cell) :
    0 ≤ dl d p ∧ 0 ≤ da d p ∧ (0 < l.d0 → 0 < s.d0 → 0 < dl d p ∨ 0 < da d p) := by
  obtain ⟨a, b, e, a0, b0, lo, _⟩ := c60_between it at_ hit hat R l s hl hs (sides phi d p) (sides (fun _ => T) d p) ⟨hu _, hu _⟩
  have h1 := h d p
  rw [twoPhases_eq, e] at h1
  have h1 := Option.some.inj h1
  rw [Prod.mk.injEq] at h1
  rw [← h1.1, ← h1.2]
  refine ⟨a0, b0, fun hl' hs' => ?_⟩
  have : 0 < min (rate R l (sides (fun _ => T) d p)) (rate R s (sides (fun _ => T) d p)) := by
    refine lt_min ?_ ?_ <;> unfold rate <;> positivity
  by_contra hcon
  push Not at hcon
  linarith [hcon.1, hcon.2]

theorem coeffs_periodic {it at_ : Char} {R : ℝ} {l s : Arrhenius} {T : ℝ} {N : Fin 3 → ℕ} {phi : Cell → ℝ} {dl da : Fin 3 → Cell → ℝ}
    (hp : Per3 N phi) (h : Coeffs it at_ R l s T phi dl da) (d : Fin 3) : Per3 N (dl d) ∧ Per3 N (da d) := by
  have key : ∀ e p, dl d (mv e (N e) p) = dl d p ∧ da d (mv e (N e) p) = da d p := fun e p => by
    have h1 := h d (mv e (N e) p)
    have h2 := h d p
    rw [twoPhases_eq] at h1 h2
    have es : sides phi d (mv e (N e) p) = sides phi d p := by
      have := hp.mv d (-1) e p
      beta_reduce at this
      simp only [sides, this, hp e p]
    rw [es] at h1
    exact Prod.mk.injEq _ _ _ _ ▸ Option.some.inj (h1.symm.trans h2)
  exact ⟨fun e p => (key e p).1, fun e p => (key e p).2⟩

theorem ebs_periodic {N : Fin 3 → ℕ} (h : Fin 3 → ℝ) {dl da : Fin 3 → Cell → ℝ} {cl ca : Cell → ℝ} (hd : ∀ d, Per3 N (dl d) ∧ Per3 N (da d))
    (hl : Per3 N cl) (ha : Per3 N ca) (d : Fin 3) : Per3 N (ebs h dl da cl ca d) := fun e p => by
  have a := hl.mv d (-1) e p
  have b := ha.mv d (-1) e p
  beta_reduce at a b
  rw [ebs_value, ebs_value, (hd d).1 e p, (hd d).2 e p, hl e p, ha e p, a, b]

/-- A run with the flux as a sum over the phases, the coefficients computed from the state (`rhs_form = "ebs"` with temperature
dependent coefficients, regular stencil): at all times the split, the coefficients and the rates are those of the code. -/
structure Run (kind : Kind) (ty it at_ : Char) (E : Energies) (eps scale : ℝ) (h : Fin 3 → ℝ) (vm m R T : ℝ) (l s : Arrhenius) (N : Fin 3 → ℕ)
    (mob phi c cl ca : ℝ → Cell → ℝ) : Prop where
  perPhi : ∀ t, Per3 N (phi t)
  perC : ∀ t, Per3 N (c t)
  sloped : ∀ t, Sloped ty (phi t)
  unit : ∀ t, Unit (phi t)
  split : ∀ t, Split ty E (phi t) (c t) (cl t) (ca t)
  moves : ∀ t, ∃ dl da, Coeffs it at_ R l s T (phi t) dl da ∧
    Follows kind ty E eps scale h vm vm m (mob t) (ebs h dl da (cl t) (ca t)) phi c (cl t) (ca t) t

/-- Inputs with their physical signs. -/
structure Physical (it at_ : Char) (h : Fin 3 → ℝ) (vm m : ℝ) (l s : Arrhenius) (mob : ℝ → Cell → ℝ) : Prop where
  it : it ∈ proper
  at_ : at_ = 'a' ∨ at_ = 'h'
  h : ∀ d, 0 < h d
  vm : 0 < vm
  m : 0 ≤ m
  l : 0 ≤ l.d0
  s : 0 ≤ s.d0
  mob : ∀ t p, 0 ≤ mob t p

/-- **C119** (second law): the energy reported along a run of an isothermal alloy with one molar volume and one interpolation, the
solute flux summed over the phases, never increases. -/
theorem c119_monotone_partial (kind : Kind) (ty it at_ : Char) (E : Energies) (hE : Convex E) (eps scale : ℝ) (h : Fin 3 → ℝ) (vm m R T w : ℝ)
    (l s : Arrhenius) (N : Fin 3 → ℕ) (lo : Cell) (mob phi c cl ca : ℝ → Cell → ℝ) (hp : Physical it at_ h vm m l s mob) (hw : 0 ≤ w)
    (hr : Run kind ty it at_ E eps scale h vm m R T l s N mob phi c cl ca) (En : ℝ → ℝ)
    (hEn : ∀ t, energy ty E eps scale h vm vm w N lo (phi t) (cl t) (ca t) = some (En t)) :
    Antitone En := by
  have key : ∀ t, ∃ e ≤ 0, HasDerivAt En e t := by
    intro t
    obtain ⟨dl, da, hco, hf⟩ := hr.moves t
    obtain ⟨pl, pa⟩ := split_periodic hE (hr.sloped t).1 (hr.split t) (hr.perPhi t) (hr.perC t)
    exact c119_decay_partial kind ty E hE N lo eps scale h vm m w hp.vm hp.h hp.m hw (mob t) _ phi c cl ca t (hp.mob t)
      (hr.sloped t) hr.split hr.perPhi hr.perC (ebs_periodic h (coeffs_periodic (hr.perPhi t) hco) pl pa)
      (c119_ebs_downhill ty E hE h hp.h (phi t) (c t) (cl t) (ca t) dl da (hr.split t) fun d p =>
        have := coeffs_value hp.it hp.at_ hp.l hp.s (hr.unit t) hco d p; ⟨this.1, this.2.1⟩) hf En hEn
  choose e he0 he using key
  exact antitone_of_deriv_nonpos (fun t => (he t).differentiableAt) fun t => by rw [(he t).deriv]; exact he0 t

/-- A field whose neighbours in all directions agree is uniform. -/
theorem uniform {u : Cell → ℝ} (h : ∀ d p, u p = u (mv d (-1) p)) (p : Cell) : u p = u (0, 0, 0) := by
  have step : ∀ (d : Fin 3) (n : ℤ) (q : Cell), u (mv d n q) = u q := fun d n q => by
    induction n using Int.induction_on with
    | zero => rw [mv_zero]
    | succ n ih => rw [h d, mv_add, show (n : ℤ) + 1 + -1 = n by ring, ih]
    | pred n ih => rw [← ih, h d (mv d (-(n : ℤ)) q), mv_add]; rfl
  obtain ⟨i, j, k⟩ := p
  have e := step 0 i (mv 1 j (mv 2 k (0, 0, 0)))
  rw [step 1, step 2] at e
  simpa [mv] using e

theorem quiet_face {E : Energies} (hE : Convex E) {d0 p q x y x' y' : ℝ} (hd0 : 0 < d0) (hp0 : 0 ≤ p) (hq0 : 0 ≤ q) (hpq : 0 < p ∨ 0 < q)
    (e1 : E.dfL x = E.dfA y) (e2 : E.dfL x' = E.dfA y') (hz : 1 / d0 * (p * (x - x') + q * (y - y')) * (E.dfL x - E.dfL x') = 0) : x = x' := by
  have a := same_sign hE.mL x x'
  have b := same_sign hE.mA y y'
  rw [← e1, ← e2] at b
  have hz' : p * ((x - x') * (E.dfL x - E.dfL x')) + q * ((y - y') * (E.dfL x - E.dfL x')) = 0 := by
    have : 1 / d0 ≠ 0 := by positivity
    have hz2 : 1 / d0 * (p * ((x - x') * (E.dfL x - E.dfL x')) + q * ((y - y') * (E.dfL x - E.dfL x'))) = 0 := by
      rw [← hz]; ring
    exact (mul_eq_zero.1 hz2).resolve_left this
  have a1 := mul_nonneg hp0 a
  have b1 := mul_nonneg hq0 b
  rcases hpq with hpp | hqq
  · have : p * ((x - x') * (E.dfL x - E.dfL x')) = 0 := by linarith
    rcases mul_eq_zero.1 ((mul_eq_zero.1 this).resolve_left hpp.ne') with g | g
    · linarith
    · exact hE.mL.injective (by linarith)
  · have : q * ((y - y') * (E.dfL x - E.dfL x')) = 0 := by linarith
    rcases mul_eq_zero.1 ((mul_eq_zero.1 this).resolve_left hqq.ne') with g | g
    · refine hE.mL.injective ?_
      rw [e1, e2, show y = y' by linarith]
    · exact hE.mL.injective (by linarith)

/-- **C119** (only rest does not dissipate): if with positive coefficients and mobilities the energy is stationary at some moment,
then no cell changes phase, the compositions of both phases are uniform and no cell changes composition. -/
theorem c119_rest_partial (kind : Kind) (ty it at_ : Char) (E : Energies) (hE : Convex E) (eps scale : ℝ) (h : Fin 3 → ℝ) (vm m R T w : ℝ)
    (l s : Arrhenius) (N : Fin 3 → ℕ) (hN : ∀ d, 0 < N d) (lo : Cell) (mob phi c cl ca : ℝ → Cell → ℝ)
    (hp : Physical it at_ h vm m l s mob) (hw : 0 < w) (hm : 0 < m) (hl : 0 < l.d0) (hsd : 0 < s.d0) (hmob : ∀ t p, 0 < mob t p)
    (hmp : ∀ t, Per3 N (mob t))
    (hr : Run kind ty it at_ E eps scale h vm m R T l s N mob phi c cl ca) (En : ℝ → ℝ)
    (hEn : ∀ t, energy ty E eps scale h vm vm w N lo (phi t) (cl t) (ca t) = some (En t)) (t : ℝ)
    (h0 : HasDerivAt En 0 t) :
    (∀ p, HasDerivAt (fun t => phi t p) 0 t) ∧ (∀ p, HasDerivAt (fun t => c t p) 0 t) ∧
      ∀ p, cl t p = cl t (0, 0, 0) ∧ ca t p = ca t (0, 0, 0) := by
  obtain ⟨dl, da, hco, hf⟩ := hr.moves t
  obtain ⟨pl, pa⟩ := split_periodic hE (hr.sloped t).1 (hr.split t) (hr.perPhi t) (hr.perC t)
  have q := ebs_periodic h (coeffs_periodic (hr.perPhi t) hco) pl pa
  have nn := fun d p => coeffs_value hp.it hp.at_ hp.l hp.s (hr.unit t) hco d p
  have hdown := c119_ebs_downhill ty E hE h hp.h (phi t) (c t) (cl t) (ca t) dl da (hr.split t) fun d p => ⟨(nn d p).1, (nn d p).2.1⟩
  obtain ⟨r, hr1, hr2, hd⟩ := c119_balance kind ty E hE N lo eps scale h vm m w (mob t) _ phi c cl ca t (hr.sloped t)
    hr.split hr.perPhi hr.perC q hf En hEn
  obtain ⟨v, hv, hrv, hcd⟩ := hf
  have e := hd.unique h0
  have n1 : 0 ≤ cellSum3 N lo (fun p => mob t p * r p ^ 2) := cellSum3_nonneg fun p => mul_nonneg (hmob t p).le (sq_nonneg _)
  have n2 : 0 ≤ cellSum3 N lo (power h (ebs h dl da (cl t) (ca t)) (mu E vm (cl t))) :=
    cellSum3_nonneg fun p => power_nonneg hp.vm hp.h hdown p
  have e' := (mul_eq_zero.1 (neg_eq_zero.1 e)).resolve_left hw.ne'
  have n3 := mul_nonneg hm.le n2
  have z1 : cellSum3 N lo (fun p => mob t p * r p ^ 2) = 0 := by linarith
  have z2 := (mul_eq_zero.1 (show m * cellSum3 N lo (power h (ebs h dl da (cl t) (ca t)) (mu E vm (cl t))) = 0 by linarith)).resolve_left hm.ne'
  have hvr : ∀ p, v p = mob t p * r p := fun p => Option.some.inj ((hrv p).symm.trans (hr2 p))
  have vp : Per3 N v := fun d p => (hv (mv d (N d) p)).unique
    ((hv p).congr_of_eventuallyEq (Filter.Eventually.of_forall fun u => hr.perPhi u d p))
  have sq : ∀ p, mob t p * r p ^ 2 = v p ^ 2 / mob t p := fun p => by
    rw [hvr]; have := (hmob t p).ne'; field_simp
  have z1' := cellSum3_zero (lo := lo) (F := fun p => v p ^ 2 / mob t p) hN (fun d p => by beta_reduce; rw [vp d p, hmp t d p])
    (fun p => div_nonneg (sq_nonneg _) (hmob t p).le) ((cellSum3_congr _ _ _ _ sq).symm.trans z1)
  have v0 : ∀ p, v p = 0 := fun p => by
    have := z1' p
    simpa [div_eq_zero_iff, (hmob t p).ne'] using this
  have pp : Per3 N (power h (ebs h dl da (cl t) (ca t)) (mu E vm (cl t))) := fun d p => by
    rw [power_eq, power_eq]
    refine Finset.sum_congr rfl fun e _ => ?_
    have a := pl.mv e (-1) d p
    beta_reduce at a
    rw [q e d p, pl d p, a]
  have z2' := cellSum3_zero (lo := lo) hN pp (fun p => power_nonneg hp.vm hp.h hdown p) z2
  have k : 0 < invVm vm := by unfold invVm; have := hp.vm; positivity
  have both : ∀ d p, cl t p = cl t (mv d (-1) p) := by
    intro d p
    have hz := z2' p
    rw [power_eq, Finset.sum_eq_zero_iff_of_nonneg fun d _ => power_term hp.vm hp.h hdown p d] at hz
    have hz' := (div_eq_zero_iff.1 ((mul_eq_zero.1 (hz d (Finset.mem_univ d))).resolve_left k.ne')).resolve_right (hp.h d).ne'
    rw [ebs_value] at hz'
    exact quiet_face hE (hp.h d) (nn d p).1 (nn d p).2.1 ((nn d p).2.2 hl hsd) (split_eq (hr.split t) _) (split_eq (hr.split t) _) hz'
  have cl0 := uniform both
  have ca0 : ∀ p, ca t p = ca t (0, 0, 0) := fun p =>
    hE.mA.injective (by rw [← split_eq (hr.split t), ← split_eq (hr.split t), cl0 p])
  refine ⟨fun p => by rw [← v0 p]; exact hv p, fun p => ?_, fun p => ⟨cl0 p, ca0 p⟩⟩
  refine (hcd p).congr_deriv ?_
  rw [soluteRate_eq]
  have z : ∀ d p, ebs h dl da (cl t) (ca t) d p = 0 := fun d p => by
    rw [ebs_value, cl0 p, cl0 (mv d (-1) p), ca0 p, ca0 (mv d (-1) p)]; ring
  simp [z]

/-- **C119** (no cycles): a run cannot come back to an energy it had before unless nothing happened in between. -/
theorem c119_no_cycle_partial (kind : Kind) (ty it at_ : Char) (E : Energies) (hE : Convex E) (eps scale : ℝ) (h : Fin 3 → ℝ) (vm m R T w : ℝ)
    (l s : Arrhenius) (N : Fin 3 → ℕ) (hN : ∀ d, 0 < N d) (lo : Cell) (mob phi c cl ca : ℝ → Cell → ℝ)
    (hp : Physical it at_ h vm m l s mob) (hw : 0 < w) (hm : 0 < m) (hl : 0 < l.d0) (hsd : 0 < s.d0) (hmob : ∀ t p, 0 < mob t p)
    (hmp : ∀ t, Per3 N (mob t))
    (hr : Run kind ty it at_ E eps scale h vm m R T l s N mob phi c cl ca) (En : ℝ → ℝ)
    (hEn : ∀ t, energy ty E eps scale h vm vm w N lo (phi t) (cl t) (ca t) = some (En t)) (a b : ℝ)
    (hab : En b = En a) (t : ℝ) (ht : a < t ∧ t < b) :
    (∀ p, HasDerivAt (fun t => phi t p) 0 t) ∧ ∀ p, HasDerivAt (fun t => c t p) 0 t := by
  have mono := c119_monotone_partial kind ty it at_ E hE eps scale h vm m R T w l s N lo mob phi c cl ca hp hw.le hr En hEn
  have hconst : ∀ᶠ u in nhds t, En u = En a := by
    filter_upwards [Ioo_mem_nhds ht.1 ht.2] with u hu
    exact le_antisymm (mono hu.1.le) (hab ▸ mono hu.2.le)
  have hd : HasDerivAt En 0 t := (hasDerivAt_const t (En a)).congr_of_eventuallyEq hconst
  obtain ⟨h1, h2, _⟩ := c119_rest_partial kind ty it at_ E hE eps scale h vm m R T w l s N hN lo mob phi c cl ca hp hw hm hl
    hsd hmob hmp hr En hEn t hd
  exact ⟨h1, h2⟩

end AMPE.AlloyFlow3.Props
