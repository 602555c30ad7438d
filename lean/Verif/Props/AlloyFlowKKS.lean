import Verif.Props.AlloyFlowLimits

/-!
# C110, the default form of the solute flux runs uphill

Default inputs: phase-gradient form, interpolation `p` for energy, composition and diffusion.
-/

namespace AMPE.AlloyFlow.Props

open AMPE.Functions AMPE.Functions.Props AMPE.Flux AMPE.Flux.Props AMPE.PhaseRHS AMPE.PhaseRHS.Props AMPE.Alloy AMPE.DiffCoeff
  AMPE.DiffCoeff.Props AMPE.Coupling AMPE.ConservedFlow.Props AMPE.AlloyFlow

/-- A field of stripes: one value in the even columns, another in the odd ones. -/
noncomputable def stripes (u v : ℝ) : Field2 := fun i _ => if i % 2 = 0 then u else v

theorem stripes_periodic (n M : ℕ) (u v : ℝ) : Periodic2 (2 * n) M (stripes u v) :=
  ⟨fun i j => by simp only [stripes]; rw [show (i + ((2 * n : ℕ) : ℤ)) % 2 = i % 2 by push_cast; omega], fun _ _ => rfl⟩

theorem stripes_map (f : ℝ → ℝ) (u v : ℝ) (i j : ℤ) : f (stripes u v i j) = stripes (f u) (f v) i j := by
  simp only [stripes]; split_ifs <;> rfl

/-- The flux of the phase-gradient form on an x face between phases `a` and `b`, arithmetic average, equal coefficients. -/
theorem kks_face (it : Char) (R T d dx : ℝ) (phi cl ca c : Field2) (i j : ℤ) (h h' : ℝ)
    (e : interpFunc it ((phi (i - 1) j + phi i j) / 2) = some h) (e' : derivInterpFunc it ((phi (i - 1) j + phi i j) / 2) = some h') :
    kksFluxX it 'a' R ⟨d, 0⟩ ⟨d, 0⟩ dx (fun _ _ => T) phi cl ca c i j = some (1 / dx * (d * (c i j - c (i - 1) j
      + h' * ((cl (i - 1) j + cl i j) / 2 - (ca (i - 1) j + ca i j) / 2) * (phi i j - phi (i - 1) j)))) := by
  have hv : avgP 'a' (X phi i j) = some ((phi (i - 1) j + phi i j) / 2) := Coupling.Props.avg_a _ _
  have hv' : avgP 'a' (X phi i j).swap = some ((phi (i - 1) j + phi i j) / 2) := by rw [avgP_swap]; exact hv
  have hr : ∀ p, rate R ⟨d, 0⟩ p = d := fun p => by simp [rate]
  simp only [kksFluxX, kksDiff, twoPhase, kksCoef, hv, hv', e, e', Option.bind_eq_bind, Option.bind_some,
    Option.some.injEq, concentrationFluxX, hr]
  simp only [X, Prod.swap]
  ring

/-- The same on a y face. -/
theorem kks_faceY (it : Char) (R T d dy : ℝ) (phi cl ca c : Field2) (i j : ℤ) (h h' : ℝ)
    (e : interpFunc it ((phi i (j - 1) + phi i j) / 2) = some h) (e' : derivInterpFunc it ((phi i (j - 1) + phi i j) / 2) = some h') :
    kksFluxY it 'a' R ⟨d, 0⟩ ⟨d, 0⟩ dy (fun _ _ => T) phi cl ca c i j = some (1 / dy * (d * (c i j - c i (j - 1)
      + h' * ((cl i (j - 1) + cl i j) / 2 - (ca i (j - 1) + ca i j) / 2) * (phi i j - phi i (j - 1))))) := by
  have hv : avgP 'a' (Y phi i j) = some ((phi i (j - 1) + phi i j) / 2) := Coupling.Props.avg_a _ _
  have hv' : avgP 'a' (Y phi i j).swap = some ((phi i (j - 1) + phi i j) / 2) := by rw [avgP_swap]; exact hv
  have hr : ∀ p, rate R ⟨d, 0⟩ p = d := fun p => by simp [rate]
  simp only [kksFluxY, kksDiff, twoPhase, kksCoef, hv, hv', e, e', Option.bind_eq_bind, Option.bind_some,
    Option.some.injEq, concentrationFluxY, hr]
  simp only [Y, Prod.swap]
  ring

/-- **C110 is violated by the default form of the flux**, with one molar volume and the default interpolation `p` everywhere: for any two
parabolas with different minima, any mobility, gradient energy, double well and mesh, some diffusion coefficient (the same in both phases)
and some state make the energy grow: the solute runs up its chemical potential faster than the interface can dissipate. -/
theorem c110_violation_kks (kind : Kind) (n M : ℕ) (hn : 0 < n) (hM : 0 < M) (lo0 lo1 : ℤ) (A a b eps scale dx dy vm m w mb R T : ℝ)
    (hA : 0 < A) (hab : a ≠ b) (hvm : 0 < vm) (hx : 0 < dx) (hm : 0 < m) (hw : 0 < w) (hmb : 0 ≤ mb) :
    ∃ d > 0, ∃ (phi c cl ca : ℝ → Field2) (f0 f1 : Field2), Coupling.Props.Unit (phi 0) ∧ (∀ s, Periodic2 (2 * n) M (phi s)) ∧
      (∀ s, Periodic2 (2 * n) M (c s)) ∧ (∀ s, Split 'p' (parabolas A a b) (phi s) (c s) (cl s) (ca s)) ∧
      (∀ i j, kksFluxX 'p' 'a' R ⟨d, 0⟩ ⟨d, 0⟩ dx (fun _ _ => T) (phi 0) (cl 0) (ca 0) (c 0) i j = some (f0 i j)) ∧
      (∀ i j, kksFluxY 'p' 'a' R ⟨d, 0⟩ ⟨d, 0⟩ dy (fun _ _ => T) (phi 0) (cl 0) (ca 0) (c 0) i j = some (f1 i j)) ∧
      Follows kind 'p' (parabolas A a b) eps scale dx dy vm vm m (fun _ _ => mb) f0 f1 phi c (cl 0) (ca 0) 0 ∧
      ∀ En : ℝ → ℝ, (∀ s, energy 'p' (parabolas A a b) eps scale dx dy vm vm w lo0 (lo0 + (2 * n : ℕ) - 1) lo1 (lo1 + M - 1) (phi s) (cl s)
        (ca s) = some (En s)) → ∃ e > 0, HasDerivAt En e 0 := by
  obtain ⟨P, hP, _⟩ := fraction 'p' (by simp [clamped])
  have kv : 0 < invVm vm := by unfold invVm; positivity
  have hD : a - b ≠ 0 := sub_ne_zero.2 hab
  have P0 : P (1 / 4) = 53 / 512 := Option.some.inj ((hP _).symm.trans (by
    rw [Coupling.Props.interp_p (by norm_num) (by norm_num)]; norm_num))
  have P1 : P (3 / 4) = 459 / 512 := Option.some.inj ((hP _).symm.trans (by
    rw [Coupling.Props.interp_p (by norm_num) (by norm_num)]; norm_num))
  set D := a - b with hDdef
  set phi0 := stripes (1 / 4) (3 / 4) with hphi0
  set c0 := stripes (a - 53 / 512 * D) (a - 37 / 512 * D - 459 / 512 * D) with hc0
  set cl0 : Field2 := fun i j => c0 i j + P (phi0 i j) * D with hcl0
  set ca0 : Field2 := fun i j => c0 i j - (1 - P (phi0 i j)) * D with hca0
  have ecl : cl0 = stripes a (a - 37 / 512 * D) := by
    funext i j
    simp only [hcl0, hc0, hphi0, stripes]
    split_ifs
    · rw [P0]; ring
    · rw [P1]; ring
  have eca : ca0 = stripes (a - D) (a - D - 37 / 512 * D) := by
    funext i j
    simp only [hca0, hc0, hphi0, stripes]
    split_ifs
    · rw [P0]; ring
    · rw [P1]; ring
  have split0 : Split 'p' (parabolas A a b) phi0 c0 cl0 ca0 := parabolas_split 'p' A a b hP phi0 c0
  have hu : Coupling.Props.Unit phi0 := fun i j => by
    simp only [hphi0, stripes]; split_ifs <;> norm_num
  have hdp : ∀ i j, derivInterpFunc 'p' (phi0 i j) = some (30 * phi0 i j * phi0 i j * (1 - phi0 i j) * (1 - phi0 i j)) := fun i j =>
    Coupling.Props.deriv_p (hu i j).1 (hu i j).2
  have heq0 : ∀ i j, (parabolas A a b).dfL (cl0 i j) = (parabolas A a b).dfA (ca0 i j) := fun i j => by
    obtain ⟨_, _, _, e⟩ := split0 i j; exact e
  -- the force on the phase does not depend on the diffusion coefficient
  set r : Field2 := fun i j => div2 dx dy (gradFluxX eps dx phi0) (gradFluxY eps dy phi0) i j
      - scale * (32 * phi0 i j * (1 - phi0 i j) * (1 - 2 * phi0 i j))
    + 30 * phi0 i j * phi0 i j * (1 - phi0 i j) * (1 - phi0 i j) * (invVm vm * (parabolas A a b).fL (cl0 i j)
      - invVm vm * (parabolas A a b).fA (ca0 i j) - (parabolas A a b).dfL (cl0 i j) * invVm vm * (cl0 i j - ca0 i j)) with hr
  have hrate : ∀ (mob : Field2) i j, phaseRate2 kind 'p' (parabolas A a b) eps scale dx dy vm vm mob phi0 cl0 ca0 i j =
      some (mob i j * r i j) := fun mob i j => by
    rw [rate_value kind 'p' (parabolas A a b) eps scale dx dy vm vm mob phi0 cl0 ca0 i j _ (hdp i j) (heq0 i j)]
    cases kind <;> rfl
  have pphi := stripes_periodic n M (1 / 4) (3 / 4)
  rw [← hphi0] at pphi
  have pc := stripes_periodic n M (a - 53 / 512 * D) (a - 37 / 512 * D - 459 / 512 * D)
  rw [← hc0] at pc
  have pcl := stripes_periodic n M a (a - 37 / 512 * D)
  rw [← ecl] at pcl
  have pca := stripes_periodic n M (a - D) (a - D - 37 / 512 * D)
  rw [← eca] at pca
  have pr : Periodic2 (2 * n) M r := by
    refine ⟨fun i j => ?_, fun i j => ?_⟩
    · simp only [hr, div2, gradFluxX, gradFluxY]
      rw [show i + ((2 * n : ℕ) : ℤ) + 1 = (i + 1) + ((2 * n : ℕ) : ℤ) by ring,
        show (i + 1) + ((2 * n : ℕ) : ℤ) - 1 = (i + 1 - 1) + ((2 * n : ℕ) : ℤ) by ring,
        show i + ((2 * n : ℕ) : ℤ) - 1 = (i - 1) + ((2 * n : ℕ) : ℤ) by ring]
      simp only [pphi.1, pcl.1, pca.1]
    · simp only [hr, div2, gradFluxX, gradFluxY]
      rw [show j + (M : ℤ) + 1 = (j + 1) + (M : ℤ) by ring,
        show (j + 1) + (M : ℤ) - 1 = (j + 1 - 1) + (M : ℤ) by ring,
        show j + (M : ℤ) - 1 = (j - 1) + (M : ℤ) by ring]
      simp only [pphi.2, pcl.2, pca.2]
  set S := total (2 * n) M lo0 lo1 (fun i j => mb * r i j ^ 2) with hS
  have S0 : 0 ≤ S := total_nonneg fun i j => mul_nonneg hmb (sq_nonneg _)
  have hM' : (0 : ℝ) < M := by exact_mod_cast hM
  have hn' : (0 : ℝ) < n := by exact_mod_cast hn
  set K := (M : ℝ) * (((2 * n : ℕ) : ℝ) * (2 * A * invVm vm * (37 / 512 * D) ^ 2 / dx ^ 2)) with hK
  have K0 : 0 < K := by
    have : 0 < D ^ 2 := by positivity
    rw [hK, mul_pow]; push_cast; positivity
  set d := (S / m + 1) / K with hd
  have d0 : 0 < d := by have : 0 ≤ S / m := div_nonneg S0 hm.le
                        rw [hd]; positivity
  set f0 := stripes (-(1 / dx * (d * (37 / 512 * D)))) (1 / dx * (d * (37 / 512 * D))) with hf0
  have hparity : ∀ i : ℤ, (i % 2 = 0 ∧ ¬(i - 1) % 2 = 0) ∨ (¬i % 2 = 0 ∧ (i - 1) % 2 = 0) := fun i => by omega
  have half : ∀ i j, (phi0 (i - 1) j + phi0 i j) / 2 = 1 / 2 := fun i j => by
    simp only [hphi0, stripes]
    rcases hparity i with ⟨h1, h2⟩ | ⟨h1, h2⟩
    · rw [if_pos h1, if_neg h2]; norm_num
    · rw [if_neg h1, if_pos h2]; norm_num
  have i1 : interpFunc 'p' (1 / 2) = some (1 / 2) := by rw [Coupling.Props.interp_p (by norm_num) (by norm_num)]; norm_num
  have i2 : derivInterpFunc 'p' (1 / 2) = some (15 / 8) := by rw [Coupling.Props.deriv_p (by norm_num) (by norm_num)]; norm_num
  have hflux0 : ∀ i j, kksFluxX 'p' 'a' R ⟨d, 0⟩ ⟨d, 0⟩ dx (fun _ _ => T) phi0 cl0 ca0 c0 i j = some (f0 i j) := fun i j => by
    rw [kks_face 'p' R T d dx phi0 cl0 ca0 c0 i j (1 / 2) (15 / 8) (by rw [half]; exact i1) (by rw [half]; exact i2), ecl, eca,
      Option.some.injEq]
    simp only [hf0, hphi0, hc0, stripes]
    rcases hparity i with ⟨h1, h2⟩ | ⟨h1, h2⟩
    · simp only [if_pos h1, if_neg h2]; ring
    · simp only [if_neg h1, if_pos h2]; ring
  have hflux1 : ∀ i j, kksFluxY 'p' 'a' R ⟨d, 0⟩ ⟨d, 0⟩ dy (fun _ _ => T) phi0 cl0 ca0 c0 i j = some ((fun _ _ => 0 : Field2) i j) :=
    fun i j => by
    have same : ∀ j', phi0 i j' = phi0 i j := fun _ => rfl
    have e : (phi0 i (j - 1) + phi0 i j) / 2 = phi0 i j := by rw [same (j - 1)]; ring
    rw [kks_faceY 'p' R T d dy phi0 cl0 ca0 c0 i j (P (phi0 i j)) _ (by rw [e]; exact hP _) (by rw [e]; exact hdp i j), Option.some.injEq,
      same (j - 1), show c0 i (j - 1) = c0 i j from rfl]
    ring
  have pf0 : Periodic2 (2 * n) M f0 := stripes_periodic n M _ _
  set q : Field2 := rhs2 dx dy m f0 (fun _ _ => 0) with hq
  have pq : Periodic2 (2 * n) M q := by
    refine ⟨fun i j => ?_, fun i j => ?_⟩ <;> simp only [hq, rhs2]
    · rw [show i + ((2 * n : ℕ) : ℤ) + 1 = (i + 1) + ((2 * n : ℕ) : ℤ) by ring, pf0.1, pf0.1]
    · rw [pf0.2, pf0.2]
  have line : ∀ x y : ℝ, HasDerivAt (fun s : ℝ => x + s * y) y 0 := fun x y =>
    (((hasDerivAt_id' (0 : ℝ)).mul_const y).const_add x).congr_deriv (by ring)
  set phi : ℝ → Field2 := fun s i j => phi0 i j + s * (mb * r i j) with hphi
  set c : ℝ → Field2 := fun s i j => c0 i j + s * q i j with hc
  set cl : ℝ → Field2 := fun s i j => c s i j + P (phi s i j) * D with hcl
  set ca : ℝ → Field2 := fun s i j => c s i j - (1 - P (phi s i j)) * D with hca
  have z1 : phi 0 = phi0 := by funext i j; simp only [hphi]; ring
  have z2 : c 0 = c0 := by funext i j; simp only [hc]; ring
  have z3 : cl 0 = cl0 := by simp only [hcl, z1, z2, hcl0]
  have z4 : ca 0 = ca0 := by simp only [hca, z1, z2, hca0]
  have Pphi : ∀ s, Periodic2 (2 * n) M (phi s) := fun s =>
    ⟨fun i j => by simp only [hphi]; rw [pphi.1, pr.1], fun i j => by simp only [hphi]; rw [pphi.2, pr.2]⟩
  have Pc : ∀ s, Periodic2 (2 * n) M (c s) := fun s =>
    ⟨fun i j => by simp only [hc]; rw [pc.1, pq.1], fun i j => by simp only [hc]; rw [pc.2, pq.2]⟩
  have hsplit : ∀ s, Split 'p' (parabolas A a b) (phi s) (c s) (cl s) (ca s) := fun s => parabolas_split 'p' A a b hP (phi s) (c s)
  have hF : Follows kind 'p' (parabolas A a b) eps scale dx dy vm vm m (fun _ _ => mb) f0 (fun _ _ => 0) phi c (cl 0) (ca 0) 0 := by
    refine ⟨fun i j => mb * r i j, fun i j => line _ _, fun i j => ?_, fun i j => line _ _⟩
    rw [z1, z3, z4]; exact hrate _ i j
  refine ⟨d, d0, phi, c, cl, ca, f0, fun _ _ => 0, by rw [z1]; exact hu, Pphi, Pc, hsplit, by rw [z1, z2, z3, z4]; exact hflux0,
    by rw [z1, z2, z3, z4]; exact hflux1, hF, fun En hEn => ?_⟩
  obtain ⟨r', e1, -, hd'⟩ := c110_balance kind 'p' (parabolas A a b) (parabolas_convex hA a b) (2 * n) M lo0 lo1 eps scale dx dy vm m w
    (fun _ _ => mb) f0 (fun _ _ => 0) phi c cl ca 0 ⟨by simp [clamped], fun h => absurd h (by decide)⟩ hsplit Pphi Pc pf0
    ⟨fun _ _ => rfl, fun _ _ => rfl⟩ hF En hEn
  have er : r' = r := by
    funext i j
    have := e1 i j
    rw [z1, z3, z4, hrate, one_mul] at this
    exact (Option.some.inj this).symm
  subst er
  have ep : total (2 * n) M lo0 lo1 (power dx dy f0 (fun _ _ => 0) (mu (parabolas A a b) vm (cl 0))) = -(d * K) := by
    have : ∀ i j, power dx dy f0 (fun _ _ => 0) (mu (parabolas A a b) vm (cl 0)) i j =
        -(d * (2 * A * invVm vm * (37 / 512 * D) ^ 2 / dx ^ 2)) := fun i j => by
      rw [z3, ecl]
      simp only [power, mu, parabolas, hf0, stripes]
      rcases hparity i with ⟨h1, h2⟩ | ⟨h1, h2⟩
      · simp only [if_pos h1, if_neg h2]; field_simp; ring
      · simp only [if_neg h1, if_pos h2]; field_simp; ring
    rw [total_congr this, total_uniform, hK]
    ring
  rw [ep, ← hS, hd, div_mul_cancel₀ _ K0.ne'] at hd'
  refine ⟨w * m, by positivity, hd'.congr_deriv ?_⟩
  have : m * (S / m) = S := by field_simp
  linear_combination w * this

/-! ## The hypotheses of the decay theorems are met -/

/-- A run that never ends: a liquid with stripes of composition that even out exponentially. -/
theorem run_liquid (kind : Kind) (A a b eps scale dy m R T d : ℝ) (n M : ℕ) : ∃ phi c cl ca : ℝ → Field2, (c 0 0 0 = 2 ∧ c 0 1 0 = 0) ∧
    Run kind 'p' 'p' 'a' (parabolas A a b) eps scale 1 dy 1 m R T ⟨d, 0⟩ ⟨d, 0⟩ (2 * n) M (fun _ _ _ => 1) phi c cl ca := by
  obtain ⟨P, hP, _⟩ := fraction 'p' (by simp [clamped])
  have P0 : P 0 = 0 := Option.some.inj ((hP _).symm.trans (by
    rw [Coupling.Props.interp_p (by norm_num) (by norm_num)]; norm_num))
  have i1 : interpFunc 'p' 0 = some 0 := by rw [hP, P0]
  have i2 : derivInterpFunc 'p' 0 = some 0 := by rw [Coupling.Props.deriv_p (by norm_num) (by norm_num)]; norm_num
  set e : ℝ → ℝ := fun t => Real.exp (-(4 * m * d) * t) with he
  have hde : ∀ t, HasDerivAt e (-(4 * m * d) * e t) t := fun t =>
    ((hasDerivAt_id' t).const_mul (-(4 * m * d))).exp.congr_deriv (by simp only [he]; ring)
  set c : ℝ → Field2 := fun t => stripes (1 + e t) (1 - e t) with hc
  have sp : ∀ t, Split 'p' (parabolas A a b) (fun _ _ => 0) (c t) (c t) (fun i j => c t i j - (a - b)) := fun t i j =>
    ⟨0, i1, by ring, by simp only [parabolas]; ring⟩
  refine ⟨fun _ _ _ => 0, c, c, fun t i j => c t i j - (a - b), ⟨?_, ?_⟩, ?_⟩
  · simp [hc, he, stripes]; norm_num
  · simp [hc, he, stripes]
  refine ⟨fun _ => ⟨fun _ _ => rfl, fun _ _ => rfl⟩, fun t => stripes_periodic n M _ _,
    fun _ => ⟨by simp [clamped], fun h => absurd h (by decide)⟩, fun _ _ _ => ⟨le_refl 0, zero_le_one⟩, sp, fun t => ?_⟩
  have hr : ∀ p, rate R ⟨d, 0⟩ p = d := fun p => by simp [rate]
  have av : avgP 'a' ((0 : ℝ), (0 : ℝ)) = some 0 := (Coupling.Props.avg_a 0 0).trans (by norm_num)
  refine ⟨fun _ _ => d, fun _ _ => 0, fun _ _ => d, fun _ _ => 0, ⟨fun i j => ?_, fun i j => ?_⟩, fun _ _ => 0, fun i j => hasDerivAt_const _ _,
    fun i j => ?_, fun i j => ?_⟩
  · simp [twoPhaseX, twoPhase, X, av, i1, hr]
  · simp [twoPhaseY, twoPhase, Y, av, i1, hr]
  · rw [rate_value kind 'p' (parabolas A a b) eps scale 1 dy 1 1 (fun _ _ => 1) (fun _ _ => 0) (c t) (fun i j => c t i j - (a - b)) i j 0 i2
      (by simp only [parabolas]; ring)]
    simp [div2, gradFluxX, gradFluxY]
  · have hy : ∀ i j, ebsY dy (fun _ _ => d) (fun _ _ => 0) (c t) (fun i j => c t i j - (a - b)) i j = 0 := fun i j => by
      rw [ebsY_value]; simp only [hc, stripes]; ring
    have hp : (i % 2 = 0 ∧ ¬(i - 1) % 2 = 0 ∧ ¬(i + 1) % 2 = 0) ∨ (¬i % 2 = 0 ∧ (i - 1) % 2 = 0 ∧ (i + 1) % 2 = 0) := by omega
    simp only [rhs2, hy, ebsX_value, add_sub_cancel_right]
    rcases hp with ⟨h1, h2, h3⟩ | ⟨h1, h2, h3⟩
    · simp only [hc, stripes, if_pos h1, if_neg h2, if_neg h3]
      exact ((hde t).const_add 1).congr_deriv (by ring)
    · simp only [hc, stripes, if_neg h1, if_pos h2, if_pos h3]
      exact ((hde t).const_sub 1).congr_deriv (by ring)

/-- Its energy never increases. -/
example : ∃ phi c cl ca : ℝ → Field2, c 0 0 0 ≠ c 0 1 0 ∧ ∀ En : ℝ → ℝ,
    (∀ t, energy 'p' (parabolas 1 0 1) 1 1 1 1 1 1 1 0 (0 + (2 * 4 : ℕ) - 1) 0 (0 + (8 : ℕ) - 1) (phi t) (cl t) (ca t) = some (En t)) →
      Antitone En := by
  obtain ⟨phi, c, cl, ca, ⟨h0, h1⟩, h⟩ := run_liquid .quadratic 1 0 1 1 1 1 1 1 1 1 4 8
  exact ⟨phi, c, cl, ca, by rw [h0, h1]; norm_num, fun En hEn =>
    c110_monotone_partial .quadratic 'p' 'p' 'a' (parabolas 1 0 1) (parabolas_convex one_pos 0 1) 1 1 1 1 1 1 1 1 1 ⟨1, 0⟩ ⟨1, 0⟩ (2 * 4) 8 0 0
      (fun _ _ _ => 1) phi c cl ca ⟨by simp [proper], Or.inl rfl, one_pos, one_pos, one_pos, zero_le_one, zero_le_one, zero_le_one,
        fun _ _ _ => zero_le_one⟩ zero_le_one h En hEn⟩

end AMPE.AlloyFlow.Props
