import Verif.Proofs.MeltFlow

/-!
# C108: the second law for a pure melt with the heat equation

Phase and temperature are integrated together; the driving force reads the temperature, the heat equation reads the phase rate.
The quantity to decrease in a closed sample is the reported energy of the interface plus the free energy
`cp/(2 Tm) ∑ u ū` stored in a temperature away from melting; `u = T - Tm`, `ū` is the average of `u` the driving force reads.
-/

namespace AMPE.MeltFlow.Props

open AMPE.Functions AMPE.Functions.Props AMPE.Flux AMPE.Flux.Props AMPE.PhaseRHS AMPE.PhaseRHS.Props AMPE.Thermal
  AMPE.Thermal.Props AMPE.MeltFlow

/-! ## Specification -/

/-- The share of each neighbour in the temperature a driving force reads. -/
noncomputable def share2 : Kind → ℝ
  | .delta => 1 / 16
  | .temperature => 0

/-- Free energy stored in a temperature away from `tm`, per cell volume. -/
noncomputable def stored2 (kind : Kind) (N M : ℕ) (lo0 lo1 : ℤ) (cp tm : ℝ) (T : Field2) : ℝ :=
  cp / (2 * tm) * S2 N M lo0 lo1 fun i j => (T i j - tm) * smooth2 (share2 kind) (fun i j => T i j - tm) i j

/-- What `r` must be: the rate before the mobility, with `hp` the slope of the interpolation. -/
noncomputable def netForce2 (kind : Kind) (eps scale dx dy tm L : ℝ) (hp T phi : Field2) (i j : ℤ) : ℝ :=
  div2 dx dy (gradFluxX eps dx phi) (gradFluxY eps dy phi) i j - scale * (32 * phi i j * (1 - phi i j) * (1 - 2 * phi i j))
    - L / tm * smooth2 (share2 kind) (fun i j => T i j - tm) i j * hp i j

/-- At time `t` the fields move as the code says: phase rate in every cell, temperature with the constant heat capacity `cp`. -/
def Follows2 (kind : Kind) (interp : Char) (eps scale dx dy fa tm L cp D : ℝ) (mob : Field2) (phi T : ℝ → Field2) (t : ℝ) : Prop :=
  ∃ v : Field2, (∀ i j, HasDerivAt (fun s => phi s i j) (v i j) t) ∧
    (∀ i j, phaseRate2 kind interp eps scale dx dy fa tm L mob (T t) (phi t) i j = some (v i j)) ∧
    ∀ i j, HasDerivAt (fun s => T s i j) (rhsTemp2 dx dy D L true (T t) (fun _ _ => cp) v i j) t

/-! ## Lemmas -/

theorem rate_eq (kind : Kind) (interp : Char) (eps scale dx dy fa tm L : ℝ) (htm : tm ≠ 0) (mob T phi : Field2) (i j : ℤ) (x : ℝ)
    (h : phaseRate2 kind interp eps scale dx dy fa tm L mob T phi i j = some x) :
    ∃ hp, derivInterpFunc interp (phi i j) = some hp ∧
      x = mob i j * netForce2 kind eps scale dx dy tm L (fun _ _ => hp) T phi i j := by
  have hpbg : pbgCell 'd' 'd' interp 'c' 'c' scale 0 0 0 false false
      (div2 dx dy (gradFluxX eps dx phi) (gradFluxY eps dy phi) i j) (phi i j) 0 0 0 =
      some (div2 dx dy (gradFluxX eps dx phi) (gradFluxY eps dy phi) i j
        - scale * (32 * phi i j * (1 - phi i j) * (1 - 2 * phi i j))) := by
    simp [pbgCell, derivWellFunc]
  unfold phaseRate2 at h
  rw [hpbg] at h
  simp only [Option.bind_some] at h
  cases hd : derivInterpFunc interp (phi i j) with
  | none => cases kind <;> simp [addForce2, deltaTemperature, fenergyCell, hd] at h
  | some hp =>
    refine ⟨hp, rfl, ?_⟩
    cases kind
    · simp only [addForce2, deltaTemperature, hd, Option.bind_eq_bind, Option.bind_some, Option.map_some, Option.some.injEq] at h
      rw [← h]
      unfold netForce2 smooth2 share2
      norm_num
      left
      ring
    · simp only [addForce2, fenergyCell, freeLiquid, hd, Option.bind_eq_bind, Option.bind_some, Option.map_some,
        Option.some.injEq] at h
      rw [← h]
      unfold netForce2 smooth2 share2
      norm_num
      left
      ring

theorem interface_some (eps scale dx dy w : ℝ) (N M : ℕ) (lo0 lo1 : ℤ) (u : Field2) :
    interfaceEnergy2 eps scale dx dy (fun _ => w) lo0 (lo0 + N - 1) lo1 (lo1 + M - 1) u =
      some (∑ b ∈ Finset.range M, ∑ a ∈ Finset.range N, (interfaceCell eps dx dy u (lo0 + (a : ℤ)) (lo1 + (b : ℤ))
        + (fun (_ _ : ℤ) x => scale * (16 * x * x * (1 - x) * (1 - x))) (lo0 + (a : ℤ)) (lo1 + (b : ℤ))
          (u (lo0 + (a : ℤ)) (lo1 + (b : ℤ)))) * w) := by
  unfold interfaceEnergy2
  rw [accumulate_some _ _ _ (fun c => rfl),
    accumulate_some (fun c : ℤ × ℤ => wellCell 'd' scale (u c.1 c.2))
      (fun c => scale * (16 * u c.1 c.2 * u c.1 c.2 * (1 - u c.1 c.2) * (1 - u c.1 c.2))) _ (fun c => rfl)]
  simp only [Option.bind_some, Option.map_some, loop2_sum, ← Finset.sum_add_distrib, Option.some.injEq]
  exact Finset.sum_congr rfl fun b _ => Finset.sum_congr rfl fun a _ => by ring

theorem slope_linear (x : ℝ) : derivInterpFunc 'l' x = some 1 := by
  simp only [derivInterpFunc]
  by_cases h0 : x > 0
  · simp [h0]
  · have : x < 1 := by linarith
    simp [this]

/-! ## C108 -/

/-- **C108** (the energy of the interface is always defined). -/
theorem c108_defined (eps scale dx dy w : ℝ) (N M : ℕ) (lo0 lo1 : ℤ) (u : Field2) :
    ∃ e, interfaceEnergy2 eps scale dx dy (fun _ => w) lo0 (lo0 + N - 1) lo1 (lo1 + M - 1) u = some e :=
  ⟨_, interface_some eps scale dx dy w N M lo0 lo1 u⟩

/-- **C108** (exact balance): in a closed sample interface energy plus stored free energy changes at minus what the moving interface
and the flow of heat dissipate, plus one term that is not dissipation: the latent heat is released with the rate of `phi`, the
driving force acts with the slope `hp` of the interpolation, and the two differ where `hp ≠ 1`. -/
theorem c108_balance (kind : Kind) (interp : Char) (N M : ℕ) (lo0 lo1 : ℤ) (eps scale dx dy fa tm L cp D w : ℝ) (mob : Field2)
    (phi T : ℝ → Field2) (t : ℝ) (htm : tm ≠ 0) (hcp : cp ≠ 0) (hphi : ∀ s, Periodic2 N M (phi s)) (hT : ∀ s, Periodic2 N M (T s))
    (h : Follows2 kind interp eps scale dx dy fa tm L cp D mob phi T t) (E : ℝ → ℝ)
    (hE : ∀ s, interfaceEnergy2 eps scale dx dy (fun _ => w) lo0 (lo0 + N - 1) lo1 (lo1 + M - 1) (phi s) = some (E s)) :
    ∃ hp : Field2, (∀ i j, derivInterpFunc interp (phi t i j) = some (hp i j)) ∧
      HasDerivAt (fun s => E s + w * stored2 kind N M lo0 lo1 cp tm (T s))
        (w * (-(S2 N M lo0 lo1 fun i j => mob i j * netForce2 kind eps scale dx dy tm L hp (T t) (phi t) i j ^ 2)
          - cp / tm * D * covar2 N M lo0 lo1 dx dy (smooth2 (share2 kind) fun i j => T t i j - tm) (fun i j => T t i j - tm)
          + L / tm * S2 N M lo0 lo1 fun i j => mob i j * netForce2 kind eps scale dx dy tm L hp (T t) (phi t) i j
              * smooth2 (share2 kind) (fun i j => T t i j - tm) i j * (1 - hp i j))) t := by
  obtain ⟨v, hv, hr, hTd⟩ := h
  choose hp hh hx using fun i j => rate_eq kind interp eps scale dx dy fa tm L htm mob (T t) (phi t) i j (v i j) (hr i j)
  refine ⟨hp, hh, ?_⟩
  have hnet : ∀ i j, v i j = mob i j * netForce2 kind eps scale dx dy tm L hp (T t) (phi t) i j := fun i j => hx i j
  -- interface
  have hE' : E = fun s => _ := funext fun s => (Option.some.inj ((hE s).symm.trans (interface_some eps scale dx dy w N M lo0 lo1 (phi s))))
  have dE := energy_deriv2 N M lo0 lo1 eps dx dy w phi v t hphi hv
    (fun _ _ x => scale * (16 * x * x * (1 - x) * (1 - x)))
    (fun i j => scale * (32 * phi t i j * (1 - phi t i j) * (1 - 2 * phi t i j))) (fun i j => well_deriv scale _)
  rw [← hE'] at dE
  -- stored
  set κ := share2 kind with hκ
  set u : ℝ → Field2 := fun s i j => T s i j - tm with hu
  set q : Field2 := rhsTemp2 dx dy D L true (T t) (fun _ _ => cp) v with hq
  have hup : ∀ s, Periodic2 N M (u s) := fun s => ⟨fun i j => by simp only [hu, (hT s).1], fun i j => by simp only [hu, (hT s).2]⟩
  have hud : ∀ i j, HasDerivAt (fun s => u s i j) (q i j) t := fun i j => (hTd i j).sub_const tm
  have hqp : Periodic2 N M q := Periodic2.deriv hup hud
  have hsd : ∀ i j, HasDerivAt (fun s => smooth2 κ (u s) i j) (smooth2 κ q i j) t := fun i j =>
    (hud i j).add ((((((hud _ _).add (hud _ _)).add (hud _ _)).add (hud _ _)).sub ((hud i j).const_mul 4)).const_mul κ)
  have dS := S2_deriv (N := N) (M := M) (lo0 := lo0) (lo1 := lo1) fun i j => (hud i j).mul (hsd i j)
  have symm := smooth2_symm (lo0 := lo0) (lo1 := lo1) κ q (u t) hqp (hup t)
  have dS2 : HasDerivAt (fun s => S2 N M lo0 lo1 fun i j => u s i j * smooth2 κ (u s) i j)
      (2 * S2 N M lo0 lo1 fun i j => smooth2 κ (u t) i j * q i j) t := by
    refine dS.congr_deriv ?_
    rw [S2_add, symm]
    have : S2 N M lo0 lo1 (fun i j => q i j * smooth2 κ (u t) i j) = S2 N M lo0 lo1 fun i j => smooth2 κ (u t) i j * q i j :=
      S2_congr fun i j => mul_comm _ _
    rw [this]; ring
  have hlap : ∀ i j, laplacian2 dx dy D (T t) i j = laplacian2 dx dy D (u t) i j := by
    intro i j; simp only [laplacian2, hu]; ring
  have parts := parts2 N M lo0 lo1 dx dy D (smooth2 κ (u t)) (u t) (smooth2_periodic κ (hup t)) (hup t)
  have hflow : S2 N M lo0 lo1 (fun i j => smooth2 κ (u t) i j * q i j) =
      -D * covar2 N M lo0 lo1 dx dy (smooth2 κ (u t)) (u t)
        + L / cp * S2 N M lo0 lo1 fun i j => smooth2 κ (u t) i j * v i j := by
    rw [← parts, ← S2_mul]
    change _ = S2 N M lo0 lo1 (fun i j => smooth2 κ (u t) i j * laplacian2 dx dy D (u t) i j) + _
    rw [← S2_add]
    refine S2_congr fun i j => ?_
    simp only [hq, rhsTemp2, if_true, hlap]
    ring
  refine (dE.add ((dS2.const_mul (cp / (2 * tm))).const_mul w)).congr_deriv ?_
  rw [hflow]
  have hint : (∑ b ∈ Finset.range M, ∑ a ∈ Finset.range N,
      (-div2 dx dy (gradFluxX eps dx (phi t)) (gradFluxY eps dy (phi t)) (lo0 + (a : ℤ)) (lo1 + (b : ℤ))
        + (fun i j => scale * (32 * phi t i j * (1 - phi t i j) * (1 - 2 * phi t i j))) (lo0 + (a : ℤ)) (lo1 + (b : ℤ)))
        * v (lo0 + (a : ℤ)) (lo1 + (b : ℤ)) * w) =
      w * (-(S2 N M lo0 lo1 fun i j => mob i j * netForce2 kind eps scale dx dy tm L hp (T t) (phi t) i j ^ 2)
        - L / tm * S2 N M lo0 lo1 fun i j => smooth2 κ (u t) i j * hp i j * v i j) := by
    rw [mul_sub, mul_neg, ← mul_assoc, ← S2_mul, ← S2_mul, ← neg_one_mul, ← S2_mul, ← S2_sub]
    refine Finset.sum_congr rfl fun b _ => Finset.sum_congr rfl fun a _ => ?_
    simp only [hnet, netForce2]
    ring
  rw [hint]
  have hcomb : (S2 N M lo0 lo1 fun i j => mob i j * netForce2 kind eps scale dx dy tm L hp (T t) (phi t) i j
              * smooth2 κ (u t) i j * (1 - hp i j)) =
      S2 N M lo0 lo1 (fun i j => smooth2 κ (u t) i j * v i j) - S2 N M lo0 lo1 fun i j => smooth2 κ (u t) i j * hp i j * v i j := by
    rw [← S2_sub]
    exact S2_congr fun i j => by rw [hnet]; ring
  rw [hcomb]
  field_simp
  ring

theorem share2_bounds (kind : Kind) : 0 ≤ share2 kind ∧ share2 kind < 1 / 8 := by
  cases kind <;> norm_num [share2]

/-- **C108** (second law, linear interpolation): where the slope of the interpolation is 1 the sum never increases, whatever the
mobilities, the temperature and the interface.  Missing from the full claim: the other interpolations, for which it fails
(`c108_violation_interpolation`). -/
theorem c108_decay_partial (kind : Kind) (N M : ℕ) (lo0 lo1 : ℤ) (eps scale dx dy fa tm L cp D w : ℝ) (mob : Field2)
    (phi T : ℝ → Field2) (t : ℝ) (htm : 0 < tm) (hcp : 0 < cp) (hD : 0 ≤ D) (hw : 0 ≤ w) (hm : ∀ i j, 0 ≤ mob i j)
    (hphi : ∀ s, Periodic2 N M (phi s)) (hT : ∀ s, Periodic2 N M (T s))
    (h : Follows2 kind 'l' eps scale dx dy fa tm L cp D mob phi T t) (E : ℝ → ℝ)
    (hE : ∀ s, interfaceEnergy2 eps scale dx dy (fun _ => w) lo0 (lo0 + N - 1) lo1 (lo1 + M - 1) (phi s) = some (E s)) :
    ∃ d ≤ 0, HasDerivAt (fun s => E s + w * stored2 kind N M lo0 lo1 cp tm (T s)) d t := by
  obtain ⟨hp, hh, hd⟩ := c108_balance kind 'l' N M lo0 lo1 eps scale dx dy fa tm L cp D w mob phi T t htm.ne' hcp.ne' hphi hT h E hE
  have h1 : ∀ i j, hp i j = 1 := by
    exact fun i j => (Option.some.inj ((slope_linear _).symm.trans (hh i j))).symm
  refine ⟨_, ?_, hd⟩
  have z : (S2 N M lo0 lo1 fun i j => mob i j * netForce2 kind eps scale dx dy tm L hp (T t) (phi t) i j
              * smooth2 (share2 kind) (fun i j => T t i j - tm) i j * (1 - hp i j)) = 0 := by
    rw [S2_congr (g := fun _ _ => 0) fun i j => by rw [h1]; ring]
    simp [S2]
  rw [z, mul_zero, add_zero]
  have p1 : 0 ≤ S2 N M lo0 lo1 fun i j => mob i j * netForce2 kind eps scale dx dy tm L hp (T t) (phi t) i j ^ 2 :=
    S2_nonneg fun i j => mul_nonneg (hm i j) (sq_nonneg _)
  have p2 := covar_smooth_nonneg (N := N) (M := M) (lo0 := lo0) (lo1 := lo1) (share2_bounds kind).1 (share2_bounds kind).2.le dx dy
    (fun i j => T t i j - tm) ⟨fun i j => by beta_reduce; rw [(hT t).1], fun i j => by beta_reduce; rw [(hT t).2]⟩
  have p3 : 0 ≤ cp / tm * D * covar2 N M lo0 lo1 dx dy (smooth2 (share2 kind) fun i j => T t i j - tm) (fun i j => T t i j - tm) :=
    mul_nonneg (mul_nonneg (by positivity) hD) p2
  exact mul_nonpos_of_nonneg_of_nonpos hw (by linarith)

/-- **C108** (linear interpolation): only rest does not dissipate.  If the sum is stationary at some moment then no cell changes
phase and the temperature is uniform. -/
theorem c108_rest_partial (kind : Kind) (N M : ℕ) (hN : 0 < N) (hM : 0 < M) (lo0 lo1 : ℤ) (eps scale dx dy fa tm L cp D w : ℝ)
    (mob : Field2) (phi T : ℝ → Field2) (t : ℝ) (hx : dx ≠ 0) (hy : dy ≠ 0) (htm : 0 < tm) (hcp : 0 < cp) (hD : 0 < D) (hw : 0 < w)
    (hm : ∀ i j, 0 < mob i j) (hmp : Periodic2 N M mob)
    (hphi : ∀ s, Periodic2 N M (phi s)) (hT : ∀ s, Periodic2 N M (T s))
    (h : Follows2 kind 'l' eps scale dx dy fa tm L cp D mob phi T t) (E : ℝ → ℝ)
    (hE : ∀ s, interfaceEnergy2 eps scale dx dy (fun _ => w) lo0 (lo0 + N - 1) lo1 (lo1 + M - 1) (phi s) = some (E s))
    (h0 : HasDerivAt (fun s => E s + w * stored2 kind N M lo0 lo1 cp tm (T s)) 0 t) :
    (∀ i j, phaseRate2 kind 'l' eps scale dx dy fa tm L mob (T t) (phi t) i j = some 0) ∧
      ∀ i j, T t (i + 1) j = T t i j ∧ T t i (j + 1) = T t i j := by
  obtain ⟨hp, hh, hd⟩ := c108_balance kind 'l' N M lo0 lo1 eps scale dx dy fa tm L cp D w mob phi T t htm.ne' hcp.ne' hphi hT h E hE
  obtain ⟨v, hv, hr, hTd⟩ := h
  have h1 : ∀ i j, hp i j = 1 := fun i j => (Option.some.inj ((slope_linear _).symm.trans (hh i j))).symm
  have hnet : ∀ i j, v i j = mob i j * netForce2 kind eps scale dx dy tm L hp (T t) (phi t) i j := by
    intro i j
    obtain ⟨hp', e1, e2⟩ := rate_eq kind 'l' eps scale dx dy fa tm L htm.ne' mob (T t) (phi t) i j (v i j) (hr i j)
    have : hp' = hp i j := Option.some.inj (e1.symm.trans (hh i j))
    subst this
    exact e2
  have z : (S2 N M lo0 lo1 fun i j => mob i j * netForce2 kind eps scale dx dy tm L hp (T t) (phi t) i j
              * smooth2 (share2 kind) (fun i j => T t i j - tm) i j * (1 - hp i j)) = 0 := by
    rw [S2_congr (g := fun _ _ => 0) fun i j => by rw [h1]; ring]
    simp [S2]
  have e := hd.unique h0
  rw [z, mul_zero, add_zero] at e
  have e' := (mul_eq_zero.1 e).resolve_left hw.ne'
  have up : Periodic2 N M fun i j => T t i j - tm :=
    ⟨fun i j => by beta_reduce; rw [(hT t).1], fun i j => by beta_reduce; rw [(hT t).2]⟩
  have p1 : 0 ≤ S2 N M lo0 lo1 fun i j => mob i j * netForce2 kind eps scale dx dy tm L hp (T t) (phi t) i j ^ 2 :=
    S2_nonneg fun i j => mul_nonneg (hm i j).le (sq_nonneg _)
  have p2 := covar_smooth_nonneg (N := N) (M := M) (lo0 := lo0) (lo1 := lo1) (share2_bounds kind).1 (share2_bounds kind).2.le dx dy _ up
  have k : 0 < cp / tm * D := by positivity
  have p3 := mul_nonneg k.le p2
  have z1 : (S2 N M lo0 lo1 fun i j => mob i j * netForce2 kind eps scale dx dy tm L hp (T t) (phi t) i j ^ 2) = 0 := by linarith
  have z2 := (mul_eq_zero.1 (show cp / tm * D * covar2 N M lo0 lo1 dx dy (smooth2 (share2 kind) fun i j => T t i j - tm)
    (fun i j => T t i j - tm) = 0 by linarith)).resolve_left k.ne'
  have vp := Periodic2.deriv hphi hv
  have sq : ∀ i j, mob i j * netForce2 kind eps scale dx dy tm L hp (T t) (phi t) i j ^ 2 = v i j ^ 2 / mob i j := by
    intro i j
    rw [hnet]
    have := (hm i j).ne'
    field_simp
  rw [S2_congr sq] at z1
  have f := S2_zero hN hM (f := fun i j => v i j ^ 2 / mob i j)
    ⟨fun i j => by beta_reduce; rw [vp.1, hmp.1], fun i j => by beta_reduce; rw [vp.2, hmp.2]⟩
    (fun i j => div_nonneg (sq_nonneg _) (hm i j).le) z1
  refine ⟨fun i j => ?_, fun i j => ?_⟩
  · rw [hr i j]
    have := f i j
    simp only [div_eq_zero_iff, (hm i j).ne', or_false, pow_eq_zero_iff, ne_eq, OfNat.ofNat_ne_zero, not_false_eq_true] at this
    rw [this]
  · have := covar_smooth_zero (lo0 := lo0) (lo1 := lo1) (share2_bounds kind).1 (share2_bounds kind).2 hx hy hN hM _ up z2 i j
    exact ⟨by linarith [this.1], by linarith [this.2]⟩

/-- **C108** (linear interpolation, all times): along a whole run the sum is nonincreasing; the mobilities may change with time. -/
theorem c108_monotone_partial (kind : Kind) (N M : ℕ) (lo0 lo1 : ℤ) (eps scale dx dy fa tm L cp D w : ℝ) (mob : ℝ → Field2)
    (phi T : ℝ → Field2) (htm : 0 < tm) (hcp : 0 < cp) (hD : 0 ≤ D) (hw : 0 ≤ w) (hm : ∀ t i j, 0 ≤ mob t i j)
    (hphi : ∀ s, Periodic2 N M (phi s)) (hT : ∀ s, Periodic2 N M (T s))
    (h : ∀ t, Follows2 kind 'l' eps scale dx dy fa tm L cp D (mob t) phi T t) (E : ℝ → ℝ)
    (hE : ∀ s, interfaceEnergy2 eps scale dx dy (fun _ => w) lo0 (lo0 + N - 1) lo1 (lo1 + M - 1) (phi s) = some (E s)) :
    Antitone fun s => E s + w * stored2 kind N M lo0 lo1 cp tm (T s) := by
  have key := fun t => c108_decay_partial kind N M lo0 lo1 eps scale dx dy fa tm L cp D w (mob t) phi T t htm hcp hD hw (hm t) hphi hT
    (h t) E hE
  choose d hd0 hd using key
  exact antitone_of_deriv_nonpos (fun t => (hd t).differentiableAt) fun t => by rw [(hd t).deriv]; exact hd0 t

theorem interface_nonneg (eps scale dx dy w : ℝ) (hs : 0 ≤ scale) (hw : 0 ≤ w) (N M : ℕ) (lo0 lo1 : ℤ) (u : Field2)
    (hu : Periodic2 N M u) (e : ℝ)
    (h : interfaceEnergy2 eps scale dx dy (fun _ => w) lo0 (lo0 + N - 1) lo1 (lo1 + M - 1) u = some e) : 0 ≤ e := by
  rw [interface_some] at h
  rw [← Option.some.inj h]
  have parts := parts2 N M lo0 lo1 dx dy (-(0.5 * eps * eps)) u u hu hu
  have hc : 0 ≤ covar2 N M lo0 lo1 dx dy u u := by
    unfold covar2
    exact Finset.sum_nonneg fun b _ => Finset.sum_nonneg fun a _ => add_nonneg
      (div_nonneg (mul_self_nonneg _) (mul_self_nonneg _)) (div_nonneg (mul_self_nonneg _) (mul_self_nonneg _))
  have e1 : (∑ b ∈ Finset.range M, ∑ a ∈ Finset.range N, (interfaceCell eps dx dy u (lo0 + (a : ℤ)) (lo1 + (b : ℤ))
        + (fun (_ _ : ℤ) x => scale * (16 * x * x * (1 - x) * (1 - x))) (lo0 + (a : ℤ)) (lo1 + (b : ℤ))
          (u (lo0 + (a : ℤ)) (lo1 + (b : ℤ)))) * w) =
      w * (0.5 * eps * eps * covar2 N M lo0 lo1 dx dy u u)
        + S2 N M lo0 lo1 (fun i j => w * (scale * (16 * u i j * u i j * (1 - u i j) * (1 - u i j)))) := by
    rw [show 0.5 * eps * eps * covar2 N M lo0 lo1 dx dy u u = - -(0.5 * eps * eps) * covar2 N M lo0 lo1 dx dy u u by ring, ← parts]
    unfold S2
    simp only [Finset.mul_sum, ← Finset.sum_add_distrib]
    refine Finset.sum_congr rfl fun b _ => Finset.sum_congr rfl fun a _ => ?_
    unfold interfaceCell laplacian2
    ring
  rw [e1]
  refine add_nonneg (mul_nonneg hw (mul_nonneg ?_ hc)) (S2_nonneg fun i j => mul_nonneg hw (mul_nonneg hs ?_))
  · nlinarith [mul_self_nonneg eps]
  · nlinarith [sq_nonneg (u i j * (1 - u i j))]

/-- **C108** (linear interpolation): the temperature never runs away.  At all later times the mean square departure from the melting
temperature is bounded by what the run started with. -/
theorem c108_bounded_partial (kind : Kind) (N M : ℕ) (lo0 lo1 : ℤ) (eps scale dx dy fa tm L cp D w : ℝ) (mob : ℝ → Field2)
    (phi T : ℝ → Field2) (htm : 0 < tm) (hcp : 0 < cp) (hD : 0 ≤ D) (hw : 0 ≤ w) (hs : 0 ≤ scale) (hm : ∀ t i j, 0 ≤ mob t i j)
    (hphi : ∀ s, Periodic2 N M (phi s)) (hT : ∀ s, Periodic2 N M (T s))
    (h : ∀ t, Follows2 kind 'l' eps scale dx dy fa tm L cp D (mob t) phi T t) (e0 : ℝ)
    (hE : interfaceEnergy2 eps scale dx dy (fun _ => w) lo0 (lo0 + N - 1) lo1 (lo1 + M - 1) (phi 0) = some e0) (t : ℝ) (ht : 0 ≤ t) :
    w * (cp / (4 * tm) * S2 N M lo0 lo1 fun i j => (T t i j - tm) * (T t i j - tm)) ≤
      e0 + w * stored2 kind N M lo0 lo1 cp tm (T 0) := by
  choose E hE' using fun s => c108_defined eps scale dx dy w N M lo0 lo1 (phi s)
  have mono := c108_monotone_partial kind N M lo0 lo1 eps scale dx dy fa tm L cp D w mob phi T htm hcp hD hw hm hphi hT h E hE' ht
  have e00 : E 0 = e0 := Option.some.inj ((hE' 0).symm.trans hE)
  have ep := interface_nonneg eps scale dx dy w hs hw N M lo0 lo1 (phi t) (hphi t) (E t) (hE' t)
  have up : Periodic2 N M fun i j => T t i j - tm :=
    ⟨fun i j => by beta_reduce; rw [(hT t).1], fun i j => by beta_reduce; rw [(hT t).2]⟩
  have pos := smooth2_pos (lo0 := lo0) (lo1 := lo1) (share2_bounds kind).1 _ up
  have sp : 0 ≤ S2 N M lo0 lo1 fun i j => (T t i j - tm) * (T t i j - tm) := S2_nonneg fun i j => mul_self_nonneg _
  have hk : 1 / 2 ≤ 1 - 8 * share2 kind := by cases kind <;> norm_num [share2]
  have q := mul_le_mul_of_nonneg_right hk sp
  have lower : cp / (4 * tm) * S2 N M lo0 lo1 (fun i j => (T t i j - tm) * (T t i j - tm)) ≤ stored2 kind N M lo0 lo1 cp tm (T t) := by
    unfold stored2
    rw [show cp / (4 * tm) = cp / (2 * tm) * (1 / 2) by field_simp; norm_num, mul_assoc]
    exact mul_le_mul_of_nonneg_left (le_trans q pos) (by positivity)
  have := mul_le_mul_of_nonneg_left lower hw
  simp only at mono
  rw [e00] at mono
  linarith

/-- Sum of a uniform field. -/
theorem S2_const (N M : ℕ) (lo0 lo1 : ℤ) (x : ℝ) : S2 N M lo0 lo1 (fun _ _ => x) = (M : ℝ) * ((N : ℝ) * x) := by
  simp [S2]

/-- **C108 is violated** with any interpolation of slope `≠ 1`: in a uniform sample of phase `p` and temperature `θ` write
`a = L (θ - Tm)/Tm` and `r₀` for minus the slope of the double well.  The sum changes at
`- w mob (r₀ - a hp)(r₀ - a)` per cell: it grows exactly when `r₀` lies strictly between `a hp` and `a`. -/
theorem c108_violation_interpolation (kind : Kind) (interp : Char) (N M : ℕ) (lo0 lo1 : ℤ)
    (eps scale dx dy fa tm L cp D w m p θ hp : ℝ) (htm : tm ≠ 0) (hcp : cp ≠ 0) (hi : derivInterpFunc interp p = some hp) :
    let a := L / tm * (θ - tm)
    let r₀ := -(scale * (32 * p * (1 - p) * (1 - 2 * p)))
    ∃ phi T : ℝ → Field2, (∀ i j, phi 0 i j = p) ∧ (∀ i j, T 0 i j = θ) ∧ (∀ s, Periodic2 N M (phi s)) ∧ (∀ s, Periodic2 N M (T s)) ∧
      Follows2 kind interp eps scale dx dy fa tm L cp D (fun _ _ => m) phi T 0 ∧
      ∀ E : ℝ → ℝ, (∀ s, interfaceEnergy2 eps scale dx dy (fun _ => w) lo0 (lo0 + N - 1) lo1 (lo1 + M - 1) (phi s) = some (E s)) →
        HasDerivAt (fun s => E s + w * stored2 kind N M lo0 lo1 cp tm (T s))
          (-(M * (N * (w * m * ((r₀ - a * hp) * (r₀ - a)))))) 0 := by
  intro a r₀
  set v := m * (r₀ - a * hp) with hv
  have hrate : ∀ i j, phaseRate2 kind interp eps scale dx dy fa tm L (fun _ _ => m) (fun _ _ => θ) (fun _ _ => p) i j = some v := by
    intro i j
    have hpbg : pbgCell 'd' 'd' interp 'c' 'c' scale 0 0 0 false false
        (div2 dx dy (gradFluxX eps dx fun _ _ => p) (gradFluxY eps dy fun _ _ => p) i j) p 0 0 0 = some r₀ := by
      simp [pbgCell, derivWellFunc, div2, gradFluxX, gradFluxY, r₀]
    unfold phaseRate2
    rw [hpbg]
    cases kind
    · simp only [addForce2, deltaTemperature, hi, Option.bind_eq_bind, Option.bind_some, Option.map_some, Option.some.injEq, hv, a]
      norm_num
      left
      ring
    · simp only [addForce2, fenergyCell, freeLiquid, hi, Option.bind_eq_bind, Option.bind_some, Option.map_some, Option.some.injEq, hv, a]
      ring
  have hF : Follows2 kind interp eps scale dx dy fa tm L cp D (fun _ _ => m) (fun s _ _ => p + s * v)
      (fun s _ _ => θ + s * (L / cp * v)) 0 := by
    refine ⟨fun _ _ => v, fun i j => ?_, fun i j => ?_, fun i j => ?_⟩
    · exact (((hasDerivAt_id' (0 : ℝ)).mul_const v).const_add p).congr_deriv (by ring)
    · simpa using hrate i j
    · refine (((hasDerivAt_id' (0 : ℝ)).mul_const (L / cp * v)).const_add θ).congr_deriv ?_
      simp only [rhsTemp2, laplacian2, if_true]
      ring
  refine ⟨fun s _ _ => p + s * v, fun s _ _ => θ + s * (L / cp * v), fun i j => by simp, fun i j => by simp,
    fun s => ⟨fun _ _ => rfl, fun _ _ => rfl⟩, fun s => ⟨fun _ _ => rfl, fun _ _ => rfl⟩, hF, fun E hE => ?_⟩
  obtain ⟨hp', hh, hd⟩ := c108_balance kind interp N M lo0 lo1 eps scale dx dy fa tm L cp D w (fun _ _ => m) _ _ 0 htm hcp
    (fun s => ⟨fun _ _ => rfl, fun _ _ => rfl⟩) (fun s => ⟨fun _ _ => rfl, fun _ _ => rfl⟩) hF E hE
  have e : hp' = fun _ _ => hp := by
    funext i j
    have := hh i j
    simp only [zero_mul, add_zero] at this
    exact Option.some.inj (this.symm.trans hi)
  subst e
  refine hd.congr_deriv ?_
  have hs : ∀ i j, smooth2 (share2 kind) (fun _ _ => θ + 0 * (L / cp * v) - tm) i j = θ - tm := by
    intro i j; unfold smooth2; ring
  have hn : ∀ i j, netForce2 kind eps scale dx dy tm L (fun _ _ => hp) (fun _ _ => θ + 0 * (L / cp * v)) (fun _ _ => p + 0 * v) i j
      = r₀ - a * hp := by
    intro i j
    unfold netForce2
    rw [hs]
    simp only [div2, gradFluxX, gradFluxY, zero_mul, add_zero, r₀, a]
    ring
  simp only [hn, hs, S2_const]
  have hc : covar2 N M lo0 lo1 dx dy (smooth2 (share2 kind) fun _ _ => θ + 0 * (L / cp * v) - tm)
      (fun _ _ => θ + 0 * (L / cp * v) - tm) = 0 := by
    unfold covar2; simp
  rw [hc]
  simp only [a]
  ring

/-- **C108 is violated**, a case: interpolation `p`, a tenth solid, undercooled; the well pushes towards the liquid more strongly than
the melt drives, the sample absorbs latent heat while its temperature is already below melting, and the sum grows. -/
theorem c108_violation_case : ∃ phi T : ℝ → Field2, Follows2 .temperature 'p' 1 1 1 1 0 1 4 1 1 (fun _ _ => 1) phi T 0 ∧
    ∀ E : ℝ → ℝ, (∀ s, interfaceEnergy2 1 1 1 1 (fun _ => 1) 0 (0 + (8 : ℕ) - 1) 0 (0 + (8 : ℕ) - 1) (phi s) = some (E s)) →
      ∃ d > 0, HasDerivAt (fun s => E s + 1 * stored2 .temperature 8 8 0 0 1 1 (T s)) d 0 := by
  have hi : derivInterpFunc 'p' (1 / 10) = some (30 * (1 / 10) * (1 / 10) * (1 - 1 / 10) * (1 - 1 / 10)) := by
    have hc : clamp (1 / 10) = 1 / 10 := by norm_num [clamp]
    simp only [derivInterpFunc, hc]
    simp
  obtain ⟨phi, T, _, _, _, _, hF, h⟩ := c108_violation_interpolation .temperature 'p' 8 8 0 0 1 1 1 1 0 1 4 1 1 1 1 (1 / 10) 0 _
    one_ne_zero one_ne_zero hi
  exact ⟨phi, T, hF, fun E hE => ⟨_, by norm_num, h E hE⟩⟩

/-- Hypotheses of the decay theorems are met: a melt at rest at the melting temperature, and a moving one (`c108_violation_interpolation`
with interpolation `l`). -/
example : ∃ phi T : ℝ → Field2, (∀ s, Periodic2 4 4 (phi s)) ∧ (∀ s, Periodic2 4 4 (T s)) ∧
    Follows2 .delta 'l' 1 1 1 1 0 1 4 1 1 (fun _ _ => 1) phi T 0 ∧ phi 0 0 0 = 1 / 10 ∧ T 0 0 0 = 0 := by
  have hi : derivInterpFunc 'l' (1 / 10) = some 1 := slope_linear _
  obtain ⟨phi, T, a, b, c, d, hF, _⟩ := c108_violation_interpolation .delta 'l' 4 4 0 0 1 1 1 1 0 1 4 1 1 1 1 (1 / 10) 0 _
    one_ne_zero one_ne_zero hi
  exact ⟨phi, T, c, d, hF, a 0 0, b 0 0⟩

end AMPE.MeltFlow.Props
