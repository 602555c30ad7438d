import Verif.Proofs.MeltFlow3
import Verif.Props.MeltFlow

/-!
# C108 in 3D
-/

namespace AMPE.MeltFlow.Props

open AMPE.Functions AMPE.Functions.Props AMPE.Flux AMPE.Flux.Props AMPE.PhaseRHS AMPE.PhaseRHS.Props AMPE.Thermal
  AMPE.Thermal.Props AMPE.MeltFlow

/-- The share of each of the six neighbours in the temperature a driving force reads. -/
noncomputable def share3 : Kind → ℝ
  | .delta => 1 / 24
  | .temperature => 0

/-- Free energy stored in a temperature away from `tm`, per cell volume. -/
noncomputable def stored3 (kind : Kind) (N M K : ℕ) (lo0 lo1 lo2 : ℤ) (cp tm : ℝ) (T : Field3) : ℝ :=
  cp / (2 * tm) * S3 N M K lo0 lo1 lo2 fun i j k => (T i j k - tm) * smooth3 (share3 kind) (fun i j k => T i j k - tm) i j k

/-- The rate before the mobility. -/
noncomputable def netForce3 (kind : Kind) (eps scale dx dy dz tm L : ℝ) (hp T phi : Field3) (i j k : ℤ) : ℝ :=
  div3 dx dy dz (gradFlux3X eps dx phi) (gradFlux3Y eps dy phi) (gradFlux3Z eps dz phi) i j k
    - scale * (32 * phi i j k * (1 - phi i j k) * (1 - 2 * phi i j k))
    - L / tm * smooth3 (share3 kind) (fun i j k => T i j k - tm) i j k * hp i j k

/-- At time `t` the fields move as the code says. -/
def Follows3 (kind : Kind) (interp : Char) (eps scale dx dy dz fa tm L cp D : ℝ) (mob : Field3) (phi T : ℝ → Field3) (t : ℝ) : Prop :=
  ∃ v : Field3, (∀ i j k, HasDerivAt (fun s => phi s i j k) (v i j k) t) ∧
    (∀ i j k, phaseRate3 kind interp eps scale dx dy dz fa tm L mob (T t) (phi t) i j k = some (v i j k)) ∧
    ∀ i j k, HasDerivAt (fun s => T s i j k) (rhsTemp3 dx dy dz D L true (T t) (fun _ _ _ => cp) v i j k) t

theorem rate_eq3 (kind : Kind) (interp : Char) (eps scale dx dy dz fa tm L : ℝ) (htm : tm ≠ 0) (mob T phi : Field3) (i j k : ℤ) (x : ℝ)
    (h : phaseRate3 kind interp eps scale dx dy dz fa tm L mob T phi i j k = some x) :
    ∃ hp, derivInterpFunc interp (phi i j k) = some hp ∧
      x = mob i j k * netForce3 kind eps scale dx dy dz tm L (fun _ _ _ => hp) T phi i j k := by
  have hpbg : pbgCell 'd' 'd' interp 'c' 'c' scale 0 0 0 false false
      (div3 dx dy dz (gradFlux3X eps dx phi) (gradFlux3Y eps dy phi) (gradFlux3Z eps dz phi) i j k) (phi i j k) 0 0 0 =
      some (div3 dx dy dz (gradFlux3X eps dx phi) (gradFlux3Y eps dy phi) (gradFlux3Z eps dz phi) i j k
        - scale * (32 * phi i j k * (1 - phi i j k) * (1 - 2 * phi i j k))) := by
    simp [pbgCell, derivWellFunc]
  unfold phaseRate3 at h
  rw [hpbg] at h
  simp only [Option.bind_some] at h
  cases hd : derivInterpFunc interp (phi i j k) with
  | none => cases kind <;> simp [addForce3, deltaTemperature3, fenergyCell, hd] at h
  | some hp =>
    refine ⟨hp, rfl, ?_⟩
    cases kind
    · simp only [addForce3, deltaTemperature3, hd, Option.bind_eq_bind, Option.bind_some, Option.map_some, Option.some.injEq] at h
      rw [← h]
      unfold netForce3 smooth3 share3
      norm_num
      left
      ring
    · simp only [addForce3, fenergyCell, freeLiquid, hd, Option.bind_eq_bind, Option.bind_some, Option.map_some,
        Option.some.injEq] at h
      rw [← h]
      unfold netForce3 smooth3 share3
      norm_num
      left
      ring

theorem interface_some3 (eps scale dx dy dz w : ℝ) (N M K : ℕ) (lo0 lo1 lo2 : ℤ) (u : Field3) :
    interfaceEnergy3 eps scale dx dy dz (fun _ => w) lo0 (lo0 + N - 1) lo1 (lo1 + M - 1) lo2 (lo2 + K - 1) u =
      some (S3 N M K lo0 lo1 lo2 fun i j k => (interfaceCell3 eps dx dy dz u i j k
        + (fun (_ _ _ : ℤ) x => scale * (16 * x * x * (1 - x) * (1 - x))) i j k (u i j k)) * w) := by
  unfold interfaceEnergy3
  rw [accumulate_some _ _ _ (fun c => rfl),
    accumulate_some (fun c : ℤ × ℤ × ℤ => wellCell 'd' scale (u c.1 c.2.1 c.2.2))
      (fun c => scale * (16 * u c.1 c.2.1 c.2.2 * u c.1 c.2.1 c.2.2 * (1 - u c.1 c.2.1 c.2.2) * (1 - u c.1 c.2.1 c.2.2))) _
      (fun c => rfl)]
  simp only [Option.bind_some, Option.map_some, loop3_sum, ← Finset.sum_add_distrib, Option.some.injEq, S3]
  exact Finset.sum_congr rfl fun c _ => Finset.sum_congr rfl fun b _ => Finset.sum_congr rfl fun a _ => by ring

/-- **C108** (exact balance, 3D). -/
theorem c108_balance3 (kind : Kind) (interp : Char) (N M K : ℕ) (lo0 lo1 lo2 : ℤ) (eps scale dx dy dz fa tm L cp D w : ℝ) (mob : Field3)
    (phi T : ℝ → Field3) (t : ℝ) (htm : tm ≠ 0) (hcp : cp ≠ 0) (hphi : ∀ s, Periodic3 N M K (phi s)) (hT : ∀ s, Periodic3 N M K (T s))
    (h : Follows3 kind interp eps scale dx dy dz fa tm L cp D mob phi T t) (E : ℝ → ℝ)
    (hE : ∀ s, interfaceEnergy3 eps scale dx dy dz (fun _ => w) lo0 (lo0 + N - 1) lo1 (lo1 + M - 1) lo2 (lo2 + K - 1) (phi s)
      = some (E s)) :
    ∃ hp : Field3, (∀ i j k, derivInterpFunc interp (phi t i j k) = some (hp i j k)) ∧
      HasDerivAt (fun s => E s + w * stored3 kind N M K lo0 lo1 lo2 cp tm (T s))
        (w * (-(S3 N M K lo0 lo1 lo2 fun i j k => mob i j k * netForce3 kind eps scale dx dy dz tm L hp (T t) (phi t) i j k ^ 2)
          - cp / tm * D * covar3 N M K lo0 lo1 lo2 dx dy dz (smooth3 (share3 kind) fun i j k => T t i j k - tm)
              (fun i j k => T t i j k - tm)
          + L / tm * S3 N M K lo0 lo1 lo2 fun i j k => mob i j k * netForce3 kind eps scale dx dy dz tm L hp (T t) (phi t) i j k
              * smooth3 (share3 kind) (fun i j k => T t i j k - tm) i j k * (1 - hp i j k))) t := by
  obtain ⟨v, hv, hr, hTd⟩ := h
  choose hp hh hx using fun i j k => rate_eq3 kind interp eps scale dx dy dz fa tm L htm mob (T t) (phi t) i j k (v i j k) (hr i j k)
  refine ⟨hp, hh, ?_⟩
  have hnet : ∀ i j k, v i j k = mob i j k * netForce3 kind eps scale dx dy dz tm L hp (T t) (phi t) i j k := fun i j k => hx i j k
  have hE' : E = fun s => _ :=
    funext fun s => (Option.some.inj ((hE s).symm.trans (interface_some3 eps scale dx dy dz w N M K lo0 lo1 lo2 (phi s))))
  have dE := energy_deriv3 N M K lo0 lo1 lo2 eps dx dy dz w phi v t hphi hv
    (fun _ _ _ x => scale * (16 * x * x * (1 - x) * (1 - x)))
    (fun i j k => scale * (32 * phi t i j k * (1 - phi t i j k) * (1 - 2 * phi t i j k))) (fun i j k => well_deriv scale _)
  rw [← hE'] at dE
  set κ := share3 kind with hκ
  set u : ℝ → Field3 := fun s i j k => T s i j k - tm with hu
  set q : Field3 := rhsTemp3 dx dy dz D L true (T t) (fun _ _ _ => cp) v with hq
  have hup : ∀ s, Periodic3 N M K (u s) := fun s => ⟨fun i j k => by simp only [hu, (hT s).1],
    fun i j k => by simp only [hu, (hT s).2.1], fun i j k => by simp only [hu, (hT s).2.2]⟩
  have hud : ∀ i j k, HasDerivAt (fun s => u s i j k) (q i j k) t := fun i j k => (hTd i j k).sub_const tm
  have hqp : Periodic3 N M K q := Periodic3.deriv hup hud
  have hsd : ∀ i j k, HasDerivAt (fun s => smooth3 κ (u s) i j k) (smooth3 κ q i j k) t := fun i j k =>
    (hud i j k).add ((((((((hud _ _ _).add (hud _ _ _)).add (hud _ _ _)).add (hud _ _ _)).add (hud _ _ _)).add (hud _ _ _)).sub
      ((hud i j k).const_mul 6)).const_mul κ)
  have dS := S3_deriv (N := N) (M := M) (K := K) (lo0 := lo0) (lo1 := lo1) (lo2 := lo2) fun i j k => (hud i j k).mul (hsd i j k)
  have symm := smooth3_symm (lo0 := lo0) (lo1 := lo1) (lo2 := lo2) κ q (u t) hqp (hup t)
  have dS2 : HasDerivAt (fun s => S3 N M K lo0 lo1 lo2 fun i j k => u s i j k * smooth3 κ (u s) i j k)
      (2 * S3 N M K lo0 lo1 lo2 fun i j k => smooth3 κ (u t) i j k * q i j k) t := by
    refine dS.congr_deriv ?_
    rw [S3_add, symm]
    have : S3 N M K lo0 lo1 lo2 (fun i j k => q i j k * smooth3 κ (u t) i j k) =
        S3 N M K lo0 lo1 lo2 fun i j k => smooth3 κ (u t) i j k * q i j k := S3_congr fun i j k => mul_comm _ _
    rw [this]; ring
  have hlap : ∀ i j k, laplacian3 dx dy dz D (T t) i j k = laplacian3 dx dy dz D (u t) i j k := by
    intro i j k; simp only [laplacian3, hu]; ring
  have parts := parts3 (lo0 := lo0) (lo1 := lo1) (lo2 := lo2) dx dy dz D (smooth3 κ (u t)) (u t) (smooth3_periodic κ (hup t)) (hup t)
  have hflow : S3 N M K lo0 lo1 lo2 (fun i j k => smooth3 κ (u t) i j k * q i j k) =
      -D * covar3 N M K lo0 lo1 lo2 dx dy dz (smooth3 κ (u t)) (u t)
        + L / cp * S3 N M K lo0 lo1 lo2 fun i j k => smooth3 κ (u t) i j k * v i j k := by
    rw [← parts, ← S3_mul, ← S3_add]
    refine S3_congr fun i j k => ?_
    simp only [hq, rhsTemp3, if_true, hlap]
    ring
  refine (dE.add ((dS2.const_mul (cp / (2 * tm))).const_mul w)).congr_deriv ?_
  rw [hflow]
  have hint : (S3 N M K lo0 lo1 lo2 fun i j k =>
      (-div3 dx dy dz (gradFlux3X eps dx (phi t)) (gradFlux3Y eps dy (phi t)) (gradFlux3Z eps dz (phi t)) i j k
        + scale * (32 * phi t i j k * (1 - phi t i j k) * (1 - 2 * phi t i j k))) * v i j k * w) =
      w * (-(S3 N M K lo0 lo1 lo2 fun i j k => mob i j k * netForce3 kind eps scale dx dy dz tm L hp (T t) (phi t) i j k ^ 2)
        - L / tm * S3 N M K lo0 lo1 lo2 fun i j k => smooth3 κ (u t) i j k * hp i j k * v i j k) := by
    rw [mul_sub, mul_neg, ← mul_assoc, ← S3_mul, ← S3_mul, ← neg_one_mul, ← S3_mul, ← S3_sub]
    refine S3_congr fun i j k => ?_
    simp only [hnet, netForce3]
    ring
  rw [hint]
  have hcomb : (S3 N M K lo0 lo1 lo2 fun i j k => mob i j k * netForce3 kind eps scale dx dy dz tm L hp (T t) (phi t) i j k
              * smooth3 κ (u t) i j k * (1 - hp i j k)) =
      S3 N M K lo0 lo1 lo2 (fun i j k => smooth3 κ (u t) i j k * v i j k)
        - S3 N M K lo0 lo1 lo2 fun i j k => smooth3 κ (u t) i j k * hp i j k * v i j k := by
    rw [← S3_sub]
    exact S3_congr fun i j k => by rw [hnet]; ring
  rw [hcomb]
  field_simp
  ring

theorem share3_bounds (kind : Kind) : 0 ≤ share3 kind ∧ share3 kind < 1 / 12 := by
  cases kind <;> norm_num [share3]

/-- **C108** (second law, linear interpolation, 3D).  Missing: the other interpolations. -/
theorem c108_decay3_partial (kind : Kind) (N M K : ℕ) (lo0 lo1 lo2 : ℤ) (eps scale dx dy dz fa tm L cp D w : ℝ) (mob : Field3)
    (phi T : ℝ → Field3) (t : ℝ) (htm : 0 < tm) (hcp : 0 < cp) (hD : 0 ≤ D) (hw : 0 ≤ w) (hm : ∀ i j k, 0 ≤ mob i j k)
    (hphi : ∀ s, Periodic3 N M K (phi s)) (hT : ∀ s, Periodic3 N M K (T s))
    (h : Follows3 kind 'l' eps scale dx dy dz fa tm L cp D mob phi T t) (E : ℝ → ℝ)
    (hE : ∀ s, interfaceEnergy3 eps scale dx dy dz (fun _ => w) lo0 (lo0 + N - 1) lo1 (lo1 + M - 1) lo2 (lo2 + K - 1) (phi s)
      = some (E s)) :
    ∃ d ≤ 0, HasDerivAt (fun s => E s + w * stored3 kind N M K lo0 lo1 lo2 cp tm (T s)) d t := by
  obtain ⟨hp, hh, hd⟩ := c108_balance3 kind 'l' N M K lo0 lo1 lo2 eps scale dx dy dz fa tm L cp D w mob phi T t htm.ne' hcp.ne'
    hphi hT h E hE
  have h1 : ∀ i j k, hp i j k = 1 := fun i j k => (Option.some.inj ((slope_linear _).symm.trans (hh i j k))).symm
  refine ⟨_, ?_, hd⟩
  have z : (S3 N M K lo0 lo1 lo2 fun i j k => mob i j k * netForce3 kind eps scale dx dy dz tm L hp (T t) (phi t) i j k
              * smooth3 (share3 kind) (fun i j k => T t i j k - tm) i j k * (1 - hp i j k)) = 0 := by
    rw [S3_congr (g := fun _ _ _ => 0) fun i j k => by rw [h1]; ring]
    simp [S3]
  rw [z, mul_zero, add_zero]
  have p1 : 0 ≤ S3 N M K lo0 lo1 lo2 fun i j k => mob i j k * netForce3 kind eps scale dx dy dz tm L hp (T t) (phi t) i j k ^ 2 :=
    S3_nonneg fun i j k => mul_nonneg (hm i j k) (sq_nonneg _)
  have p2 := covar3_smooth_nonneg (N := N) (M := M) (K := K) (lo0 := lo0) (lo1 := lo1) (lo2 := lo2) (share3_bounds kind).1
    (share3_bounds kind).2.le dx dy dz (fun i j k => T t i j k - tm)
    (sub_periodic (hT t) ⟨fun _ _ _ => rfl, fun _ _ _ => rfl, fun _ _ _ => rfl⟩)
  have p3 : 0 ≤ cp / tm * D * covar3 N M K lo0 lo1 lo2 dx dy dz (smooth3 (share3 kind) fun i j k => T t i j k - tm)
      (fun i j k => T t i j k - tm) := mul_nonneg (mul_nonneg (by positivity) hD) p2
  exact mul_nonpos_of_nonneg_of_nonpos hw (by linarith)

/-- **C108** (linear interpolation, all times, 3D). -/
theorem c108_monotone3_partial (kind : Kind) (N M K : ℕ) (lo0 lo1 lo2 : ℤ) (eps scale dx dy dz fa tm L cp D w : ℝ) (mob : ℝ → Field3)
    (phi T : ℝ → Field3) (htm : 0 < tm) (hcp : 0 < cp) (hD : 0 ≤ D) (hw : 0 ≤ w) (hm : ∀ t i j k, 0 ≤ mob t i j k)
    (hphi : ∀ s, Periodic3 N M K (phi s)) (hT : ∀ s, Periodic3 N M K (T s))
    (h : ∀ t, Follows3 kind 'l' eps scale dx dy dz fa tm L cp D (mob t) phi T t) (E : ℝ → ℝ)
    (hE : ∀ s, interfaceEnergy3 eps scale dx dy dz (fun _ => w) lo0 (lo0 + N - 1) lo1 (lo1 + M - 1) lo2 (lo2 + K - 1) (phi s)
      = some (E s)) :
    Antitone fun s => E s + w * stored3 kind N M K lo0 lo1 lo2 cp tm (T s) := by
  have key := fun t => c108_decay3_partial kind N M K lo0 lo1 lo2 eps scale dx dy dz fa tm L cp D w (mob t) phi T t htm hcp hD hw (hm t)
    hphi hT (h t) E hE
  choose d hd0 hd using key
  exact antitone_of_deriv_nonpos (fun t => (hd t).differentiableAt) fun t => by rw [(hd t).deriv]; exact hd0 t

/-- The hypotheses are met by a run: everything solid at the melting temperature stays so. -/
example : ∀ t, Follows3 .delta 'l' 1 1 1 1 1 0 1 4 1 1 (fun _ _ _ => 1) (fun _ _ _ _ => 1) (fun _ _ _ _ => 1) t := by
  intro t
  refine ⟨fun _ _ _ => 0, fun i j k => hasDerivAt_const t (1 : ℝ), fun i j k => ?_, fun i j k => ?_⟩
  · have hs : derivInterpFunc 'l' 1 = some 1 := slope_linear 1
    simp only [phaseRate3, addForce3, deltaTemperature3, hs]
    simp [pbgCell, derivWellFunc, div3, gradFlux3X, gradFlux3Y, gradFlux3Z]
    norm_num
  · exact (hasDerivAt_const t (1 : ℝ)).congr_deriv (by simp [rhsTemp3, laplacian3]; norm_num)

end AMPE.MeltFlow.Props
