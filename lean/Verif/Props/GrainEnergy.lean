import Verif.Model.GrainEnergy
import Verif.Proofs.MeltFlow
import Verif.Props.Quat
import Verif.Props.QuatDissipation

/-!
# C116: grain boundaries — one energy for the phase and for the orientations

The energy is the one the program reports (`grainEnergy`), the force on the phase the one it integrates (`grainRate`), the
force on the orientations the flux built with the program's face coefficient (`faceCoef`).
-/

namespace AMPE.GrainEnergy.Props

open AMPE.Functions AMPE.Functions.Props AMPE.Flux AMPE.PhaseRHS AMPE.PhaseRHS.Props AMPE.EnergyReport AMPE.QuatFlow
  AMPE.Tagging AMPE.OrientSolve AMPE.OrientSolve.Props AMPE.MeltFlow AMPE.GrainEnergy AMPE.Quat AMPE.Quat.Props

/-- Specification: minus the force of the reported orientation energy on the phase of cell `(i,j)`, per volume.  `d1`, `d2` are the
derivatives of the two weights of the orientation energies, `fl` is what is added to the squared gradients. -/
noncomputable def pull (H epsQ fl : ℝ) (d1 d2 : ℝ → ℝ) (sX sY T phi : Field2) (i j : ℤ) : ℝ :=
  2 * H * (((T (i - 1) j + T i j) / 2 * Real.sqrt (sX i j + fl) * d1 ((phi (i - 1) j + phi i j) / 2)
      + (T i j + T (i + 1) j) / 2 * Real.sqrt (sX (i + 1) j + fl) * d1 ((phi i j + phi (i + 1) j) / 2)
      + (T i (j - 1) + T i j) / 2 * Real.sqrt (sY i j + fl) * d1 ((phi i (j - 1) + phi i j) / 2)
      + (T i j + T i (j + 1)) / 2 * Real.sqrt (sY i (j + 1) + fl) * d1 ((phi i j + phi i (j + 1)) / 2)) / 4)
    + epsQ ^ 2 / 2 * d2 (phi i j) * ((sX i j + sX (i + 1) j + sY i j + sY i (j + 1)) / 4)

/-- Specification: the force the phase equation of the model contains, with one modulus `g` per cell. -/
noncomputable def push (H epsQ : ℝ) (d1 d2 : ℝ → ℝ) (T g phi : ℝ) : ℝ :=
  2 * H * T * d1 phi * g + epsQ ^ 2 / 2 * d2 phi * g ^ 2

theorem shift_sum {N M : ℕ} {lo0 lo1 : ℤ} {f g : Field2} (hf : Periodic2 N M f) (hg : Periodic2 N M g) :
    S2 N M lo0 lo1 (fun i j => f i j - f (i + 1) j - (g i j - g (i + 1) j)) = 0 := by
  rw [S2_sub, S2_sub, S2_sub, S2_xp hf, S2_xp hg]; ring

theorem shift_sum' {N M : ℕ} {lo0 lo1 : ℤ} {f g : Field2} (hf : Periodic2 N M f) (hg : Periodic2 N M g) :
    S2 N M lo0 lo1 (fun i j => f i j - f i (j + 1) - (g i j - g i (j + 1))) = 0 := by
  rw [S2_sub, S2_sub, S2_sub, S2_yp hf, S2_yp hg]; ring

section
variable {N M : ℕ}

theorem _root_.AMPE.PhaseRHS.Periodic2.map2 {u v : Field2} (hu : Periodic2 N M u) (hv : Periodic2 N M v) (F : ℝ → ℝ → ℝ) :
    Periodic2 N M fun i j => F (u i j) (v i j) :=
  ⟨fun i j => by beta_reduce; rw [hu.1, hv.1], fun i j => by beta_reduce; rw [hu.2, hv.2]⟩

theorem _root_.AMPE.PhaseRHS.Periodic2.west {u : Field2} (hu : Periodic2 N M u) : Periodic2 N M fun i j => u (i - 1) j :=
  ⟨fun i j => by beta_reduce; rw [show i + (N : ℤ) - 1 = i - 1 + N by ring, hu.1], fun i j => by beta_reduce; rw [hu.2]⟩

theorem _root_.AMPE.PhaseRHS.Periodic2.south {u : Field2} (hu : Periodic2 N M u) : Periodic2 N M fun i j => u i (j - 1) :=
  ⟨fun i j => by beta_reduce; rw [hu.1], fun i j => by beta_reduce; rw [show j + (M : ℤ) - 1 = j - 1 + M by ring, hu.2]⟩

end

/-- The derivative of the orientation energies along a curve of phase fields. -/
theorem orient_deriv (N M : ℕ) (lo0 lo1 : ℤ) (H epsQ fl w : ℝ) (P1 D1 P2 D2 : ℝ → ℝ) (h1 : ∀ x, HasDerivAt P1 (D1 x) x)
    (h2 : ∀ x, HasDerivAt P2 (D2 x) x) (sX sY T : Field2) (phi : ℝ → Field2) (v : Field2) (t : ℝ)
    (hX : Periodic2 N M sX) (hY : Periodic2 N M sY) (hT : Periodic2 N M T) (hper : ∀ s, Periodic2 N M (phi s))
    (hv : ∀ i j, HasDerivAt (fun s => phi s i j) (v i j) t) :
    HasDerivAt (fun s => S2 N M lo0 lo1 (fun i j =>
        orientCell2 fl (T i j) (2 * H) (sX i j) (sX (i + 1) j) (sY i j) (sY i (j + 1))
          (P1 (0.5 * (phi s (i - 1) j + phi s i j))) (P1 (0.5 * (phi s i j + phi s (i + 1) j)))
          (P1 (0.5 * (phi s i (j - 1) + phi s i j))) (P1 (0.5 * (phi s i j + phi s i (j + 1)))) * w
        + (sX i j + sX (i + 1) j + sY i j + sY i (j + 1)) * 0.25 * (0.5 * epsQ * epsQ) * P2 (phi s i j) * w))
      (S2 N M lo0 lo1 (fun i j => w * pull H epsQ fl D1 D2 sX sY T (phi t) i j * v i j)) t := by
  have hvp := Periodic2.deriv hper hv
  let aX : Field2 := fun i j => Real.sqrt (sX i j + fl) * D1 ((phi t (i - 1) j + phi t i j) / 2)
  let aY : Field2 := fun i j => Real.sqrt (sY i j + fl) * D1 ((phi t i (j - 1) + phi t i j) / 2)
  have haX : Periodic2 N M aX := (hX.map2 ((hper t).west.map2 (hper t) fun x y => x + y)
    fun x y => Real.sqrt (x + fl) * D1 (y / 2))
  have haY : Periodic2 N M aY := (hY.map2 ((hper t).south.map2 (hper t) fun x y => x + y)
    fun x y => Real.sqrt (x + fl) * D1 (y / 2))
  have cell : ∀ i j, HasDerivAt (fun s =>
        orientCell2 fl (T i j) (2 * H) (sX i j) (sX (i + 1) j) (sY i j) (sY i (j + 1))
          (P1 (0.5 * (phi s (i - 1) j + phi s i j))) (P1 (0.5 * (phi s i j + phi s (i + 1) j)))
          (P1 (0.5 * (phi s i (j - 1) + phi s i j))) (P1 (0.5 * (phi s i j + phi s i (j + 1)))) * w
        + (sX i j + sX (i + 1) j + sY i j + sY i (j + 1)) * 0.25 * (0.5 * epsQ * epsQ) * P2 (phi s i j) * w)
      (w * (H / 4) * T i j * (aX i j * (v (i - 1) j + v i j) + aX (i + 1) j * (v i j + v (i + 1) j)
          + aY i j * (v i (j - 1) + v i j) + aY i (j + 1) * (v i j + v i (j + 1)))
        + (sX i j + sX (i + 1) j + sY i j + sY i (j + 1)) * 0.25 * (0.5 * epsQ * epsQ) * (D2 (phi t i j) * v i j) * w) t := by
    intro i j
    have face : ∀ (i j i' j' : ℤ), HasDerivAt (fun s => P1 (0.5 * (phi s i j + phi s i' j')))
        (D1 ((phi t i j + phi t i' j') / 2) * (0.5 * (v i j + v i' j'))) t := by
      intro i j i' j'
      have e : (phi t i j + phi t i' j') / 2 = 0.5 * (phi t i j + phi t i' j') := by norm_num; ring
      rw [e]
      exact (h1 _).comp t (((hv i j).add (hv i' j')).const_mul 0.5)
    have q := (h2 (phi t i j)).comp t (hv i j)
    have o := ((((((face (i - 1) j i j).const_mul (Real.sqrt (sX i j + fl))).add
      ((face i j (i + 1) j).const_mul (Real.sqrt (sX (i + 1) j + fl)))).add
      ((face i (j - 1) i j).const_mul (Real.sqrt (sY i j + fl)))).add
      ((face i j i (j + 1)).const_mul (Real.sqrt (sY i (j + 1) + fl)))).mul_const (T i j)).mul_const (0.25 * (2 * H))
    refine ((o.mul_const w).add ((q.const_mul _).mul_const w)).congr_deriv ?_
    simp only [aX, aY, add_sub_cancel_right]
    norm_num
    ring
  refine (S2_deriv (N := N) (M := M) (lo0 := lo0) (lo1 := lo1) cell).congr_deriv ?_
  have hfx : Periodic2 N M fun i j => T i j * aX i j * v (i - 1) j :=
    (hT.map2 haX fun x y => x * y).map2 hvp.west fun x y => x * y
  have hgx : Periodic2 N M fun i j => v i j * T (i - 1) j * aX i j :=
    (hvp.map2 hT.west fun x y => x * y).map2 haX fun x y => x * y
  have hfy : Periodic2 N M fun i j => T i j * aY i j * v i (j - 1) :=
    (hT.map2 haY fun x y => x * y).map2 hvp.south fun x y => x * y
  have hgy : Periodic2 N M fun i j => v i j * T i (j - 1) * aY i j :=
    (hvp.map2 hT.south fun x y => x * y).map2 haY fun x y => x * y
  have zx := shift_sum (lo0 := lo0) (lo1 := lo1) hfx hgx
  have zy := shift_sum' (lo0 := lo0) (lo1 := lo1) hfy hgy
  rw [← sub_eq_zero, ← S2_sub]
  have zz : w * (H / 4) * (S2 N M lo0 lo1 (fun i j => T i j * aX i j * v (i - 1) j
        - T (i + 1) j * aX (i + 1) j * v (i + 1 - 1) j
        - (v i j * T (i - 1) j * aX i j - v (i + 1) j * T (i + 1 - 1) j * aX (i + 1) j))
      + S2 N M lo0 lo1 (fun i j => T i j * aY i j * v i (j - 1) - T i (j + 1) * aY i (j + 1) * v i (j + 1 - 1)
        - (v i j * T i (j - 1) * aY i j - v i (j + 1) * T i (j + 1 - 1) * aY i (j + 1)))) = 0 := by
    rw [zx, zy]; ring
  rw [← zz, ← S2_add, ← S2_mul]
  refine S2_congr fun i j => ?_
  simp only [pull, aX, aY, add_sub_cancel_right]
  norm_num
  ring

/-- **C116** (balance of the phase): along any curve of periodic phase fields, with orientations and temperature held, the reported
energy changes at minus the sum over the cells of volume × (rate + `push` − `pull`) × velocity.  The phase rate is therefore minus
the gradient of the reported energy exactly when `push = pull` in every cell, whatever array of moduli `mod` is used. -/
theorem c116_gradient (P : Params) (h1 : P.interp1 ∈ derivGood) (h2 : P.interp2 ∈ derivGood) (ha : P.avg = 'a') (ty : Char)
    (hty : ty ∈ derivGood) (N M : ℕ) (lo0 lo1 : ℤ) (eps scale dx dy w : ℝ) (fl fa sX sY T mod : Field2)
    (phi : ℝ → Field2) (v : Field2) (t : ℝ) (hX : Periodic2 N M sX) (hY : Periodic2 N M sY) (hT : Periodic2 N M T)
    (hper : ∀ s, Periodic2 N M (phi s)) (hv : ∀ i j, HasDerivAt (fun s => phi s i j) (v i j) t) :
    ∃ D1 D2 : ℝ → ℝ, Computes (derivInterpFunc P.interp1) D1 ∧ Computes (derivInterpFunc P.interp2) D2 ∧
      ∃ E : ℝ → ℝ, ∃ r : Field2,
        (∀ s, grainEnergy P ty eps scale dx dy fl fa (fun _ => w) lo0 (lo0 + N - 1) lo1 (lo1 + M - 1) sX sY T (phi s) =
          some (E s)) ∧
        (∀ i j, grainRate P ty scale dx dy (gradFluxX eps dx (phi t)) (gradFluxY eps dy (phi t)) fl fa T mod (phi t) i j =
          some (r i j)) ∧
        HasDerivAt E (-∑ b ∈ Finset.range M, ∑ a ∈ Finset.range N,
          w * (r (lo0 + (a : ℤ)) (lo1 + (b : ℤ))
            + push P.H P.epsQ D1 D2 (T (lo0 + (a : ℤ)) (lo1 + (b : ℤ))) (mod (lo0 + (a : ℤ)) (lo1 + (b : ℤ)))
              (phi t (lo0 + (a : ℤ)) (lo1 + (b : ℤ)))
            - pull P.H P.epsQ (floor2 P.floorType P.floor) D1 D2 sX sY T (phi t) (lo0 + (a : ℤ)) (lo1 + (b : ℤ)))
          * v (lo0 + (a : ℤ)) (lo1 + (b : ℤ))) t := by
  obtain ⟨P1, D1, hP1, hD1, hd1⟩ := good_kind _ h1
  obtain ⟨P2, D2, hP2, hD2, hd2⟩ := good_kind _ h2
  obtain ⟨E0, r0, hE0, hr0, hd0⟩ := c33_gradient_2d ty hty N M lo0 lo1 eps scale dx dy w fl fa phi v t hper hv
  have ho := orient_deriv N M lo0 lo1 P.H P.epsQ (floor2 P.floorType P.floor) w P1 D1 P2 D2 hd1 hd2 sX sY T phi v t hX hY hT
    hper hv
  refine ⟨D1, D2, hD1, hD2, _, fun i j => r0 i j - push P.H P.epsQ D1 D2 (T i j) (mod i j) (phi t i j), fun s => ?_,
    fun i j => ?_, (hd0.add ho).congr_deriv ?_⟩
  · unfold grainEnergy
    simp only [Option.bind_eq_bind]
    rw [hE0 s]
    have fw : ∀ a b : ℝ, faceW P.interp1 P.avg a b = some (P1 (0.5 * (a + b))) := by
      intro a b; simp [faceW, ha, averageFunc, hP1 _]
    rw [Option.bind_some, accumulate_some _ (fun c : ℤ × ℤ =>
        orientCell2 (floor2 P.floorType P.floor) (T c.1 c.2) (2 * P.H) (sX c.1 c.2) (sX (c.1 + 1) c.2) (sY c.1 c.2)
          (sY c.1 (c.2 + 1)) (P1 (0.5 * (phi s (c.1 - 1) c.2 + phi s c.1 c.2)))
          (P1 (0.5 * (phi s c.1 c.2 + phi s (c.1 + 1) c.2))) (P1 (0.5 * (phi s c.1 (c.2 - 1) + phi s c.1 c.2)))
          (P1 (0.5 * (phi s c.1 c.2 + phi s c.1 (c.2 + 1))))) _
        (fun c => by simp [orientEnergyCell, fw]),
      Option.bind_some, accumulate_some _ (fun c : ℤ × ℤ =>
        (sX c.1 c.2 + sX (c.1 + 1) c.2 + sY c.1 c.2 + sY c.1 (c.2 + 1)) * 0.25 * (0.5 * P.epsQ * P.epsQ) *
          P2 (phi s c.1 c.2)) _ (fun c => by simp [qintEnergyCell, hP2 _]), Option.bind_some]
    rw [loop2_sum, loop2_sum, add_assoc, ← Finset.sum_add_distrib]
    simp only [Pi.add_apply, S2, ← Finset.sum_add_distrib]
  · have hr := hr0 i j
    simp only [PhaseRHS.phaseRate2, pbgCell, fenergyCell, Option.bind_eq_bind, Option.bind_eq_some_iff, Option.some.injEq] at hr
    obtain ⟨x, ⟨g, hg, hx⟩, h, hh, e⟩ := hr
    simp only [Bool.false_eq_true, if_false, Option.bind_some, Option.some.injEq] at hx
    simp only [grainRate, pbgCell, fenergyCell, Option.bind_eq_bind, hg, Option.bind_some, Bool.false_eq_true, if_false, if_true,
      hD1 _, hD2 _, hh]
    rw [← e, ← hx]
    congr 1
    simp only [push]
    norm_num
    ring
  · simp only [S2, ← Finset.sum_neg_distrib, ← Finset.sum_add_distrib]
    exact Finset.sum_congr rfl fun b _ => Finset.sum_congr rfl fun a _ => by ring

/-- **C116** (uniform grain boundary): where phase, temperature and |grad q| do not vary over the cell's stencil, and no floor is added
to the reported modulus, the force in the phase equation is that of the reported energy. -/
theorem c116_uniform (H epsQ : ℝ) (d1 d2 : ℝ → ℝ) (sX sY T phi : Field2) (i j : ℤ) (g : ℝ) (hg : 0 ≤ g)
    (hx : sX i j = g ^ 2) (hx1 : sX (i + 1) j = g ^ 2) (hy : sY i j = g ^ 2) (hy1 : sY i (j + 1) = g ^ 2)
    (hT : T (i - 1) j = T i j ∧ T (i + 1) j = T i j ∧ T i (j - 1) = T i j ∧ T i (j + 1) = T i j)
    (hp : phi (i - 1) j = phi i j ∧ phi (i + 1) j = phi i j ∧ phi i (j - 1) = phi i j ∧ phi i (j + 1) = phi i j) :
    pull H epsQ 0 d1 d2 sX sY T phi i j = push H epsQ d1 d2 (T i j) g (phi i j) := by
  unfold pull push
  rw [hx, hx1, hy, hy1, hT.1, hT.2.1, hT.2.2.1, hT.2.2.2, hp.1, hp.2.1, hp.2.2.1, hp.2.2.2, add_zero, Real.sqrt_sq hg,
    show (phi i j + phi i j) / 2 = phi i j by ring]
  ring

/-- **C116** (varying phase): with the default weight `q` and nonnegative phases the two forces differ by a second difference of the
phase, so they agree where the phase varies linearly across the cell. -/
theorem c116_second_order (H epsQ : ℝ) (d2 : ℝ → ℝ) (sX sY T phi : Field2) (i j : ℤ) (g : ℝ) (hg : 0 ≤ g)
    (hx : sX i j = g ^ 2) (hx1 : sX (i + 1) j = g ^ 2) (hy : sY i j = g ^ 2) (hy1 : sY i (j + 1) = g ^ 2)
    (hT : T (i - 1) j = T i j ∧ T (i + 1) j = T i j ∧ T i (j - 1) = T i j ∧ T i (j + 1) = T i j)
    (hp : ∀ a b, 0 ≤ phi a b) (d1 : ℝ → ℝ) (hd : Computes (derivInterpFunc 'q') d1) :
    pull H epsQ 0 d1 d2 sX sY T phi i j = push H epsQ d1 d2 (T i j) g (phi i j) +
      2 * H * T i j * g * ((phi (i - 1) j - 2 * phi i j + phi (i + 1) j) + (phi i (j - 1) - 2 * phi i j + phi i (j + 1))) / 4 := by
  have e : ∀ x, 0 ≤ x → d1 x = 2 * x := by
    intro x h
    have := hd x
    simp only [derivInterpFunc, if_true, Option.some.injEq] at this
    rw [← this, pos, max_eq_right h]
  unfold pull push
  rw [hx, hx1, hy, hy1, hT.1, hT.2.1, hT.2.2.1, hT.2.2.2, add_zero, Real.sqrt_sq hg, e _ (by linarith [hp (i - 1) j, hp i j]),
    e _ (by linarith [hp (i + 1) j, hp i j]), e _ (by linarith [hp i (j - 1), hp i j]),
    e _ (by linarith [hp i (j + 1), hp i j]), e _ (hp i j)]
  ring

/-- **C116** (violated with the `sqrt` floor): where the orientation is uniform the program's phase equation has no orientation force,
but the reported energy pulls the phase by `2 H T floor p'(phi)`. -/
theorem c116_violation_floor_force (H epsQ floor : ℝ) (hf : 0 ≤ floor) (d1 d2 : ℝ → ℝ) (T phi : ℝ) (i j : ℤ) :
    pull H epsQ (floor2 's' floor) d1 d2 (fun _ _ => 0) (fun _ _ => 0) (fun _ _ => T) (fun _ _ => phi) i j =
      push H epsQ d1 d2 T 0 phi + 2 * H * T * floor * d1 phi := by
  unfold pull push floor2
  rw [if_pos rfl, zero_add, Real.sqrt_mul_self hf, show (phi + phi) / 2 = phi by ring]
  ring

/-- **C116** (violated): with the `sqrt` floor the reported energy can grow along the computed phase rate, for all parameters.  Uniform
orientation, uniform phase slightly above 1/2, equal bulk energies. -/
theorem c116_violation_energy_grows (P : Params) (hs : P.floorType = 's') (h1 : P.interp1 = 'q') (h2 : P.interp2 ∈ derivGood)
    (ha : P.avg = 'a') (hH : 0 < P.H) (hfl : 0 < P.floor) (ty : Char) (hty : ty ∈ derivGood) (N M : ℕ) (hN : 0 < N)
    (hM : 0 < M) (lo0 lo1 : ℤ) (eps scale dx dy w mob T : ℝ) (hsc : 0 < scale) (hw : 0 < w) (hmob : 0 < mob) (hT : 0 < T)
    (f : Field2) :
    ∃ x r : ℝ, 1 / 2 < x ∧ x < 1 ∧
      (∀ i j, grainRate P ty scale dx dy (gradFluxX eps dx (fun _ _ => x)) (gradFluxY eps dy (fun _ _ => x)) f f
        (fun _ _ => T) (fun _ _ => 0) (fun _ _ => x) i j = some r) ∧
      ∃ E : ℝ → ℝ, (∀ s, grainEnergy P ty eps scale dx dy f f (fun _ => w) lo0 (lo0 + N - 1) lo1 (lo1 + M - 1) (fun _ _ => 0)
          (fun _ _ => 0) (fun _ _ => T) (fun _ _ => x + mob * r * s) = some (E s)) ∧
        ∃ E', 0 < E' ∧ HasDerivAt E E' 0 := by
  obtain ⟨δ, hδ0, hδ1, hδ2⟩ : ∃ δ : ℝ, 0 < δ ∧ δ ≤ 1 / 4 ∧ 16 * scale * δ < 2 * P.H * T * P.floor := by
    refine ⟨min (1 / 4) (P.H * T * P.floor / (16 * scale)), lt_min (by norm_num) (by positivity), min_le_left _ _, ?_⟩
    have hle : min (1 / 4) (P.H * T * P.floor / (16 * scale)) ≤ P.H * T * P.floor / (16 * scale) := min_le_right _ _
    have := mul_le_mul_of_nonneg_left hle (by positivity : 0 ≤ 16 * scale)
    rw [mul_div_cancel₀ _ (by positivity : 16 * scale ≠ 0)] at this
    have : 0 < P.H * T * P.floor := by positivity
    linarith
  set x : ℝ := 1 / 2 + δ with hx
  set r : ℝ := -(scale * (32 * x * (1 - x) * (1 - 2 * x))) with hr
  have hr0 : 0 < r := by
    have : r = 64 * scale * (x * (1 - x) * δ) := by rw [hr, hx]; ring
    rw [this]
    have a1 : 0 < 1 - x := by rw [hx]; linarith
    have a2 : 0 < x := by rw [hx]; linarith
    positivity
  have hr1 : r ≤ 16 * scale * δ := by
    have : r = 16 * scale * δ - 64 * scale * δ ^ 3 := by rw [hr, hx]; ring
    rw [this]
    have : 0 ≤ 64 * scale * δ ^ 3 := by positivity
    linarith
  have hv : ∀ i j : ℤ, HasDerivAt (fun s : ℝ => (fun _ _ => x + mob * r * s : Field2) i j) (mob * r) 0 := fun i j => by
    have := ((hasDerivAt_id' (0 : ℝ)).const_mul (mob * r)).const_add x
    simpa using this
  have hc : ∀ c : ℝ, Periodic2 N M (fun _ _ => c) := fun c => ⟨fun _ _ => rfl, fun _ _ => rfl⟩
  obtain ⟨D1, D2, hD1, hD2, E, r', hE, hr', hd⟩ := c116_gradient P (by rw [h1]; decide) h2 ha ty hty N M lo0 lo1 eps scale dx dy w
    f f (fun _ _ => 0) (fun _ _ => 0) (fun _ _ => T) (fun _ _ => 0) (fun s _ _ => x + mob * r * s) (fun _ _ => mob * r) 0
    (hc 0) (hc 0) (hc T) (fun s => hc _) hv
  obtain ⟨Ht, Ht', _, hHt', _⟩ := good_kind ty hty
  have e0 : ∀ i j, grainRate P ty scale dx dy (gradFluxX eps dx (fun _ _ => x)) (gradFluxY eps dy (fun _ _ => x)) f f
        (fun _ _ => T) (fun _ _ => 0) (fun _ _ => x) i j = some r := by
    intro i j
    simp only [grainRate, pbgCell, fenergyCell, Option.bind_eq_bind, derivWellFunc, if_true, Option.bind_some, Bool.false_eq_true,
      if_false, hD1 _, hD2 _, hHt' _, div2, gradFluxX, gradFluxY]
    congr 1
    rw [hr]
    ring
  have hD : D1 x = 2 * x := by
    have := hD1 x
    rw [h1] at this
    simp only [derivInterpFunc, if_true, Option.some.injEq] at this
    rw [← this, pos, max_eq_right (by rw [hx]; linarith)]
  refine ⟨x, r, by rw [hx]; linarith, by rw [hx]; linarith, e0, E, hE, _, ?_, hd⟩
  have er : ∀ i j, r' i j = r := by
    intro i j
    have := hr' i j
    simp only [mul_zero, add_zero] at this
    exact Option.some.inj (this.symm.trans (e0 i j))
  have cellv : ∀ i j : ℤ, w * (r' i j + push P.H P.epsQ D1 D2 T 0 (x + mob * r * 0)
      - pull P.H P.epsQ (floor2 P.floorType P.floor) D1 D2 (fun _ _ => 0) (fun _ _ => 0) (fun _ _ => T)
        (fun _ _ => x + mob * r * 0) i j) * (mob * r) = -(w * mob * r * (2 * P.H * T * P.floor * (2 * x) - r)) := by
    intro i j
    rw [hs, c116_violation_floor_force _ _ _ hfl.le, er, mul_zero, add_zero, hD]
    ring
  simp only [cellv, Finset.sum_const, Finset.card_range, nsmul_eq_mul]
  have : 0 < 2 * P.H * T * P.floor * (2 * x) - r := by
    have : 2 * P.H * T * P.floor * 1 ≤ 2 * P.H * T * P.floor * (2 * x) :=
      mul_le_mul_of_nonneg_left (by rw [hx]; linarith) (by positivity)
    linarith
  have hN' : (0 : ℝ) < N := by exact_mod_cast hN
  have hM' : (0 : ℝ) < M := by exact_mod_cast hM
  rw [mul_neg, mul_neg, neg_neg]
  positivity

/-! ## The modulus seen by the phase -/

/-- The side gradients of a run without symmetry. -/
noncomputable def grads {n : ℕ} (hx hy : ℝ) (q : QField n) : SideGrad n :=
  sideGrad false hx hy (RotOps.plain n) (qdiffX (fun _ _ => id) q) (qdiffY (fun _ _ => id) q) (qdiffX (fun _ _ => id) q)
    (qdiffY (fun _ _ => id) q)

theorem modCells_eq {n : ℕ} (gx gy : QField n) (i j : ℤ) :
    modCells gx gy i j = Real.sqrt (∑ m, (gx i j m ^ 2 + gy i j m ^ 2)) := by
  unfold modCells
  have : ∀ (l : List (Fin n)) (s : ℝ), l.foldl (fun s m => s + gx i j m * gx i j m + gy i j m * gy i j m) s =
      l.foldl (fun s m => s + (gx i j m ^ 2 + gy i j m ^ 2)) s := by
    intro l
    induction l with
    | nil => intro s; rfl
    | cons m l ih => intro s; simp only [List.foldl_cons]; rw [ih]; congr 1; ring
  rw [this]
  congr 1
  exact acc_eq fun m => gx i j m ^ 2 + gy i j m ^ 2

/-- Specification: squared length of a difference of orientations over a distance. -/
noncomputable def slope2 {n : ℕ} (h : ℝ) (a b : QVec n) : ℝ := ∑ m, ((b m - a m) / h) ^ 2

theorem modulus_compact {n : ℕ} (hx hy : ℝ) (q : QField n) (i j : ℤ) :
    modulus false hx hy q i j = Real.sqrt ((slope2 hx (q (i - 1) j) (q i j) + slope2 hx (q i j) (q (i + 1) j)
      + slope2 hy (q i (j - 1)) (q i j) + slope2 hy (q i j) (q i (j + 1))) / 2) := by
  have e : ∀ (h : ℝ) (a b : QVec n), acc (fun m => 1 / h * (b - a) m * (1 / h * (b - a) m)) = slope2 h a b := by
    intro h a b
    rw [acc_eq]
    exact Finset.sum_congr rfl fun m _ => by rw [Pi.sub_apply]; ring
  simp only [modulus, Bool.false_eq_true, if_false, modCompact, sideGrad, gXX, gYY, qdiffX, qdiffY, id, add_sub_cancel_right, e]
  congr 1
  norm_num
  ring

theorem modulus_cells {n : ℕ} (hx hy : ℝ) (q : QField n) (i j : ℤ) :
    modulus true hx hy q i j = Real.sqrt (slope2 (2 * hx) (q (i - 1) j) (q (i + 1) j)
      + slope2 (2 * hy) (q i (j - 1)) (q i (j + 1))) := by
  simp only [modulus, if_true]
  rw [modCells_eq, slope2, slope2, ← Finset.sum_add_distrib]
  congr 1
  refine Finset.sum_congr rfl fun m _ => ?_
  simp only [qgradCellX, qgradCellY, qdiffX, qdiffY, id, add_sub_cancel_right, Pi.sub_apply]
  have : ∀ h : ℝ, 0.5 / h = 1 / (2 * h) := fun h => by rw [← div_div]; norm_num
  rw [this, this]
  ring

theorem slope2_nonneg {n : ℕ} (h : ℝ) (a b : QVec n) : 0 ≤ slope2 h a b := Finset.sum_nonneg fun _ _ => sq_nonneg _

theorem slope2_pos {n : ℕ} (h : ℝ) (hh : h ≠ 0) (a b : QVec n) (hab : a ≠ b) : 0 < slope2 h a b := by
  refine lt_of_le_of_ne (slope2_nonneg h a b) fun e => hab ?_
  funext m
  have := (Finset.sum_eq_zero_iff_of_nonneg (fun _ _ => sq_nonneg _)).1 e.symm m (Finset.mem_univ m)
  have := div_eq_zero_iff.1 (pow_eq_zero_iff (two_ne_zero)|>.1 this)
  rcases this with h' | h'
  · linarith
  · exact absurd h' hh

/-- **C116** (the two moduli): the modulus from the cells never exceeds the one from the sides, and they agree where opposite
differences are equal. -/
theorem c116_modulus {n : ℕ} (hx hy : ℝ) (q : QField n) (i j : ℤ) :
    modulus true hx hy q i j ≤ modulus false hx hy q i j ∧
    (q (i + 1) j - q i j = q i j - q (i - 1) j → q i (j + 1) - q i j = q i j - q i (j - 1) →
      modulus true hx hy q i j = modulus false hx hy q i j) := by
  rw [modulus_cells, modulus_compact]
  have key : ∀ (h : ℝ) (a b c : QVec n), slope2 (2 * h) a c = (slope2 h a b + slope2 h b c) / 2
      - (∑ m, ((c m - 2 * b m + a m) / (2 * h)) ^ 2) := by
    intro h a b c
    unfold slope2
    rw [← Finset.sum_add_distrib, Finset.sum_div, ← Finset.sum_sub_distrib]
    refine Finset.sum_congr rfl fun m _ => ?_
    simp only [div_eq_mul_inv, mul_inv]
    ring
  rw [key hx _ (q i j) _, key hy _ (q i j) _]
  have n1 : 0 ≤ ∑ m, ((q (i + 1) j m - 2 * q i j m + q (i - 1) j m) / (2 * hx)) ^ 2 := Finset.sum_nonneg fun _ _ => sq_nonneg _
  have n2 : 0 ≤ ∑ m, ((q i (j + 1) m - 2 * q i j m + q i (j - 1) m) / (2 * hy)) ^ 2 := Finset.sum_nonneg fun _ _ => sq_nonneg _
  refine ⟨Real.sqrt_le_sqrt (by linarith), fun ex ey => ?_⟩
  have z1 : (∑ m, ((q (i + 1) j m - 2 * q i j m + q (i - 1) j m) / (2 * hx)) ^ 2) = 0 :=
    Finset.sum_eq_zero fun m _ => by
      have := congrFun ex m
      simp only [Pi.sub_apply] at this
      rw [show q (i + 1) j m - 2 * q i j m + q (i - 1) j m = 0 by linarith]; simp
  have z2 : (∑ m, ((q i (j + 1) m - 2 * q i j m + q i (j - 1) m) / (2 * hy)) ^ 2) = 0 :=
    Finset.sum_eq_zero fun m _ => by
      have := congrFun ey m
      simp only [Pi.sub_apply] at this
      rw [show q i (j + 1) m - 2 * q i j m + q i (j - 1) m = 0 by linarith]; simp
  rw [z1, z2]
  congr 1
  ring

/-- **C116** (violated with the default modulus): a cell whose opposite neighbours share an orientation feels no orientation force,
however large the misorientation to them, although the reported energy pulls on its phase. -/
theorem c116_violation_thin_grain {n : ℕ} (hx hy : ℝ) (hhx : hx ≠ 0) (q : QField n) (i j : ℤ)
    (ex : q (i + 1) j = q (i - 1) j) (ey : q i (j + 1) = q i (j - 1)) (hne : q (i - 1) j ≠ q i j) (H epsQ fl : ℝ)
    (hH : 0 < H) (hfl : 0 ≤ fl) (d1 d2 : ℝ → ℝ) (T phi : Field2) (hT : ∀ a b, 0 < T a b)
    (h1 : ∀ a b c d, 0 < d1 ((phi a b + phi c d) / 2)) (h2 : 0 ≤ d2 (phi i j)) :
    push H epsQ d1 d2 (T i j) (modulus true hx hy q i j) (phi i j) = 0 ∧
    0 < pull H epsQ fl d1 d2 (sideSqX (grads hx hy q)) (sideSqY (grads hx hy q)) T phi i j := by
  constructor
  · have z : modulus true hx hy q i j = 0 := by
      rw [modulus_cells, ex, ey]
      simp [slope2]
    rw [z]; unfold push; ring
  · have sq0 : ∀ a : QVec n, 0 ≤ acc (fun m => a m * a m) := fun a => by
      rw [acc_eq]; exact Finset.sum_nonneg fun _ _ => mul_self_nonneg _
    have nX : ∀ a b, 0 ≤ sideSqX (grads hx hy q) a b := fun a b => add_nonneg (sq0 _) (sq0 _)
    have nY : ∀ a b, 0 ≤ sideSqY (grads hx hy q) a b := fun a b => add_nonneg (sq0 _) (sq0 _)
    have pX : 0 < sideSqX (grads hx hy q) i j := by
      refine add_pos_of_pos_of_nonneg ?_ (sq0 _)
      have := slope2_pos hx hhx _ _ hne
      rw [acc_eq]
      refine lt_of_lt_of_eq this (Finset.sum_congr rfl fun m _ => ?_)
      simp only [grads, sideGrad, Bool.false_eq_true, if_false, gXX, qdiffX, id, Pi.sub_apply]
      ring
    unfold pull
    have p1 : 0 < (T (i - 1) j + T i j) / 2 * Real.sqrt (sideSqX (grads hx hy q) i j + fl) * d1 ((phi (i - 1) j + phi i j) / 2) := by
      have := hT (i - 1) j
      have := hT i j
      have := h1 (i - 1) j i j
      have := Real.sqrt_pos.2 (add_pos_of_pos_of_nonneg pX hfl)
      positivity
    have p2 : ∀ (a b : ℤ) (x c d e f : _) (s : ℝ), 0 ≤ (T a b + T x c) / 2 * Real.sqrt s * d1 ((phi d e + phi f c) / 2) := by
      intro a b x c d e f s
      have := hT a b
      have := hT x c
      have := h1 d e f c
      positivity
    have p3 : 0 ≤ epsQ ^ 2 / 2 * d2 (phi i j) * ((sideSqX (grads hx hy q) i j + sideSqX (grads hx hy q) (i + 1) j
        + sideSqY (grads hx hy q) i j + sideSqY (grads hx hy q) i (j + 1)) / 4) := by
      have := nX (i + 1) j
      have := nY i j
      have := nY i (j + 1)
      positivity
    have q1 := p2 i j (i + 1) j i j (i + 1) (sideSqX (grads hx hy q) (i + 1) j + fl)
    have q2 := p2 i (j - 1) i j i (j - 1) i (sideSqY (grads hx hy q) i j + fl)
    have q3 := p2 i j i (j + 1) i j i (sideSqY (grads hx hy q) i (j + 1) + fl)
    refine add_pos_of_pos_of_nonneg (mul_pos (by linarith) (div_pos ?_ (by norm_num))) p3
    linarith

/-! ## The flux of the orientations -/

/-- Specification: density of the reported orientation energies for a gradient `(gx, gy)`, with weights `p1`, `p2`. -/
noncomputable def density {n : ℕ} (H epsQ fl T p1 p2 : ℝ) (gx gy : QVec n) : ℝ :=
  2 * H * T * p1 * Real.sqrt (dot gx gx + dot gy gy + fl) + epsQ ^ 2 / 2 * p2 * (dot gx gx + dot gy gy)

/-- **C116** (what is reported): for uniform phase, temperature and gradient, the reported orientation energy of a cell is `density`. -/
theorem c116_reported_density {n : ℕ} (P : Params) (ha : P.avg = 'a') (p1 p2 T x : ℝ) (h1 : interpFunc P.interp1 x = some p1)
    (h2 : interpFunc P.interp2 x = some p2) (gx gy : QVec n) (i j : ℤ) :
    ∃ a b, orientEnergyCell P (fun _ _ => dot gx gx + dot gy gy) (fun _ _ => dot gx gx + dot gy gy) (fun _ _ => T) (fun _ _ => x) i j
        = some a ∧
      qintEnergyCell P (fun _ _ => dot gx gx + dot gy gy) (fun _ _ => dot gx gx + dot gy gy) (fun _ _ => x) i j = some b ∧
      a + b = density P.H P.epsQ (floor2 P.floorType P.floor) T p1 p2 gx gy := by
  have fw : faceW P.interp1 P.avg x x = some p1 := by
    simp only [faceW, ha, averageFunc, if_true, Option.bind_eq_bind, Option.bind_some]
    rw [show (0.5 : ℝ) * (x + x) = x by norm_num; ring]
    exact h1
  refine ⟨orientCell2 (floor2 P.floorType P.floor) T (2 * P.H) (dot gx gx + dot gy gy) (dot gx gx + dot gy gy)
      (dot gx gx + dot gy gy) (dot gx gx + dot gy gy) p1 p1 p1 p1,
    (dot gx gx + dot gy gy + (dot gx gx + dot gy gy) + (dot gx gx + dot gy gy) + (dot gx gx + dot gy gy)) * 0.25 *
      (0.5 * P.epsQ * P.epsQ) * p2, by simp only [orientEnergyCell, fw, Option.bind_eq_bind, Option.bind_some],
    by simp only [qintEnergyCell, h2, Option.bind_eq_bind, Option.bind_some], ?_⟩
  simp only [orientCell2, density]
  norm_num
  ring

theorem dot_line {n : ℕ} (g a : QVec n) (s : ℝ) : dot (g + s • a) (g + s • a) = dot g g + 2 * s * dot g a + s ^ 2 * dot a a := by
  unfold dot
  rw [Finset.mul_sum, Finset.mul_sum, ← Finset.sum_add_distrib, ← Finset.sum_add_distrib]
  refine Finset.sum_congr rfl fun m _ => ?_
  simp only [Pi.add_apply, Pi.smul_apply, smul_eq_mul]
  ring

theorem density_deriv {n : ℕ} (H epsQ fl T p1 p2 : ℝ) (gx gy ax ay : QVec n) (h : dot gx gx + dot gy gy + fl ≠ 0) :
    HasDerivAt (fun s : ℝ => density H epsQ fl T p1 p2 (gx + s • ax) (gy + s • ay))
      ((2 * H * T * p1 / Real.sqrt (dot gx gx + dot gy gy + fl) + epsQ ^ 2 * p2) * (dot gx ax + dot gy ay)) 0 := by
  have hq : HasDerivAt (fun s : ℝ => dot (gx + s • ax) (gx + s • ax) + dot (gy + s • ay) (gy + s • ay))
      (2 * (dot gx ax + dot gy ay)) 0 := by
    simp only [dot_line]
    have h1 := ((hasDerivAt_id' (0 : ℝ)).const_mul 2)
    have h2 := (hasDerivAt_pow 2 (0 : ℝ))
    have hx := ((h1.mul_const (dot gx ax)).const_add (dot gx gx)).add (h2.mul_const (dot ax ax))
    have hy := ((h1.mul_const (dot gy ay)).const_add (dot gy gy)).add (h2.mul_const (dot ay ay))
    refine (hx.add hy).congr_deriv ?_
    norm_num
    ring
  have h0 : dot (gx + (0 : ℝ) • ax) (gx + (0 : ℝ) • ax) + dot (gy + (0 : ℝ) • ay) (gy + (0 : ℝ) • ay) + fl ≠ 0 := by
    simpa using h
  have hs := (hq.add_const fl).sqrt h0
  refine ((hs.const_mul (2 * H * T * p1)).add (hq.const_mul (epsQ ^ 2 / 2 * p2))).congr_deriv ?_
  simp only [zero_smul, add_zero]
  rw [mul_div_mul_left _ _ (two_ne_zero (α := ℝ))]
  simp only [div_eq_mul_inv]
  ring

/-- What `compute_face_coef2d` computes at a face. -/
theorem faceCoef_eq {n : ℕ} (P : Params) (d : Char) (a b s t phia p1 p2 r : ℝ) (gx gy : QVec n) (hp : averageFunc d a b = some phia)
    (h1 : interpFunc P.interp1 phia = some p1) (h2 : interpFunc P.interp2 phia = some p2)
    (hr : evalGradNormi P.floorType (dot gx gx + dot gy gy) (P.floor ^ 2) (1 / P.floor) = some r) :
    faceCoef (P.coef d) a b s t gx gy = some (-(2 * P.H * ((s + t) / 2) * p1 * r + P.epsQ ^ 2 * p2)) := by
  have e : ∀ g : QVec n, acc (fun m => g m ^ 2) = dot g g := fun g => by
    rw [acc_eq]; exact Finset.sum_congr rfl fun m _ => by ring
  simp only [faceCoef, Params.coef, hp, Option.bind_eq_bind, Option.bind_some, h1, h2, e, hr, Option.some.injEq]
  norm_num
  ring

/-- **C116** (flux, `sqrt` floor): minus the face coefficient times the gradient is the derivative of the reported density with respect
to the gradient, for every gradient. -/
theorem c116_flux_sqrt {n : ℕ} (P : Params) (hs : P.floorType = 's') (hf : 0 < P.floor) (d : Char) (a b s t phia p1 p2 : ℝ)
    (gx gy : QVec n) (hp : averageFunc d a b = some phia) (h1 : interpFunc P.interp1 phia = some p1)
    (h2 : interpFunc P.interp2 phia = some p2) :
    ∃ c, faceCoef (P.coef d) a b s t gx gy = some c ∧ ∀ ax ay : QVec n,
      HasDerivAt (fun e : ℝ => density P.H P.epsQ (floor2 P.floorType P.floor) ((s + t) / 2) p1 p2 (gx + e • ax) (gy + e • ay))
        (-c * (dot gx ax + dot gy ay)) 0 := by
  have n0 : ∀ g : QVec n, 0 ≤ dot g g := fun g => Finset.sum_nonneg fun _ _ => mul_self_nonneg _
  refine ⟨_, faceCoef_eq P d a b s t phia p1 p2 _ gx gy hp h1 h2 (by rw [hs]; simp [evalGradNormi]; rfl), fun ax ay => ?_⟩
  have hne : dot gx gx + dot gy gy + floor2 P.floorType P.floor ≠ 0 := by
    rw [hs, floor2, if_pos rfl]
    have := n0 gx
    have := n0 gy
    positivity
  refine (density_deriv _ _ _ _ _ _ _ _ ax ay hne).congr_deriv ?_
  rw [hs, floor2, if_pos rfl, ← pow_two]
  simp only [div_eq_mul_inv, one_mul]
  ring

/-- **C116** (flux, `max` floor): the same for every gradient longer than the floor. -/
theorem c116_flux_max_partial {n : ℕ} (P : Params) (hs : P.floorType = 'm') (d : Char) (a b s t phia p1 p2 : ℝ)
    (gx gy : QVec n) (hp : averageFunc d a b = some phia) (h1 : interpFunc P.interp1 phia = some p1)
    (h2 : interpFunc P.interp2 phia = some p2) (hg : P.floor ^ 2 < dot gx gx + dot gy gy) :
    ∃ c, faceCoef (P.coef d) a b s t gx gy = some c ∧ ∀ ax ay : QVec n,
      HasDerivAt (fun e : ℝ => density P.H P.epsQ (floor2 P.floorType P.floor) ((s + t) / 2) p1 p2 (gx + e • ax) (gy + e • ay))
        (-c * (dot gx ax + dot gy ay)) 0 := by
  refine ⟨_, faceCoef_eq P d a b s t phia p1 p2 _ gx gy hp h1 h2 (by rw [hs]; simp [evalGradNormi, hg]; rfl), fun ax ay => ?_⟩
  have hfl : floor2 P.floorType P.floor = 0 := by rw [hs]; rfl
  rw [hfl]
  have hne : dot gx gx + dot gy gy + 0 ≠ 0 := by
    rw [add_zero]; exact (lt_of_le_of_lt (sq_nonneg _) hg).ne'
  refine (density_deriv _ _ _ _ _ _ _ _ ax ay hne).congr_deriv ?_
  rw [add_zero]
  simp only [div_eq_mul_inv, one_mul]
  ring

theorem flux_short {n : ℕ} (P : Params) (hH : 0 < P.H) (hty : P.floorType ≠ 's') (d : Char) (a b s t phia p1 p2 r : ℝ)
    (gx gy : QVec n) (hp : averageFunc d a b = some phia) (h1 : interpFunc P.interp1 phia = some p1)
    (h2 : interpFunc P.interp2 phia = some p2) (hst : 0 < s + t) (hp1 : 0 < p1) (hg : 0 < dot gx gx + dot gy gy)
    (hr : evalGradNormi P.floorType (dot gx gx + dot gy gy) (P.floor ^ 2) (1 / P.floor) = some r)
    (hlt : r < 1 / Real.sqrt (dot gx gx + dot gy gy)) :
    ∃ c D, faceCoef (P.coef d) a b s t gx gy = some c ∧
      HasDerivAt (fun e : ℝ => density P.H P.epsQ (floor2 P.floorType P.floor) ((s + t) / 2) p1 p2 (gx + e • gx) (gy + e • gy)) D 0 ∧
      -c * (dot gx gx + dot gy gy) < D := by
  have hfl : floor2 P.floorType P.floor = 0 := if_neg hty
  have hd := density_deriv P.H P.epsQ 0 ((s + t) / 2) p1 p2 gx gy gx gy (by rw [add_zero]; exact hg.ne')
  refine ⟨_, _, faceCoef_eq P d a b s t phia p1 p2 r gx gy hp h1 h2 hr, by rw [hfl]; exact hd, ?_⟩
  rw [add_zero, neg_neg]
  refine mul_lt_mul_of_pos_right ?_ hg
  have : 2 * P.H * ((s + t) / 2) * p1 * r < 2 * P.H * ((s + t) / 2) * p1 * (1 / Real.sqrt (dot gx gx + dot gy gy)) :=
    mul_lt_mul_of_pos_left hlt (by positivity)
  rw [mul_one_div] at this
  linarith

/-- **C116** (violated with the default `max` floor): for every nonzero gradient shorter than the floor the flux is strictly weaker
than the derivative of the reported density, here along the gradient itself. -/
theorem c116_violation_flux_max {n : ℕ} (P : Params) (hH : 0 < P.H) (hs : P.floorType = 'm') (hf : 0 < P.floor) (d : Char)
    (a b s t phia p1 p2 : ℝ) (gx gy : QVec n) (hp : averageFunc d a b = some phia) (h1 : interpFunc P.interp1 phia = some p1)
    (h2 : interpFunc P.interp2 phia = some p2) (hst : 0 < s + t) (hp1 : 0 < p1) (hg : 0 < dot gx gx + dot gy gy)
    (hlt : dot gx gx + dot gy gy < P.floor ^ 2) :
    ∃ c D, faceCoef (P.coef d) a b s t gx gy = some c ∧
      HasDerivAt (fun e : ℝ => density P.H P.epsQ (floor2 P.floorType P.floor) ((s + t) / 2) p1 p2 (gx + e • gx) (gy + e • gy)) D 0 ∧
      -c * (dot gx gx + dot gy gy) < D := by
  refine flux_short P hH (by rw [hs]; decide) d a b s t phia p1 p2 (1 / P.floor) gx gy hp h1 h2 hst hp1 hg ?_ ?_
  · rw [hs]; simp [evalGradNormi, not_lt.2 hlt.le]
  · exact one_div_lt_one_div_of_lt (Real.sqrt_pos.2 hg) ((Real.sqrt_lt' hf).2 hlt)

/-- **C116** (violated with the `tanh` floor): the same for every nonzero gradient. -/
theorem c116_violation_flux_tanh {n : ℕ} (P : Params) (hH : 0 < P.H) (hs : P.floorType = 't') (hf : 0 < P.floor) (d : Char)
    (a b s t phia p1 p2 : ℝ) (gx gy : QVec n) (hp : averageFunc d a b = some phia) (h1 : interpFunc P.interp1 phia = some p1)
    (h2 : interpFunc P.interp2 phia = some p2) (hst : 0 < s + t) (hp1 : 0 < p1) (hg : 0 < dot gx gx + dot gy gy) :
    ∃ c D, faceCoef (P.coef d) a b s t gx gy = some c ∧
      HasDerivAt (fun e : ℝ => density P.H P.epsQ (floor2 P.floorType P.floor) ((s + t) / 2) p1 p2 (gx + e • gx) (gy + e • gy)) D 0 ∧
      -c * (dot gx gx + dot gy gy) < D := by
  have hm : 0 < 1 / P.floor := one_div_pos.2 hf
  have hsq := Real.sqrt_pos.2 hg
  by_cases hb : (dot gx gx + dot gy gy) * (1 / P.floor) * (1 / P.floor) > 0.01
  · refine flux_short P hH (by rw [hs]; decide) d a b s t phia p1 p2
      (Real.tanh (1 / P.floor * Real.sqrt (dot gx gx + dot gy gy)) / Real.sqrt (dot gx gx + dot gy gy)) gx gy hp h1 h2 hst hp1 hg
      ?_ ?_
    · rw [hs]; unfold evalGradNormi; rw [if_neg (by decide), if_pos rfl]; simp only [if_pos hb]
    · exact (div_lt_div_iff_of_pos_right hsq).2 (Real.tanh_lt_one _)
  · refine flux_short P hH (by rw [hs]; decide) d a b s t phia p1 p2
      (1 / P.floor * (1 - (dot gx gx + dot gy gy) * (1 / P.floor) * (1 / P.floor)
        * (5 - 2 * ((dot gx gx + dot gy gy) * (1 / P.floor) * (1 / P.floor))) / 15)) gx gy hp h1 h2 hst hp1 hg
      ?_ ?_
    · rw [hs]; unfold evalGradNormi; rw [if_neg (by decide), if_pos rfl]; simp only [if_neg hb]
    · have e : (dot gx gx + dot gy gy) = Real.sqrt (dot gx gx + dot gy gy) ^ 2 := (Real.sq_sqrt hg.le).symm
      set G := Real.sqrt (dot gx gx + dot gy gy) with hG
      set m := 1 / P.floor with hmm
      rw [e] at hb ⊢
      have y0 : 0 ≤ G ^ 2 * m * m := by positivity
      have y1 : G ^ 2 * m * m ≤ 0.01 := not_lt.1 hb
      have k : 1 - G ^ 2 * m * m * (5 - 2 * (G ^ 2 * m * m)) / 15 ≤ 1 := by
        have : 0 ≤ G ^ 2 * m * m * (5 - 2 * (G ^ 2 * m * m)) := mul_nonneg y0 (by norm_num at y1; linarith)
        linarith
      have l : m < 1 / G := by
        rw [lt_div_iff₀ hsq]
        have : (m * G) ^ 2 < 1 ^ 2 := by
          have : (m * G) ^ 2 = G ^ 2 * m * m := by ring
          rw [this]; norm_num at y1 ⊢; linarith
        exact lt_of_pow_lt_pow_left₀ 2 (by norm_num) this
      calc m * (1 - G ^ 2 * m * m * (5 - 2 * (G ^ 2 * m * m)) / 15) ≤ m * 1 := mul_le_mul_of_nonneg_left k hm.le
        _ = m := mul_one _
        _ < 1 / G := l

/-! ## The hypotheses are met -/

/-- The program's defaults. -/
noncomputable def defaults : Params := ⟨1, 1, 'm', 0.01, 'q', 'c', 'a'⟩

example : defaults.interp1 ∈ derivGood ∧ defaults.interp2 ∈ derivGood ∧ defaults.avg = 'a' := by simp [defaults, derivGood]

/-- A one-cell grain: orientation 1 in one column, 0 elsewhere. -/
example : let q : QField 1 := fun i _ _ => if i = 0 then 1 else 0
    q (0 + 1) 0 = q (0 - 1) 0 ∧ q 0 (0 + 1) = q 0 (0 - 1) ∧ q (0 - 1) 0 ≠ q 0 0 := by
  refine ⟨by funext m; simp, by funext m; simp, fun h => ?_⟩
  have := congrFun h 0
  simp at this

/-- A gradient below the default floor. -/
example : let g : QVec 1 := fun _ => 0.001
    0 < dot g g + dot g g ∧ dot g g + dot g g < defaults.floor ^ 2 := by
  simp only [dot, defaults, Fin.sum_univ_one]; norm_num

end AMPE.GrainEnergy.Props
