import Verif.Props.PhaseFlow
import Mathlib.Algebra.BigOperators.Fin
import Mathlib.Algebra.Order.BigOperators.Group.Finset
import Mathlib.Analysis.Calculus.Deriv.Inv
import Mathlib.Tactic.Positivity
import Mathlib.Tactic.FinCases

/-! # C34-C36, C46, C53-C55: phase constraints, multi-order forces, convection -/

namespace AMPE.PhaseRHS.Props

open AMPE.Functions AMPE.Functions.Props AMPE.Flux AMPE.Flux.Props AMPE.PhaseRHS

/-! ## C34 -/

/-- **C34**: interface and well rates of the three phases add up to zero, whatever the divergences are. -/
theorem c34_rate_sum_zero (scale : ℝ) (diff phi : Fin 3 → ℝ) :
    threeCell scale diff phi 0 + threeCell scale diff phi 1 + threeCell scale diff phi 2 = 0 := by
  simp only [threeCell]
  ring

/-- **C34**: so do the driving forces, for any tilting functions. -/
theorem c34_driving_sum_zero (D00 D01 : ℝ → ℝ → ℝ → ℝ) (phi : Fin 3 → ℝ) (wl wa wb : ℝ) :
    threeDriving D00 D01 phi wl wa wb 0 + threeDriving D00 D01 phi wl wa wb 1
      + threeDriving D00 D01 phi wl wa wb 2 = 0 := by
  simp only [threeDriving]
  ring

/-- **C34**: along the exact flow with any (common) mobility the total phase fraction of a cell stays what it
was; in particular it stays 1. -/
theorem c34_fraction_kept (D00 D01 : ℝ → ℝ → ℝ → ℝ) (scale : ℝ) (phi diff : ℝ → Fin 3 → ℝ) (mob wl wa wb : ℝ → ℝ)
    (flow : ∀ t p, HasDerivAt (fun s => phi s p)
      (mob t * (threeCell scale (diff t) (phi t) p + threeDriving D00 D01 (phi t) (wl t) (wa t) (wb t) p)) t) (t t' : ℝ) :
    phi t 0 + phi t 1 + phi t 2 = phi t' 0 + phi t' 1 + phi t' 2 := by
  have hd : ∀ t, HasDerivAt (fun s => phi s 0 + phi s 1 + phi s 2) 0 t := by
    intro t
    refine (((flow t 0).add (flow t 1)).add (flow t 2)).congr_deriv ?_
    have h1 := c34_rate_sum_zero scale (diff t) (phi t)
    have h2 := c34_driving_sum_zero D00 D01 (phi t) (wl t) (wa t) (wb t)
    linear_combination mob t * h1 + mob t * h2
  exact is_const_of_deriv_eq_zero (fun t => (hd t).differentiableAt) (fun t => (hd t).deriv) t t'

/-- Specification: the plane of admissible phase fractions. -/
def OnPlane {n : ℕ} (x : Fin n → ℝ) : Prop := ∑ m, x m = 1

/-- **C34**: the projection lands on the plane. -/
theorem c34_project_lands (n : ℕ) (hn : 0 < n) (phi : Fin n → ℝ) : OnPlane fun m => phi m + projectCorr n phi m := by
  have : (n : ℝ) ≠ 0 := by positivity
  unfold OnPlane projectCorr
  simp only [add_sub_cancel, Finset.sum_sub_distrib, Finset.sum_const, Finset.card_univ, Fintype.card_fin, nsmul_eq_mul]
  field_simp
  ring

/-- **C34**: points already on the plane are not moved. -/
theorem c34_project_fixed (n : ℕ) (phi : Fin n → ℝ) (h : OnPlane phi) (m : Fin n) : projectCorr n phi m = 0 := by
  unfold OnPlane at h
  simp [projectCorr, h]

/-- **C34**: the projection is the nearest point of the plane. -/
theorem c34_project_nearest (n : ℕ) (phi x : Fin n → ℝ) (hx : OnPlane x) :
    ∑ m, (projectCorr n phi m) ^ 2 ≤ ∑ m, (x m - phi m) ^ 2 := by
  rcases Nat.eq_zero_or_pos n with rfl | hn
  · simp
  have hn' : (n : ℝ) ≠ 0 := by positivity
  set d := ((∑ k, phi k) - 1) * (1 / (n : ℝ)) with hd
  have hsum : ∑ m, (x m - phi m) = -(n * d) := by
    unfold OnPlane at hx
    rw [Finset.sum_sub_distrib, hx, hd]
    field_simp
    ring
  have e : ∀ m, projectCorr n phi m = -d := by intro m; unfold projectCorr; rw [← hd]; ring
  simp only [e]
  have h2 : ∑ m, (x m - phi m) ^ 2 = ∑ m : Fin n, (-d) ^ 2 + ∑ m, (x m - phi m + d) ^ 2 := by
    have : ∀ m, (x m - phi m) ^ 2 = (x m - phi m + d) ^ 2 - 2 * d * (x m - phi m) - d ^ 2 := by intro m; ring
    simp only [this, Finset.sum_sub_distrib, ← Finset.mul_sum]
    rw [← Finset.sum_sub_distrib, hsum]
    simp only [Finset.sum_const, Finset.card_univ, Fintype.card_fin, nsmul_eq_mul]
    ring
  rw [h2]
  have : 0 ≤ ∑ m, (x m - phi m + d) ^ 2 := Finset.sum_nonneg fun m _ => sq_nonneg _
  linarith

/-- **C34**: the error keeps only its part tangent to the plane. -/
theorem c34_error_tangent (n : ℕ) (hn : 0 < n) (err : Fin n → ℝ) :
    ∑ m, projectErr n err m = 0 ∧ ((∑ m, err m = 0) → projectErr n err = err) := by
  have : (n : ℝ) ≠ 0 := by positivity
  unfold projectErr
  constructor
  · simp only [Finset.sum_sub_distrib, Finset.sum_const, Finset.card_univ, Fintype.card_fin, nsmul_eq_mul]
    field_simp
    ring
  · intro h; funext m; simp [h]

example : projectCorr 3 ![0.5, 0.5, 0.3] 0 = -0.1 := by
  simp [projectCorr, Fin.sum_univ_three]; norm_num

/-- **C34**: the three-phase rate is minus the gradient of interface + well energy projected on the plane, so
the exact flow with constant mobility never increases that energy (2D periodic domain). -/
theorem c34_energy_decay (N M : ℕ) (lo0 lo1 : ℤ) (eps scale dx dy w mob : ℝ) (hw : 0 ≤ w) (hmob : 0 ≤ mob)
    (phi : ℝ → Fin 3 → Field2) (hper : ∀ s p, Periodic2 N M (phi s p))
    (flow : ∀ s p i j, HasDerivAt (fun s => phi s p i j) (mob * threeCell scale
      (fun q => div2 dx dy (gradFluxX eps dx (phi s q)) (gradFluxY eps dy (phi s q)) i j)
      (fun q => phi s q i j) p) s) :
    Antitone fun s => ∑ p : Fin 3, ∑ b ∈ Finset.range M, ∑ a ∈ Finset.range N,
      (interfaceCell eps dx dy (phi s p) (lo0 + (a : ℤ)) (lo1 + (b : ℤ))
        + scale * (16 * phi s p (lo0 + (a : ℤ)) (lo1 + (b : ℤ)) * phi s p (lo0 + (a : ℤ)) (lo1 + (b : ℤ)) *
          (1 - phi s p (lo0 + (a : ℤ)) (lo1 + (b : ℤ))) * (1 - phi s p (lo0 + (a : ℤ)) (lo1 + (b : ℤ))))) * w := by
  have hd : ∀ t, ∃ d, d ≤ 0 ∧ HasDerivAt (fun s => ∑ p : Fin 3, ∑ b ∈ Finset.range M, ∑ a ∈ Finset.range N,
      (interfaceCell eps dx dy (phi s p) (lo0 + (a : ℤ)) (lo1 + (b : ℤ))
        + scale * (16 * phi s p (lo0 + (a : ℤ)) (lo1 + (b : ℤ)) * phi s p (lo0 + (a : ℤ)) (lo1 + (b : ℤ)) *
          (1 - phi s p (lo0 + (a : ℤ)) (lo1 + (b : ℤ))) * (1 - phi s p (lo0 + (a : ℤ)) (lo1 + (b : ℤ))))) * w) d t := by
    intro t
    have hs := HasDerivAt.fun_sum (u := (Finset.univ : Finset (Fin 3))) fun p _ =>
      energy_deriv2 N M lo0 lo1 eps dx dy w (fun s => phi s p) _ t (fun s => hper s p) (flow t p)
        (fun _ _ x => scale * (16 * x * x * (1 - x) * (1 - x)))
        (fun i j => scale * (32 * phi t p i j * (1 - phi t p i j) * (1 - 2 * phi t p i j)))
        (fun i j => well_deriv scale _)
    refine ⟨_, ?_, hs⟩
    rw [Finset.sum_comm]
    refine Finset.sum_nonpos fun b _ => ?_
    rw [Finset.sum_comm]
    refine Finset.sum_nonpos fun a _ => ?_
    generalize lo0 + (a : ℤ) = i
    generalize lo1 + (b : ℤ) = j
    simp only [Fin.sum_univ_three, threeCell, derivTripleWellFunc, show (0 : Fin 3) + 1 = 1 from rfl,
      show (0 : Fin 3) + 2 = 2 from rfl, show (1 : Fin 3) + 1 = 2 from rfl, show (1 : Fin 3) + 2 = 0 from rfl,
      show (2 : Fin 3) + 1 = 0 from rfl, show (2 : Fin 3) + 2 = 1 from rfl]
    generalize div2 dx dy (gradFluxX eps dx (phi t 0)) (gradFluxY eps dy (phi t 0)) i j = d0
    generalize div2 dx dy (gradFluxX eps dx (phi t 1)) (gradFluxY eps dy (phi t 1)) i j = d1
    generalize div2 dx dy (gradFluxX eps dx (phi t 2)) (gradFluxY eps dy (phi t 2)) i j = d2
    set x := phi t 0 i j
    set y := phi t 1 i j
    set z := phi t 2 i j
    set A := -d0 + scale * (32 * x * (1 - x) * (1 - 2 * x)) with hA
    set B := -d1 + scale * (32 * y * (1 - y) * (1 - 2 * y)) with hB
    set C := -d2 + scale * (32 * z * (1 - z) * (1 - 2 * z)) with hC
    have key : 0 ≤ (w * mob) * ((A - B) ^ 2 + (B - C) ^ 2 + (A - C) ^ 2) := by positivity
    have : ∀ X, X = -((1 / 3) * ((w * mob) * ((A - B) ^ 2 + (B - C) ^ 2 + (A - C) ^ 2))) → X ≤ 0 := by
      intro X hX; rw [hX]; linarith
    apply this
    simp only [hA, hB, hC]
    ring
  refine antitone_of_deriv_nonpos (fun t => (hd t).choose_spec.2.differentiableAt) fun t => ?_
  rw [(hd t).choose_spec.2.deriv]
  exact (hd t).choose_spec.1

/-! ## C53: tilting functions -/

/-- The polynomial of Folch and Plapp (2005). -/
noncomputable def fpPoly (p0 p1 p2 : ℝ) : ℝ :=
  0.25 * p0 * p0 * (15 * (1 - p0) * (1 + p0 - (p2 - p1) * (p2 - p1)) + p0 * (9 * p0 * p0 - 5))

theorem fp_eq (p0 p1 p2 : ℝ) (h0 : 0 ≤ p0) (h1 : p0 ≤ 1) : fpG0 p0 p1 p2 = fpPoly p0 p1 p2 := by
  simp [fpG0, fpPoly, not_lt.mpr h0, not_lt.mpr h1]

/-- **C53**: both families of weights sum to one (Folch-Plapp on the plane of admissible fractions). -/
theorem c53_partition (p0 p1 p2 : ℝ) (h0 : 0 ≤ p0) (h1 : 0 ≤ p1) (h2 : 0 ≤ p2) (hs : p0 + p1 + p2 = 1) :
    fpG0 p0 p1 p2 + fpG0 p1 p0 p2 + fpG0 p2 p0 p1 = 1 ∧
    moG0 p0 p1 p2 + moG0 p1 p0 p2 + moG0 p2 p0 p1 = 1 := by
  constructor
  · rw [fp_eq _ _ _ h0 (by linarith), fp_eq _ _ _ h1 (by linarith), fp_eq _ _ _ h2 (by linarith)]
    have : p2 = 1 - p0 - p1 := by linarith
    subst this
    unfold fpPoly
    ring
  · simp only [moG0, not_lt.mpr h0, not_lt.mpr h1, not_lt.mpr h2, if_false]
    have : 0 < p0 * p0 + p1 * p1 + p2 * p2 := by
      rcases h0.lt_or_eq with h | h
      · have := mul_pos h h; nlinarith
      · rcases h1.lt_or_eq with h' | h'
        · have := mul_pos h' h'; nlinarith
        · have : p2 = 1 := by linarith
          rw [this]; nlinarith
    have e1 : p1 * p1 + p0 * p0 + p2 * p2 = p0 * p0 + p1 * p1 + p2 * p2 := by ring
    have e2 : p2 * p2 + p0 * p0 + p1 * p1 = p0 * p0 + p1 * p1 + p2 * p2 := by ring
    rw [e1, e2, ← add_div, ← add_div, div_self this.ne']

/-- **C53**: a pure phase has weight one and an absent phase weight zero. -/
theorem c53_pure (p1 p2 : ℝ) : fpG0 1 0 0 = 1 ∧ moG0 1 0 0 = 1 ∧ fpG0 0 p1 p2 = 0 ∧ moG0 0 p1 p2 = 0 := by
  refine ⟨?_, ?_, ?_, ?_⟩ <;> simp [fpG0, moG0]
  norm_num

/-- **C53** (Moelans): along any direction that keeps the sum of the fractions, the weight changes at the rate
given by the two derivative routines. -/
theorem c53_moelans (p0 p1 p2 d0 d1 d2 : ℝ) (hd : d0 + d1 + d2 = 0) (h0 : 0 < p0) :
    HasDerivAt (fun s => moG0 (p0 + s * d0) (p1 + s * d1) (p2 + s * d2))
      (moD00 p0 p1 p2 * d0 + moD01 p0 p1 p2 * d1 + moD01 p0 p2 p1 * d2) 0 := by
  have ha : 0 < p0 * p0 + p1 * p1 + p2 * p2 := by nlinarith [mul_pos h0 h0, mul_self_nonneg p1, mul_self_nonneg p2]
  have l : ∀ p d : ℝ, HasDerivAt (fun s : ℝ => p + s * d) d 0 := fun p d => by
    simpa using ((hasDerivAt_id' (0 : ℝ)).mul_const d).const_add p
  have q : ∀ p d : ℝ, HasDerivAt (fun s : ℝ => (p + s * d) * (p + s * d)) (2 * p * d) 0 := fun p d =>
    ((l p d).mul (l p d)).congr_deriv (by simp; ring)
  have hden := ((q p0 d0).add (q p1 d1)).add (q p2 d2)
  have hf := (q p0 d0).div hden (by simpa using ha.ne')
  have ev : (fun s => moG0 (p0 + s * d0) (p1 + s * d1) (p2 + s * d2)) =ᶠ[nhds 0]
      (fun s : ℝ => (p0 + s * d0) * (p0 + s * d0) / ((p0 + s * d0) * (p0 + s * d0) + (p1 + s * d1) * (p1 + s * d1)
        + (p2 + s * d2) * (p2 + s * d2))) := by
    have hc : ContinuousAt (fun s : ℝ => p0 + s * d0) 0 := (l p0 d0).continuousAt
    filter_upwards [hc.eventually (lt_mem_nhds (show (0 : ℝ) < (fun s : ℝ => p0 + s * d0) 0 by simpa using h0))] with s hs
    simp only [moG0, not_lt.mpr hs.le, if_false]
  refine (HasDerivAt.congr_of_eventuallyEq ?_ ev)
  refine hf.congr_deriv ?_
  have e2 : p0 * p0 + p2 * p2 + p1 * p1 = p0 * p0 + p1 * p1 + p2 * p2 := by ring
  simp only [moD00, moD01, not_lt.mpr h0.le, if_false, Pi.add_apply, zero_mul, add_zero, e2]
  have : d2 = -d0 - d1 := by linarith
  subst this
  set a := p0 * p0 + p1 * p1 + p2 * p2 with hadef
  field_simp
  rw [hadef]
  ring

/-- **C53** (Folch-Plapp): the same, where the three fractions sum to one and lie in [0,1]. -/
theorem c53_folch_plapp_partial (p0 p1 p2 d0 d1 d2 : ℝ) (hd : d0 + d1 + d2 = 0) (hs : p0 + p1 + p2 = 1)
    (h0 : 0 < p0) (h0' : p0 < 1) (h1 : 0 ≤ p1) (h2 : 0 ≤ p2) :
    HasDerivAt (fun s => fpG0 (p0 + s * d0) (p1 + s * d1) (p2 + s * d2))
      (fpD00 p0 p1 p2 * d0 + fpD01 p0 p1 p2 * d1 + fpD01 p0 p2 p1 * d2) 0 := by
  have l : ∀ p d : ℝ, HasDerivAt (fun s : ℝ => p + s * d) d 0 := fun p d => by
    simpa using ((hasDerivAt_id' (0 : ℝ)).mul_const d).const_add p
  have hdiff := (l p2 d2).sub (l p1 d1)
  have hpoly : HasDerivAt (fun s : ℝ => fpPoly (p0 + s * d0) (p1 + s * d1) (p2 + s * d2))
      (0.25 * (15 * p0 * (2 - 4 * p0 ^ 2 - 2 * (p2 - p1) ^ 2 + 3 * (p2 - p1) ^ 2 * p0 + 3 * p0 ^ 3 - p0)) * d0
        - 7.5 * p0 ^ 2 * (1 - p0) * (p2 - p1) * (d2 - d1)) 0 := by
    have A := ((l p0 d0).const_mul 0.25).mul (l p0 d0)
    have B := ((((l p0 d0).const_sub 1).const_mul 15).mul (((l p0 d0).const_add 1).sub (hdiff.mul hdiff))).add
      ((l p0 d0).mul ((((l p0 d0).const_mul 9).mul (l p0 d0)).sub_const 5))
    refine (A.mul B).congr_deriv ?_
    simp only [Pi.mul_apply, Pi.add_apply, Pi.sub_apply, zero_mul, add_zero]
    ring
  have ev : (fun s => fpG0 (p0 + s * d0) (p1 + s * d1) (p2 + s * d2)) =ᶠ[nhds 0]
      (fun s : ℝ => fpPoly (p0 + s * d0) (p1 + s * d1) (p2 + s * d2)) := by
    have hc : ContinuousAt (fun s : ℝ => p0 + s * d0) 0 := (l p0 d0).continuousAt
    filter_upwards [hc.eventually (lt_mem_nhds (show (0 : ℝ) < (fun s : ℝ => p0 + s * d0) 0 by simpa using h0)),
      hc.eventually (gt_mem_nhds (show (fun s : ℝ => p0 + s * d0) 0 < 1 by simpa using h0'))] with s ha hb
    exact fp_eq _ _ _ ha.le hb.le
  refine (HasDerivAt.congr_of_eventuallyEq hpoly ev).congr_deriv ?_
  have hp1 : p1 ≤ 1 := by linarith
  have hp2 : p2 ≤ 1 := by linarith
  simp only [fpD00, fpD01, not_lt.mpr h0.le, not_lt.mpr h0'.le, not_lt.mpr h1, not_lt.mpr h2, not_lt.mpr hp1,
    not_lt.mpr hp2, if_false]
  have e1 : d2 = -d0 - d1 := by linarith
  have e2 : p2 = 1 - p0 - p1 := by linarith
  subst e1 e2
  ring

/-- **C53** (violation): off the plane, the Folch-Plapp cross derivative (which evaluates the polynomial with
its first two arguments exchanged) differs from the tangential derivative by this multiple of the sum defect. -/
theorem c53_violation_off_plane (p0 p1 p2 : ℝ) (h0 : 0 ≤ p0) (h0' : p0 ≤ 1) (h1 : 0 ≤ p1) (h1' : p1 ≤ 1) :
    fpD01 p0 p1 p2 - (-0.5 * fpD00 p0 p1 p2 + 7.5 * (p0 * p0 * (1 - p0) * (p2 - p1))) =
      (p0 + p1 + p2 - 1) * ((p1 - p0) * (-1.25 * (3 * (p0 + p1) - 2) * (1 - p0 - p1 + p2)
        + 7.5 * (p0 + p1 - p0 ^ 2 - p1 ^ 2))) := by
  simp only [fpD00, fpD01, not_lt.mpr h0, not_lt.mpr h0', not_lt.mpr h1, not_lt.mpr h1', if_false]
  ring

/-- The reference value in `c53_violation_off_plane` is the tangential derivative in direction `(-1,1,0)`-type
moves: it satisfies the same equation as `fpD01` on the plane, everywhere inside [0,1]. -/
theorem c53_tangential_reference (p0 p1 p2 d0 d1 d2 : ℝ) (hd : d0 + d1 + d2 = 0) (h0 : 0 < p0) (h0' : p0 < 1) :
    HasDerivAt (fun s => fpG0 (p0 + s * d0) (p1 + s * d1) (p2 + s * d2))
      (fpD00 p0 p1 p2 * d0 + (-0.5 * fpD00 p0 p1 p2 + 7.5 * (p0 * p0 * (1 - p0) * (p2 - p1))) * d1
        + (-0.5 * fpD00 p0 p1 p2 + 7.5 * (p0 * p0 * (1 - p0) * (p1 - p2))) * d2) 0 := by
  have l : ∀ p d : ℝ, HasDerivAt (fun s : ℝ => p + s * d) d 0 := fun p d => by
    simpa using ((hasDerivAt_id' (0 : ℝ)).mul_const d).const_add p
  have hdiff := (l p2 d2).sub (l p1 d1)
  have hpoly : HasDerivAt (fun s : ℝ => fpPoly (p0 + s * d0) (p1 + s * d1) (p2 + s * d2))
      (0.25 * (15 * p0 * (2 - 4 * p0 ^ 2 - 2 * (p2 - p1) ^ 2 + 3 * (p2 - p1) ^ 2 * p0 + 3 * p0 ^ 3 - p0)) * d0
        - 7.5 * p0 ^ 2 * (1 - p0) * (p2 - p1) * (d2 - d1)) 0 := by
    have A := ((l p0 d0).const_mul 0.25).mul (l p0 d0)
    have B := ((((l p0 d0).const_sub 1).const_mul 15).mul (((l p0 d0).const_add 1).sub (hdiff.mul hdiff))).add
      ((l p0 d0).mul ((((l p0 d0).const_mul 9).mul (l p0 d0)).sub_const 5))
    refine (A.mul B).congr_deriv ?_
    simp only [Pi.mul_apply, Pi.add_apply, Pi.sub_apply, zero_mul, add_zero]
    ring
  have ev : (fun s => fpG0 (p0 + s * d0) (p1 + s * d1) (p2 + s * d2)) =ᶠ[nhds 0]
      (fun s : ℝ => fpPoly (p0 + s * d0) (p1 + s * d1) (p2 + s * d2)) := by
    have hc : ContinuousAt (fun s : ℝ => p0 + s * d0) 0 := (l p0 d0).continuousAt
    filter_upwards [hc.eventually (lt_mem_nhds (show (0 : ℝ) < (fun s : ℝ => p0 + s * d0) 0 by simpa using h0)),
      hc.eventually (gt_mem_nhds (show (fun s : ℝ => p0 + s * d0) 0 < 1 by simpa using h0'))] with s ha hb
    exact fp_eq _ _ _ ha.le hb.le
  refine (HasDerivAt.congr_of_eventuallyEq hpoly ev).congr_deriv ?_
  simp only [fpD00, not_lt.mpr h0.le, not_lt.mpr h0'.le, if_false]
  have e1 : d2 = -d0 - d1 := by linarith
  subst e1
  ring

/-- **C53**: the driving force of the three-phase strategy is minus the tangential gradient of the interpolated
driving energy `g_l wl + g_a wa + g_b wb`, for Moelans weights. -/
theorem c53_driving_moelans (phi d : Fin 3 → ℝ) (wl wa wb : ℝ) (hd : d 0 + d 1 + d 2 = 0) (h : ∀ p, 0 < phi p) :
    HasDerivAt (fun s => moG0 (phi 0 + s * d 0) (phi 1 + s * d 1) (phi 2 + s * d 2) * wl
        + moG0 (phi 1 + s * d 1) (phi 0 + s * d 0) (phi 2 + s * d 2) * wa
        + moG0 (phi 2 + s * d 2) (phi 0 + s * d 0) (phi 1 + s * d 1) * wb)
      (-∑ p, threeDriving moD00 moD01 phi wl wa wb p * d p) 0 := by
  have a := (c53_moelans (phi 0) (phi 1) (phi 2) (d 0) (d 1) (d 2) hd (h 0)).mul_const wl
  have b := (c53_moelans (phi 1) (phi 0) (phi 2) (d 1) (d 0) (d 2) (by linarith) (h 1)).mul_const wa
  have c := (c53_moelans (phi 2) (phi 0) (phi 1) (d 2) (d 0) (d 1) (by linarith) (h 2)).mul_const wb
  refine ((a.add b).add c).congr_deriv ?_
  have s2 : moD00 (phi 2) (phi 0) (phi 1) = moD00 (phi 2) (phi 1) (phi 0) := by
    unfold moD00; simp only []; congr 1
    rw [show phi 2 * phi 2 + phi 0 * phi 0 + phi 1 * phi 1 = phi 2 * phi 2 + phi 1 * phi 1 + phi 0 * phi 0 by ring]
    congr 1; ring
  simp only [Fin.sum_univ_three, threeDriving, s2]
  simp only [Matrix.cons_val_zero, Matrix.cons_val_one, Matrix.cons_val]
  linear_combination (1 / 3 * (moD00 (phi 0) (phi 1) (phi 2) * wl + moD01 (phi 1) (phi 0) (phi 2) * wa
    + moD01 (phi 2) (phi 0) (phi 1) * wb + (moD00 (phi 1) (phi 0) (phi 2) * wa + moD01 (phi 0) (phi 1) (phi 2) * wl
    + moD01 (phi 2) (phi 1) (phi 0) * wb) + (moD00 (phi 2) (phi 1) (phi 0) * wb + moD01 (phi 1) (phi 2) (phi 0) * wa
    + moD01 (phi 0) (phi 2) (phi 1) * wl))) * hd

/-- **C53**: and for Folch-Plapp weights inside the simplex. -/
theorem c53_driving_folch_plapp_partial (phi d : Fin 3 → ℝ) (wl wa wb : ℝ) (hd : d 0 + d 1 + d 2 = 0)
    (h : ∀ p, 0 < phi p) (hs : phi 0 + phi 1 + phi 2 = 1) :
    HasDerivAt (fun s => fpG0 (phi 0 + s * d 0) (phi 1 + s * d 1) (phi 2 + s * d 2) * wl
        + fpG0 (phi 1 + s * d 1) (phi 0 + s * d 0) (phi 2 + s * d 2) * wa
        + fpG0 (phi 2 + s * d 2) (phi 0 + s * d 0) (phi 1 + s * d 1) * wb)
      (-∑ p, threeDriving fpD00 fpD01 phi wl wa wb p * d p) 0 := by
  have h0 := h 0
  have h1 := h 1
  have h2 := h 2
  have a := (c53_folch_plapp_partial (phi 0) (phi 1) (phi 2) (d 0) (d 1) (d 2) hd hs h0 (by linarith) h1.le h2.le).mul_const wl
  have b := (c53_folch_plapp_partial (phi 1) (phi 0) (phi 2) (d 1) (d 0) (d 2) (by linarith) (by linarith) h1
    (by linarith) h0.le h2.le).mul_const wa
  have c := (c53_folch_plapp_partial (phi 2) (phi 0) (phi 1) (d 2) (d 0) (d 1) (by linarith) (by linarith) h2
    (by linarith) h0.le h1.le).mul_const wb
  refine ((a.add b).add c).congr_deriv ?_
  have s2 : fpD00 (phi 2) (phi 0) (phi 1) = fpD00 (phi 2) (phi 1) (phi 0) := by
    unfold fpD00; split_ifs <;> ring
  simp only [Fin.sum_univ_three, threeDriving, s2]
  simp only [Matrix.cons_val_zero, Matrix.cons_val_one, Matrix.cons_val]
  linear_combination (1 / 3 * (fpD00 (phi 0) (phi 1) (phi 2) * wl + fpD01 (phi 1) (phi 0) (phi 2) * wa
    + fpD01 (phi 2) (phi 0) (phi 1) * wb + (fpD00 (phi 1) (phi 0) (phi 2) * wa + fpD01 (phi 0) (phi 1) (phi 2) * wl
    + fpD01 (phi 2) (phi 1) (phi 0) * wb) + (fpD00 (phi 2) (phi 1) (phi 0) * wb + fpD01 (phi 1) (phi 2) (phi 0) * wa
    + fpD01 (phi 0) (phi 2) (phi 1) * wl))) * hd

example : (1 / 2 : ℝ) + 1 / 3 + 1 / 6 = 1 ∧ fpD01 (1 / 2) (1 / 3) (1 / 6) ≠ 0 := by
  constructor
  · norm_num
  · simp only [fpD01, fpD00]; norm_num

end AMPE.PhaseRHS.Props
