import Verif.Proofs.PhaseFlow
import Mathlib.Analysis.Calculus.Deriv.MeanValue
import Mathlib.Tactic.FieldSimp
import Mathlib.Tactic.IntervalCases

/-!
# C33: the phase rate descends the reported energy

The energy is the one the code reports (`energy2`, `energy3`), the rate the one it integrates
(`phaseRate2`, `phaseRate3`).  A periodic domain is a periodic field; ghost cells are its periodic images.
-/

namespace AMPE.PhaseRHS.Props

open AMPE.Functions AMPE.Functions.Props AMPE.Flux AMPE.Flux.Props AMPE.PhaseRHS

/-- The interpolation kinds whose derivative routine is right everywhere (C11). -/
theorem good_kind (ty : Char) (h : ty ∈ derivGood) : ∃ H H' : ℝ → ℝ, Computes (interpFunc ty) H ∧
    Computes (derivInterpFunc ty) H' ∧ ∀ x, HasDerivAt H (H' x) x := by
  obtain ⟨F, _, hF, _, _⟩ := c11_first_partial ty 0 (Or.inl h)
  have : ∀ x, ∃ d, derivInterpFunc ty x = some d ∧ HasDerivAt F d x := by
    intro x
    obtain ⟨G, d, hG, hd, hh⟩ := c11_first_partial ty x (Or.inl h)
    have e : G = F := funext fun y => Option.some.inj ((hG y).symm.trans (hF y))
    exact ⟨d, hd, e ▸ hh⟩
  choose H' h1 h2 using this
  exact ⟨F, H', hF, h1, h2⟩

theorem well_deriv (scale x : ℝ) : HasDerivAt (fun x : ℝ => scale * (16 * x * x * (1 - x) * (1 - x)))
    (scale * (32 * x * (1 - x) * (1 - 2 * x))) x := by
  have h1 := (hasDerivAt_id' x).const_sub 1
  have := (((((hasDerivAt_id' x).const_mul 16).mul (hasDerivAt_id' x)).mul h1).mul h1).const_mul scale
  refine this.congr_deriv ?_
  simp only [Pi.mul_apply]
  ring

/-- **C33** (2D): along any curve of periodic fields the reported energy changes at minus the sum over the
cells of volume × rate × velocity, so the rate is minus the gradient of the energy per volume. -/
theorem c33_gradient_2d (ty : Char) (hty : ty ∈ derivGood) (N M : ℕ) (lo0 lo1 : ℤ) (eps scale dx dy w : ℝ)
    (fl fa : Field2) (phi : ℝ → Field2) (v : Field2) (t : ℝ) (hper : ∀ s, Periodic2 N M (phi s))
    (hv : ∀ i j, HasDerivAt (fun s => phi s i j) (v i j) t) :
    ∃ E : ℝ → ℝ, ∃ r : Field2,
      (∀ s, energy2 ty eps scale dx dy fl fa (fun _ => w) lo0 (lo0 + N - 1) lo1 (lo1 + M - 1) (phi s) = some (E s)) ∧
      (∀ i j, phaseRate2 ty scale dx dy (gradFluxX eps dx (phi t)) (gradFluxY eps dy (phi t)) fl fa (phi t) i j =
        some (r i j)) ∧
      HasDerivAt E (-∑ b ∈ Finset.range M, ∑ a ∈ Finset.range N, w * r (lo0 + (a : ℤ)) (lo1 + (b : ℤ)) *
        v (lo0 + (a : ℤ)) (lo1 + (b : ℤ))) t := by
  obtain ⟨H, H', hH, hH', hd⟩ := good_kind ty hty
  have key := energy_deriv2 N M lo0 lo1 eps dx dy w phi v t hper hv
    (fun i j x => scale * (16 * x * x * (1 - x) * (1 - x)) + ((1 - H x) * fl i j + H x * fa i j))
    (fun i j => scale * (32 * phi t i j * (1 - phi t i j) * (1 - 2 * phi t i j))
      + (-H' (phi t i j) * fl i j + H' (phi t i j) * fa i j))
    (fun i j => (well_deriv scale _).add ((((hd _).const_sub 1).mul_const _).add ((hd _).mul_const _)))
  refine ⟨_, fun i j => div2 dx dy (gradFluxX eps dx (phi t)) (gradFluxY eps dy (phi t)) i j
      - scale * (32 * phi t i j * (1 - phi t i j) * (1 - 2 * phi t i j)) + H' (phi t i j) * (fl i j - fa i j),
    fun s => ?_, fun i j => ?_, key.congr_deriv ?_⟩
  · unfold energy2
    simp only [Option.bind_eq_bind]
    rw [accumulate_some _ _ _ (fun c => rfl),
      accumulate_some (fun c : ℤ × ℤ => wellCell 'd' scale (phi s c.1 c.2))
        (fun c => scale * (16 * phi s c.1 c.2 * phi s c.1 c.2 * (1 - phi s c.1 c.2) * (1 - phi s c.1 c.2))) _
        (fun c => rfl),
      accumulate_some (fun c : ℤ × ℤ => bulkCell ty (fl c.1 c.2) (fa c.1 c.2) (phi s c.1 c.2))
        (fun c => (1 - H (phi s c.1 c.2)) * fl c.1 c.2 + H (phi s c.1 c.2) * fa c.1 c.2) _
        (fun c => by simp [bulkCell, hH _])]
    simp only [Option.bind_some, loop2_sum, ← Finset.sum_add_distrib]
    congr 1
    exact Finset.sum_congr rfl fun b _ => Finset.sum_congr rfl fun a _ => by ring
  · simp [phaseRate2, pbgCell, derivWellFunc, fenergyCell, hH' _]
  · rw [← Finset.sum_neg_distrib]
    refine Finset.sum_congr rfl fun b _ => ?_
    rw [← Finset.sum_neg_distrib]
    exact Finset.sum_congr rfl fun a _ => by ring

/-- **C33** (3D). -/
theorem c33_gradient_3d (ty : Char) (hty : ty ∈ derivGood) (N M K : ℕ) (lo0 lo1 lo2 : ℤ) (eps scale dx dy dz w : ℝ)
    (fl fa : Field3) (phi : ℝ → Field3) (v : Field3) (t : ℝ) (hper : ∀ s, Periodic3 N M K (phi s))
    (hv : ∀ i j k, HasDerivAt (fun s => phi s i j k) (v i j k) t) :
    ∃ E : ℝ → ℝ, ∃ r : Field3,
      (∀ s, energy3 ty eps scale dx dy dz fl fa (fun _ => w) lo0 (lo0 + N - 1) lo1 (lo1 + M - 1) lo2 (lo2 + K - 1)
        (phi s) = some (E s)) ∧
      (∀ i j k, phaseRate3 ty scale dx dy dz (gradFlux3X eps dx (phi t)) (gradFlux3Y eps dy (phi t))
        (gradFlux3Z eps dz (phi t)) fl fa (phi t) i j k = some (r i j k)) ∧
      HasDerivAt E (-∑ c ∈ Finset.range K, ∑ b ∈ Finset.range M, ∑ a ∈ Finset.range N,
        w * r (lo0 + (a : ℤ)) (lo1 + (b : ℤ)) (lo2 + (c : ℤ)) * v (lo0 + (a : ℤ)) (lo1 + (b : ℤ)) (lo2 + (c : ℤ))) t := by
  obtain ⟨H, H', hH, hH', hd⟩ := good_kind ty hty
  have key := energy_deriv3 N M K lo0 lo1 lo2 eps dx dy dz w phi v t hper hv
    (fun i j k x => scale * (16 * x * x * (1 - x) * (1 - x)) + ((1 - H x) * fl i j k + H x * fa i j k))
    (fun i j k => scale * (32 * phi t i j k * (1 - phi t i j k) * (1 - 2 * phi t i j k))
      + (-H' (phi t i j k) * fl i j k + H' (phi t i j k) * fa i j k))
    (fun i j k => (well_deriv scale _).add ((((hd _).const_sub 1).mul_const _).add ((hd _).mul_const _)))
  refine ⟨_, fun i j k => div3 dx dy dz (gradFlux3X eps dx (phi t)) (gradFlux3Y eps dy (phi t))
      (gradFlux3Z eps dz (phi t)) i j k
      - scale * (32 * phi t i j k * (1 - phi t i j k) * (1 - 2 * phi t i j k)) + H' (phi t i j k) * (fl i j k - fa i j k),
    fun s => ?_, fun i j k => ?_, key.congr_deriv ?_⟩
  · unfold energy3
    simp only [Option.bind_eq_bind]
    rw [accumulate_some _ _ _ (fun c => rfl),
      accumulate_some (fun c : ℤ × ℤ × ℤ => wellCell 'd' scale (phi s c.1 c.2.1 c.2.2))
        (fun c => scale * (16 * phi s c.1 c.2.1 c.2.2 * phi s c.1 c.2.1 c.2.2 *
        (1 - phi s c.1 c.2.1 c.2.2) * (1 - phi s c.1 c.2.1 c.2.2))) _ (fun c => rfl),
      accumulate_some (fun c : ℤ × ℤ × ℤ => bulkCell ty (fl c.1 c.2.1 c.2.2) (fa c.1 c.2.1 c.2.2) (phi s c.1 c.2.1 c.2.2))
        (fun c => (1 - H (phi s c.1 c.2.1 c.2.2)) * fl c.1 c.2.1 c.2.2
        + H (phi s c.1 c.2.1 c.2.2) * fa c.1 c.2.1 c.2.2) _ (fun c => by simp [bulkCell, hH _])]
    simp only [Option.bind_some, loop3_sum, ← Finset.sum_add_distrib, S3]
    congr 1
    exact Finset.sum_congr rfl fun c _ => Finset.sum_congr rfl fun b _ => Finset.sum_congr rfl fun a _ => by ring
  · simp [phaseRate3, pbgCell, derivWellFunc, fenergyCell, hH' _]
  · unfold S3
    rw [← Finset.sum_neg_distrib]
    refine Finset.sum_congr rfl fun c _ => ?_
    rw [← Finset.sum_neg_distrib]
    refine Finset.sum_congr rfl fun b _ => ?_
    rw [← Finset.sum_neg_distrib]
    exact Finset.sum_congr rfl fun a _ => by ring

/-- Specification: the direction that raises one cell of the periodic domain (and its ghost images). -/
def bump (N M : ℕ) (lo0 lo1 : ℤ) (a0 b0 : ℕ) : Field2 := fun i j =>
  if (N : ℤ) ∣ (i - (lo0 + (a0 : ℤ))) ∧ (M : ℤ) ∣ (j - (lo1 + (b0 : ℤ))) then 1 else 0

theorem bump_periodic (N M : ℕ) (lo0 lo1 : ℤ) (a0 b0 : ℕ) : Periodic2 N M (bump N M lo0 lo1 a0 b0) := by
  constructor <;> intro i j <;> unfold bump
  · have : (N : ℤ) ∣ (i + N - (lo0 + (a0 : ℤ))) ↔ (N : ℤ) ∣ (i - (lo0 + (a0 : ℤ))) := by
      rw [show i + N - (lo0 + (a0 : ℤ)) = (i - (lo0 + (a0 : ℤ))) + N by ring, dvd_add_self_right]
    simp only [this]
  · have : (M : ℤ) ∣ (j + M - (lo1 + (b0 : ℤ))) ↔ (M : ℤ) ∣ (j - (lo1 + (b0 : ℤ))) := by
      rw [show j + M - (lo1 + (b0 : ℤ)) = (j - (lo1 + (b0 : ℤ))) + M by ring, dvd_add_self_right]
    simp only [this]

theorem dvd_iff (N a a0 : ℕ) (lo : ℤ) (h : a < N) (h0 : a0 < N) :
    (N : ℤ) ∣ (lo + (a : ℤ) - (lo + (a0 : ℤ))) ↔ a = a0 := by
  rw [show lo + (a : ℤ) - (lo + (a0 : ℤ)) = (a : ℤ) - a0 by ring]
  constructor
  · intro hd
    obtain ⟨k, hk⟩ := hd
    have h1 : -(N : ℤ) < N * k := by omega
    have h2 : (N : ℤ) * k < N := by omega
    have hN : (0 : ℤ) < N := by omega
    have : k = 0 := by nlinarith
    subst this
    omega
  · rintro rfl; simp

/-- **C33**: the partial derivative of the reported energy with respect to one cell value is minus the
volume times the rate in that cell. -/
theorem c33_partial_derivative (ty : Char) (hty : ty ∈ derivGood) (N M : ℕ) (lo0 lo1 : ℤ) (eps scale dx dy w : ℝ)
    (fl fa u : Field2) (hu : Periodic2 N M u) (a0 b0 : ℕ) (ha : a0 < N) (hb : b0 < M) :
    ∃ (E : ℝ → ℝ) (r : ℝ),
      (∀ s, energy2 ty eps scale dx dy fl fa (fun _ => w) lo0 (lo0 + N - 1) lo1 (lo1 + M - 1)
        (fun i j => u i j + s * bump N M lo0 lo1 a0 b0 i j) = some (E s)) ∧
      phaseRate2 ty scale dx dy (gradFluxX eps dx u) (gradFluxY eps dy u) fl fa u (lo0 + (a0 : ℤ)) (lo1 + (b0 : ℤ)) = some r ∧
      HasDerivAt E (-(w * r)) 0 := by
  have hp := bump_periodic N M lo0 lo1 a0 b0
  obtain ⟨E, r, h1, h2, h3⟩ := c33_gradient_2d ty hty N M lo0 lo1 eps scale dx dy w fl fa
    (fun s i j => u i j + s * bump N M lo0 lo1 a0 b0 i j) (bump N M lo0 lo1 a0 b0) 0
    (fun s => ⟨fun i j => by simp only [hu.1, hp.1], fun i j => by simp only [hu.2, hp.2]⟩)
    (fun i j => by simpa using ((hasDerivAt_id' (0 : ℝ)).mul_const (bump N M lo0 lo1 a0 b0 i j)).const_add (u i j))
  refine ⟨E, r (lo0 + (a0 : ℤ)) (lo1 + (b0 : ℤ)), h1, ?_, h3.congr_deriv ?_⟩
  · have := h2 (lo0 + (a0 : ℤ)) (lo1 + (b0 : ℤ))
    simpa using this
  · congr 1
    rw [Finset.sum_eq_single b0, Finset.sum_eq_single a0]
    · simp [bump]
    · intro a h hne
      simp only [Finset.mem_range] at h
      simp only [bump, dvd_iff N a a0 lo0 h ha, hne, false_and, if_false, mul_zero]
    · simp [ha]
    · intro b h hne
      simp only [Finset.mem_range] at h
      refine Finset.sum_eq_zero fun a _ => ?_
      simp only [bump, dvd_iff M b b0 lo1 h hb, hne, and_false, if_false, mul_zero]
    · simp [hb]

/-- **C33**: the exact flow `∂phi/∂t = mobility · rate`, with any non-negative mobility field (it may change
with time and with the state), never increases the reported energy. -/
theorem c33_energy_decay_2d (ty : Char) (hty : ty ∈ derivGood) (N M : ℕ) (lo0 lo1 : ℤ) (eps scale dx dy w : ℝ)
    (hw : 0 ≤ w) (fl fa : Field2) (phi : ℝ → Field2) (mob : ℝ → Field2) (hmob : ∀ s i j, 0 ≤ mob s i j)
    (hper : ∀ s, Periodic2 N M (phi s))
    (flow : ∀ s i j, ∃ r, phaseRate2 ty scale dx dy (gradFluxX eps dx (phi s)) (gradFluxY eps dy (phi s)) fl fa
      (phi s) i j = some r ∧ HasDerivAt (fun s => phi s i j) (mob s i j * r) s) :
    ∃ E : ℝ → ℝ,
      (∀ s, energy2 ty eps scale dx dy fl fa (fun _ => w) lo0 (lo0 + N - 1) lo1 (lo1 + M - 1) (phi s) = some (E s)) ∧
      Antitone E := by
  choose r hr hflow using flow
  have hE : ∀ t, ∃ E : ℝ → ℝ, (∀ s, energy2 ty eps scale dx dy fl fa (fun _ => w) lo0 (lo0 + N - 1) lo1 (lo1 + M - 1)
      (phi s) = some (E s)) ∧ ∃ d, d ≤ 0 ∧ HasDerivAt E d t := by
    intro t
    obtain ⟨E, r', h1, h2, h3⟩ := c33_gradient_2d ty hty N M lo0 lo1 eps scale dx dy w fl fa phi
      (fun i j => mob t i j * r t i j) t hper (hflow t)
    refine ⟨E, h1, _, ?_, h3⟩
    have e : ∀ i j, r' i j = r t i j := fun i j => Option.some.inj ((h2 i j).symm.trans (hr t i j))
    simp only [e, Left.neg_nonpos_iff]
    refine Finset.sum_nonneg fun b _ => Finset.sum_nonneg fun a _ => ?_
    have := hmob t (lo0 + (a : ℤ)) (lo1 + (b : ℤ))
    rw [show w * r t (lo0 + (a : ℤ)) (lo1 + (b : ℤ)) * (mob t (lo0 + (a : ℤ)) (lo1 + (b : ℤ)) * r t (lo0 + (a : ℤ)) (lo1 + (b : ℤ)))
      = w * mob t (lo0 + (a : ℤ)) (lo1 + (b : ℤ)) * r t (lo0 + (a : ℤ)) (lo1 + (b : ℤ)) ^ 2 by ring]
    positivity
  obtain ⟨E, hE0, _⟩ := hE 0
  refine ⟨E, hE0, ?_⟩
  have hd : ∀ t, ∃ d, d ≤ 0 ∧ HasDerivAt E d t := by
    intro t
    obtain ⟨E', h', d, hd, hh⟩ := hE t
    have e : E' = E := funext fun s => Option.some.inj ((h' s).symm.trans (hE0 s))
    exact ⟨d, hd, e ▸ hh⟩
  refine antitone_of_deriv_nonpos (fun t => (hd t).choose_spec.2.differentiableAt) fun t => ?_
  rw [(hd t).choose_spec.2.deriv]
  exact (hd t).choose_spec.1

/-- The flow hypothesis is met by a resting two-phase-free state, and a bumped cell shows a non-zero rate. -/
example : phaseRate2 'p' 1 1 1 (gradFluxX 1 1 (bump 3 3 0 0 0 0)) (gradFluxY 1 1 (bump 3 3 0 0 0 0))
    (fun _ _ => 0) (fun _ _ => 0) (bump 3 3 0 0 0 0) 0 0 = some (-4) := by
  simp [phaseRate2, pbgCell, fenergyCell, derivWellFunc, derivInterpFunc, div2, gradFluxX, gradFluxY, bump,
    show ¬ ((3 : ℤ) ∣ 1) by decide]
  norm_num

example : (∀ s i j, ∃ r, phaseRate2 'p' 1 1 1 (gradFluxX 1 1 (fun _ _ => 1)) (gradFluxY 1 1 (fun _ _ => 1))
    (fun _ _ => 5) (fun _ _ => 3) (fun _ _ => 1) i j = some r ∧
    HasDerivAt (fun _ : ℝ => (1 : ℝ)) ((1 : ℝ) * r) s) := by
  intro s i j
  refine ⟨0, ?_, by simpa using hasDerivAt_const s (1 : ℝ)⟩
  simp [phaseRate2, pbgCell, fenergyCell, derivWellFunc, derivInterpFunc, div2, gradFluxX, gradFluxY, clamp]

/-- **C33** (violation for the isotropic stencil): with `compute_flux_isotropic` the rate differs from the one
above, hence from minus the gradient of the reported energy, by a twelfth of the mixed fourth difference. -/
theorem c33_violation_isotropic (ty : Char) (hty : ty ∈ derivGood) (eps scale dx dy : ℝ) (fl fa u : Field2) (i j : ℤ) :
    ∃ r r', phaseRate2 ty scale dx dy (gradFluxX eps dx u) (gradFluxY eps dy u) fl fa u i j = some r ∧
      phaseRate2 ty scale dx dy (isoFluxX eps dx u) (isoFluxY eps dy u) fl fa u i j = some r' ∧
      r' - r = eps ^ 2 / 12 * (1 / dx ^ 2 + 1 / dy ^ 2) *
        ((u (i + 1) (j + 1) - 2 * u i (j + 1) + u (i - 1) (j + 1)) - 2 * (u (i + 1) j - 2 * u i j + u (i - 1) j)
          + (u (i + 1) (j - 1) - 2 * u i (j - 1) + u (i - 1) (j - 1))) := by
  obtain ⟨H, H', hH, hH', hd⟩ := good_kind ty hty
  refine ⟨_, _, by simp [phaseRate2, pbgCell, derivWellFunc, fenergyCell, hH' _]; rfl,
    by simp [phaseRate2, pbgCell, derivWellFunc, fenergyCell, hH' _]; rfl, ?_⟩
  unfold div2 gradFluxX gradFluxY isoFluxX isoFluxY
  simp only [add_sub_cancel_right]
  ring

/-- The difference is not zero in general. -/
example : (let u : Field2 := fun i j => if i = 0 ∧ j = 0 then 1 else 0
    ((u 1 1 - 2 * u 0 1 + u (-1) 1) - 2 * (u 1 0 - 2 * u 0 0 + u (-1) 0) + (u 1 (-1) - 2 * u 0 (-1) + u (-1) (-1)))) = 4 := by
  norm_num

end AMPE.PhaseRHS.Props
