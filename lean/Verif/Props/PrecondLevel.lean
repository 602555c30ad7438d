import Verif.Model.PrecondLevel
import Verif.Props.SmoothLevel

/-!
# C115 — The equations of the preconditioner have one solution and the smoother converges to it

Spec: a level equation is well posed when there is one solution on the cells of the level and the smoothing loop comes
arbitrarily close to it from any start.
-/

namespace AMPE.PrecondLevel.Props

open AMPE.Functions AMPE.Smoother AMPE.Smoother.Props AMPE.SmoothLevel AMPE.SmoothLevel.Props AMPE.Precond AMPE.PrecondLevel

/-- One solution, reached by smoothing. -/
def WellPosed (K : Coef2) (fill : (ℤ × ℤ → ℝ) → ℤ × ℤ → ℝ) (Bs : List Box2) : Prop :=
  ∃ v, Solves2 K fill Bs v ∧ (∀ v', Solves2 K fill Bs v' → ∀ p, Lev2 Bs p → v' p = v p) ∧
    ∀ u ε, 0 < ε → ∃ N, ∀ n ≥ N, ∀ p, Lev2 Bs p → |(smooth2 K fill (-1) Bs n u).1 p - v p| < ε

theorem wellPosed_of (K : Coef2) (fill : (ℤ × ℤ → ℝ) → ℤ × ℤ → ℝ) (Bs : List Box2) (σ : ℝ) (hK : Definite2 K Bs σ)
    (hf : GoodFill inside2 Bs fill) (hj : ∀ B ∈ Bs, 0 ≤ B.jfirst) : WellPosed K fill Bs := by
  obtain ⟨v, h1, h2⟩ := c114_solution2 K fill Bs σ hK hf
  exact ⟨v, h1, h2, fun u ε hε => c114_limit2 K fill Bs σ hK hf hj v u h1 ε hε⟩

/-- **C115**: the temperature block is well posed for every step size. -/
theorem c115_temperature (dx dy diff gamma : ℝ) (rhs : ℤ × ℤ → ℝ) (fill : (ℤ × ℤ → ℝ) → ℤ × ℤ → ℝ) (Bs : List Box2)
    (hx : 0 < dx) (hy : 0 < dy) (hd : 0 ≤ diff) (hg : 0 ≤ gamma) (hf : GoodFill inside2 Bs fill)
    (hj : ∀ B ∈ Bs, 0 ≤ B.jfirst) : WellPosed (tempCoef dx dy diff gamma rhs) fill Bs := by
  have h := mul_nonneg hg hd
  refine wellPosed_of _ fill Bs (-1) ?_ hf hj
  constructor <;> simp [tempCoef, hx, hy, h]

/-- **C115**: the composition block is well posed for every step size and every field of non-negative diffusion
coefficients. -/
theorem c115_composition (dx dy gamma mobility : ℝ) (Dx Dy rhs : ℤ × ℤ → ℝ) (fill : (ℤ × ℤ → ℝ) → ℤ × ℤ → ℝ)
    (Bs : List Box2) (hx : 0 < dx) (hy : 0 < dy) (hm : 0 ≤ mobility) (hg : 0 ≤ gamma) (hDx : ∀ p, 0 ≤ Dx p)
    (hDy : ∀ p, 0 ≤ Dy p) (hf : GoodFill inside2 Bs fill) (hj : ∀ B ∈ Bs, 0 ≤ B.jfirst) :
    WellPosed (concCoef dx dy gamma mobility Dx Dy rhs) fill Bs := by
  have e : ∀ a : ℝ, 0 ≤ a → 0 ≤ -1 * (mobility * (-gamma * a)) := fun a ha => by
    have : 0 ≤ mobility * (gamma * a) := by positivity
    linarith
  refine wellPosed_of _ fill Bs (-1) ⟨Or.inr rfl, ⟨hx, le_rfl⟩, ⟨hy, le_rfl⟩, fun p _ => e _ (hDx _), fun p _ => e _ (hDx _),
    fun p _ => e _ (hDy _), fun p _ => e _ (hDy _), fun p _ => ?_⟩ hf hj
  simp [concCoef]

/-- **C115**: the scalar field of the phase block with the double well is at least `1 - 16 γ M ω`, with equality exactly
at `φ = 1/2` (when `γ M ω` is not zero); with the single well it is at least 1, with several order parameters it is 1. -/
theorem c115_phase_coefficient (gamma m scale phi : ℝ) (h : 0 ≤ gamma * m * scale) :
    (∀ c, phaseC 'd' gamma m scale phi = some c →
      1 - 16 * (gamma * m * scale) ≤ c ∧ (0 < gamma * m * scale → (c = 1 - 16 * (gamma * m * scale) ↔ phi = 1 / 2))) ∧
    (∀ c, phaseC 's' gamma m scale phi = some c → 1 ≤ c) ∧
    (∀ ty c n, 1 < n → phaseC ty gamma m (blockScale n scale) phi = some c → c = 1) := by
  refine ⟨?_, ?_, ?_⟩
  · intro c hc
    have hc : c = 1.0 + gamma * m * scale * (32 * (1 + 6 * phi * (phi - 1))) := by
      simpa [phaseC, secondDerivWellFunc] using hc.symm
    have e : c = 1 - 16 * (gamma * m * scale) + 192 * (gamma * m * scale) * (phi - 1 / 2) ^ 2 := by
      rw [hc]; norm_num; ring
    refine ⟨?_, fun hpos => ?_⟩
    · rw [e]
      have := mul_nonneg h (sq_nonneg (phi - 1 / 2))
      linarith
    · rw [e]
      constructor
      · intro h0
        have h1 : (gamma * m * scale) * (phi - 1 / 2) ^ 2 = 0 := by linarith
        have h2 := (mul_eq_zero.1 h1).resolve_left hpos.ne'
        have h3 := pow_eq_zero_iff (two_ne_zero) |>.1 h2
        linarith
      · intro h0
        rw [h0]; ring
  · intro c hc
    have hc : c = 1.0 + gamma * m * scale * 2 := by
      simpa [phaseC, secondDerivWellFunc] using hc.symm
    rw [hc]; norm_num; linarith
  · intro ty c n hn hc
    unfold phaseC blockScale at hc
    rw [if_pos hn] at hc
    obtain ⟨g, _, hg⟩ := Option.bind_eq_some_iff.1 hc
    simp at hg
    rw [← hg]; norm_num

/-- **C115**: the phase block is well posed where its scalar field is positive. -/
theorem c115_phase (dx dy eps gamma : ℝ) (M C rhs : ℤ × ℤ → ℝ) (fill : (ℤ × ℤ → ℝ) → ℤ × ℤ → ℝ) (Bs : List Box2)
    (hx : 0 < dx) (hy : 0 < dy) (hg : 0 ≤ gamma) (hM : ∀ p, Lev2 Bs p → 0 ≤ M p) (hC : ∀ p, Lev2 Bs p → 0 < C p)
    (hf : GoodFill inside2 Bs fill) (hj : ∀ B ∈ Bs, 0 ≤ B.jfirst) :
    WellPosed (phaseCoef dx dy eps gamma M C rhs) fill Bs := by
  have e : ∀ p, Lev2 Bs p → 0 ≤ -1 * (M p * (-gamma * eps * eps)) := fun p hp => by
    have : 0 ≤ M p * (gamma * (eps * eps)) := mul_nonneg (hM p hp) (mul_nonneg hg (mul_self_nonneg eps))
    linarith
  refine wellPosed_of _ fill Bs (-1) ⟨Or.inr rfl, ⟨hx, le_rfl⟩, ⟨hy, le_rfl⟩, e, e, e, e, fun p hp => ?_⟩ hf hj
  have := hC p hp
  simpa [phaseCoef] using this

/-- **C115**: the phase block of a double-well run is well posed for all phases when `16 γ M ω < 1` in every cell. -/
theorem c115_phase_small_step_partial (dx dy eps gamma scale : ℝ) (M C phi rhs : ℤ × ℤ → ℝ)
    (fill : (ℤ × ℤ → ℝ) → ℤ × ℤ → ℝ) (Bs : List Box2) (hx : 0 < dx) (hy : 0 < dy) (hg : 0 ≤ gamma) (hs : 0 ≤ scale)
    (hM : ∀ p, Lev2 Bs p → 0 ≤ M p)
    (hC : ∀ p, Lev2 Bs p → phaseC 'd' gamma (M p) scale (phi p) = some (C p))
    (hsmall : ∀ p, Lev2 Bs p → 16 * (gamma * M p * scale) < 1) (hf : GoodFill inside2 Bs fill)
    (hj : ∀ B ∈ Bs, 0 ≤ B.jfirst) : WellPosed (phaseCoef dx dy eps gamma M C rhs) fill Bs :=
  c115_phase dx dy eps gamma M C rhs fill Bs hx hy hg hM (fun p hp => by
    have h0 : 0 ≤ gamma * M p * scale := mul_nonneg (mul_nonneg hg (hM p hp)) hs
    have h1 := ((c115_phase_coefficient gamma (M p) scale (phi p) h0).1 _ (hC p hp)).1
    have h2 := hsmall p hp
    linarith) hf hj

/-- The hypotheses are met. -/
example : ∃ (C : ℤ × ℤ → ℝ), (∀ p : ℤ × ℤ, phaseC 'd' (1 / 32) 1 1 (1 / 2) = some (C p)) ∧
    16 * ((1 / 32 : ℝ) * 1 * 1) < 1 := by
  refine ⟨fun _ => 1 / 2, fun p => ?_, by norm_num⟩
  simp [phaseC, secondDerivWellFunc]
  norm_num

/-! ## Large steps -/

/-- Denominator of the update of a cell with the phase block. -/
noncomputable def diagonal (dx dy eps gamma m c : ℝ) : ℝ := -(gamma * m * eps ^ 2 * (2 / dx ^ 2 + 2 / dy ^ 2)) - c

theorem phase_dudr (dx dy eps gamma : ℝ) (M C rhs : ℤ × ℤ → ℝ) (p : ℤ × ℤ) :
    (phaseCoef dx dy eps gamma M C rhs).dudr p = 1 / diagonal dx dy eps gamma (M p) (C p) := by
  unfold Coef2.dudr diagonal phaseCoef
  simp only
  congr 2
  simp only [div_eq_mul_inv, one_mul, ← inv_pow]
  ring

/-- **C115**: when the mesh resolves the interface (`16 ω ≤ ε² (2/dx² + 2/dy²)`) no update divides by zero, whatever the
step size and the phase. -/
theorem c115_resolved (dx dy eps gamma m scale phi c : ℝ) (hg : 0 ≤ gamma) (hm : 0 ≤ m) (hs : 0 ≤ scale)
    (hres : 16 * scale ≤ eps ^ 2 * (2 / dx ^ 2 + 2 / dy ^ 2)) (hc : phaseC 'd' gamma m scale phi = some c) :
    diagonal dx dy eps gamma m c ≤ -1 := by
  have h0 : 0 ≤ gamma * m * scale := mul_nonneg (mul_nonneg hg hm) hs
  have h1 := ((c115_phase_coefficient gamma m scale phi h0).1 _ hc).1
  have h2 := mul_le_mul_of_nonneg_left hres (mul_nonneg hg hm)
  unfold diagonal
  nlinarith

/-- **C115** is violated on coarser meshes: there is a step size for which the update of a cell with `φ = 1/2` divides by
zero. -/
theorem c115_violation_zero_diagonal (dx dy eps m scale : ℝ) (hm : 0 < m)
    (hres : eps ^ 2 * (2 / dx ^ 2 + 2 / dy ^ 2) < 16 * scale) :
    ∃ gamma c, 0 < gamma ∧ phaseC 'd' gamma m scale (1 / 2) = some c ∧ diagonal dx dy eps gamma m c = 0 := by
  have hpos : 0 < m * (16 * scale - eps ^ 2 * (2 / dx ^ 2 + 2 / dy ^ 2)) := mul_pos hm (by linarith)
  refine ⟨1 / (m * (16 * scale - eps ^ 2 * (2 / dx ^ 2 + 2 / dy ^ 2))),
    1 - 16 * (1 / (m * (16 * scale - eps ^ 2 * (2 / dx ^ 2 + 2 / dy ^ 2))) * m * scale), by positivity, ?_, ?_⟩
  · generalize 1 / (m * (16 * scale - eps ^ 2 * (2 / dx ^ 2 + 2 / dy ^ 2))) = g
    simp only [phaseC, secondDerivWellFunc, if_true, Option.bind_eq_bind, Option.bind_some, Option.some.injEq]
    norm_num
    ring
  · have h1 : 1 / (m * (16 * scale - eps ^ 2 * (2 / dx ^ 2 + 2 / dy ^ 2))) *
        (m * (16 * scale - eps ^ 2 * (2 / dx ^ 2 + 2 / dy ^ 2))) = 1 := one_div_mul_cancel hpos.ne'
    unfold diagonal
    generalize 1 / (m * (16 * scale - eps ^ 2 * (2 / dx ^ 2 + 2 / dy ^ 2))) = g at h1 ⊢
    linear_combination h1

example : ∃ (dx dy eps scale : ℝ), 0 < dx ∧ 0 < dy ∧ 0 < eps ∧ 0 < scale ∧
    eps ^ 2 * (2 / dx ^ 2 + 2 / dy ^ 2) < 16 * scale ∧ 16 * (scale / 16) ≤ eps ^ 2 * (2 / dx ^ 2 + 2 / dy ^ 2) :=
  ⟨1, 1, 1, 1, by norm_num⟩

theorem grow_update (dx dy eps gamma m c : ℝ) (rhs : ℤ × ℤ → ℝ) (hx : 0 < dx) (hy : 0 < dy)
    (hg : 0 ≤ gamma) (hm : 0 ≤ m) (hd : diagonal dx dy eps gamma m c < 0) (u v : ℤ × ℤ → ℝ) (D : ℝ)
    (h : ∀ q, D ≤ u q - v q) (p : ℤ × ℤ) :
    gamma * m * eps ^ 2 * (2 / dx ^ 2 + 2 / dy ^ 2) / -diagonal dx dy eps gamma m c * D ≤
      upd2 (phaseCoef dx dy eps gamma (fun _ => m) (fun _ => c) rhs) u p -
        upd2 (phaseCoef dx dy eps gamma (fun _ => m) (fun _ => c) rhs) v p := by
  have hd' : 0 < -diagonal dx dy eps gamma m c := by linarith
  have e : upd2 (phaseCoef dx dy eps gamma (fun _ => m) (fun _ => c) rhs) u p -
        upd2 (phaseCoef dx dy eps gamma (fun _ => m) (fun _ => c) rhs) v p =
      gamma * m * eps ^ 2 * (((u (p.1 - 1, p.2) - v (p.1 - 1, p.2)) + (u (p.1 + 1, p.2) - v (p.1 + 1, p.2))) / dx ^ 2 +
        ((u (p.1, p.2 - 1) - v (p.1, p.2 - 1)) + (u (p.1, p.2 + 1) - v (p.1, p.2 + 1))) / dy ^ 2) /
        -diagonal dx dy eps gamma m c := by
    rw [eq_div_iff hd'.ne']
    unfold upd2
    rw [phase_dudr]
    have hne : diagonal dx dy eps gamma m c ≠ 0 := hd.ne
    have h1 : 1 / diagonal dx dy eps gamma m c * -diagonal dx dy eps gamma m c = -1 := by field_simp
    have h2 : diagonal dx dy eps gamma m c = -(gamma * m * eps ^ 2 * (2 / dx ^ 2 + 2 / dy ^ 2)) - c := rfl
    have hR : (phaseCoef dx dy eps gamma (fun _ => m) (fun _ => c) rhs).levelResidual u p -
        (phaseCoef dx dy eps gamma (fun _ => m) (fun _ => c) rhs).levelResidual v p =
      gamma * m * eps ^ 2 * (((u (p.1 - 1, p.2) - v (p.1 - 1, p.2)) + (u (p.1 + 1, p.2) - v (p.1 + 1, p.2))) / dx ^ 2 +
        ((u (p.1, p.2 - 1) - v (p.1, p.2 - 1)) + (u (p.1, p.2 + 1) - v (p.1, p.2 + 1))) / dy ^ 2) -
        (gamma * m * eps ^ 2 * (2 / dx ^ 2 + 2 / dy ^ 2) + c) * (u p - v p) := by
      unfold Coef2.levelResidual Coef2.residual Coef2.xflux Coef2.yflux phaseCoef
      simp only [add_sub_cancel_right, Prod.mk.eta, div_eq_mul_inv, one_mul, ← inv_pow]
      ring
    generalize 1 / diagonal dx dy eps gamma m c = d at h1
    generalize diagonal dx dy eps gamma m c = g at h1 h2
    generalize (phaseCoef dx dy eps gamma (fun _ => m) (fun _ => c) rhs).levelResidual u p = Ru at hR
    generalize (phaseCoef dx dy eps gamma (fun _ => m) (fun _ => c) rhs).levelResidual v p = Rv at hR
    linear_combination (-(Ru - Rv)) * h1 + (-(u p - v p)) * h2 + hR
  rw [e, div_mul_eq_mul_div]
  refine div_le_div_of_nonneg_right ?_ hd'.le
  have k : 0 ≤ gamma * m * eps ^ 2 := by positivity
  rw [mul_assoc]
  refine mul_le_mul_of_nonneg_left ?_ k
  have ax := div_le_div_of_nonneg_right (add_le_add (h (p.1 - 1, p.2)) (h (p.1 + 1, p.2))) (sq_nonneg dx)
  have ay := div_le_div_of_nonneg_right (add_le_add (h (p.1, p.2 - 1)) (h (p.1, p.2 + 1))) (sq_nonneg dy)
  have : (2 / dx ^ 2 + 2 / dy ^ 2) * D = (D + D) / dx ^ 2 + (D + D) / dy ^ 2 := by ring
  linarith

/-- **C115** is violated for large steps: on a patch with zero-flux boundary, uniform mobility and uniform scalar field
`c < 0` (for example `φ = 1/2` everywhere and `16 γ M ω > 1`), a smoothing loop started above the solution moves away
from it by a constant factor `λ > 1` in each sweep. -/
theorem c115_violation_diverges (dx dy eps gamma m c : ℝ) (rhs : ℤ × ℤ → ℝ) (B : Box2) (hx : 0 < dx) (hy : 0 < dy)
    (hg : 0 ≤ gamma) (hm : 0 ≤ m) (hc : c < 0) (hd : diagonal dx dy eps gamma m c < 0)
    (hi : B.ifirst ≤ B.ilast) (hj : 0 ≤ B.jfirst) (hj2 : B.jfirst ≤ B.jlast) :
    ∃ lam, 1 < lam ∧ ∀ (u v : ℤ × ℤ → ℝ) (D : ℝ), 0 < D →
      Solves2 (phaseCoef dx dy eps gamma (fun _ => m) (fun _ => c) rhs) (noFluxFill B) [B] v →
      (∀ p, Lev2 [B] p → D ≤ u p - v p) → ∀ n p, Lev2 [B] p →
        lam ^ n * D ≤
          (smooth2 (phaseCoef dx dy eps gamma (fun _ => m) (fun _ => c) rhs) (noFluxFill B) (-1) [B] n u).1 p - v p := by
  have hd' : 0 < -diagonal dx dy eps gamma m c := by linarith
  have hlam : 1 < gamma * m * eps ^ 2 * (2 / dx ^ 2 + 2 / dy ^ 2) / -diagonal dx dy eps gamma m c := by
    rw [lt_div_iff₀ hd', one_mul]
    unfold diagonal
    linarith
  refine ⟨_, hlam, ?_⟩
  intro u v D hD hv hu n
  have hf := noFluxFill_good B hi hj2
  have hfix := solves2_fixed hf hv
  have hgrow : ∀ (y : ℤ × ℤ → ℝ) (E : ℝ), (∀ q, E ≤ noFluxFill B y q - noFluxFill B v q) → ∀ p, Lev2 [B] p →
      gamma * m * eps ^ 2 * (2 / dx ^ 2 + 2 / dy ^ 2) / -diagonal dx dy eps gamma m c * E ≤
        upd2 (phaseCoef dx dy eps gamma (fun _ => m) (fun _ => c) rhs) (noFluxFill B y) p - v p := by
    intro y E hE p hp
    have := grow_update dx dy eps gamma m c rhs hx hy hg hm hd (noFluxFill B y) (noFluxFill B v) E hE p
    rwa [hfix p hp] at this
  generalize gamma * m * eps ^ 2 * (2 / dx ^ 2 + 2 / dy ^ 2) / -diagonal dx dy eps gamma m c = lam at hlam hgrow
  generalize phaseCoef dx dy eps gamma (fun _ => m) (fun _ => c) rhs = K at hv hfix hgrow
  have hlift : ∀ (y : ℤ × ℤ → ℝ) (E : ℝ), (∀ p, Lev2 [B] p → E ≤ y p - v p) →
      ∀ q, E ≤ noFluxFill B y q - noFluxFill B v q := by
    intro y E hE q
    refine hE _ ⟨B, by simp, ?_⟩
    exact ⟨le_max_left _ _, max_le hi (min_le_left _ _), le_max_left _ _, max_le hj2 (min_le_left _ _)⟩
  have hin : ∀ p, Lev2 [B] p → inside2 B p := by
    rintro x ⟨B', hB', hx⟩
    rw [List.mem_singleton.1 hB'] at hx
    exact hx
  have hval : ∀ off (y : ℤ × ℤ → ℝ) p, Lev2 [B] p →
      (levelPass inside2 (fun B u => K.colourPass B off u) (noFluxFill B) [B] y).1 p =
        (K.colourPass B off (noFluxFill B y)).1 p := fun off y p hp => by
    show (if inside2 B p then _ else _) = _
    exact if_pos (hin p hp)
  have hpass : ∀ off (y : ℤ × ℤ → ℝ) (E : ℝ), 0 < E → (∀ p, Lev2 [B] p → E ≤ y p - v p) → ∀ p, Lev2 [B] p →
      E ≤ (levelPass inside2 (fun B u => K.colourPass B off u) (noFluxFill B) [B] y).1 p - v p ∧
      (p ∈ cells2 B off → lam * E ≤ (levelPass inside2 (fun B u => K.colourPass B off u) (noFluxFill B) [B] y).1 p - v p) ∧
      (p ∉ cells2 B off → (levelPass inside2 (fun B u => K.colourPass B off u) (noFluxFill B) [B] y).1 p = y p) := by
    intro off y E hE hy p hp
    rw [hval off y p hp]
    by_cases hm : p ∈ cells2 B off
    · rw [hit2 K off B _ p hm]
      have h := hgrow y E (hlift y E hy) p hp
      exact ⟨by nlinarith, fun _ => h, fun h' => absurd hm h'⟩
    · rw [c43_untouched K B off _ p (Or.inl hm), hf.keep _ _ hp]
      exact ⟨hy p hp, fun h' => absurd h' hm, fun _ => rfl⟩
  have hsweep : ∀ (y : ℤ × ℤ → ℝ) (E : ℝ), 0 < E → (∀ p, Lev2 [B] p → E ≤ y p - v p) → ∀ p, Lev2 [B] p →
      lam * E ≤ (sweep inside2 (fun off B u => K.colourPass B off u) (noFluxFill B) [B] y).1 p - v p := by
    intro y E hE hy p hp
    have hr := hpass 0 y E hE hy
    have hb := hpass 1 _ E hE (fun p hp => (hr p hp).1) p hp
    have hcov := (cover_of ((c43_once2 B).2 (Or.inl hj)) p (hin p hp)).1
    unfold sweep
    simp only
    by_cases hm : p ∈ cells2 B 1
    · exact hb.2.1 hm
    · rw [hb.2.2 hm]
      exact (hr p hp).2.1 (hcov.resolve_right hm)
  obtain ⟨h1, h2, h3⟩ := smooth_iter (inside := inside2) (cp := fun off B u => K.colourPass B off u)
    (fill := noFluxFill B) (Bs := [B]) (-1) n u
  unfold smooth2
  rw [h1, h3 (by norm_num)]
  clear h1 h2 h3 hgrow
  induction n generalizing u D with
  | zero => simpa using hu
  | succ n ih =>
    simp only [Function.iterate_succ, Function.comp]
    intro p hp
    have := ih (sweep inside2 (fun off B u => K.colourPass B off u) (noFluxFill B) [B] u).1 (lam * D)
      (by nlinarith) (hsweep u D hD hu) p hp
    rw [pow_succ, mul_assoc]
    exact this

/-- The hypotheses are met: `φ = 1/2`, `γ M ω = 1/8`, resolved interface. -/
example : ∃ dx dy eps gamma m c : ℝ, phaseC 'd' gamma m 1 (1 / 2) = some c ∧ 0 < dx ∧ 0 < dy ∧ 0 ≤ gamma ∧ 0 ≤ m ∧ c < 0 ∧
    diagonal dx dy eps gamma m c < 0 := by
  refine ⟨1, 1, 2, 1 / 8, 1, -1, ?_, by norm_num, by norm_num, by norm_num, by norm_num, by norm_num, by norm_num [diagonal]⟩
  simp only [phaseC, secondDerivWellFunc, if_true, Option.bind_eq_bind, Option.bind_some, Option.some.injEq]
  norm_num

end AMPE.PrecondLevel.Props
