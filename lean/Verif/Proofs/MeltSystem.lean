import Verif.Proofs.Existence
import Verif.Props.Dependence
import Mathlib.Topology.Algebra.Module.FiniteDimension

/-!
# Phase and temperature on finitely many cells

The two equations of a pure melt with the stencils left open: linear maps that pull a cell towards the others.  Solutions exist up to any
time, keep the phase between zero and one, and are determined by their start.
-/

namespace AMPE.MeltSystem

open Set AMPE.Existence AMPE.Invariance AMPE.Converge AMPE.Convergence.Props AMPE.Dependence.Props

variable {ι : Type} [Fintype ι]

/-- Diffusion and frame of the phase `A`, of the temperature `H`, weighted temperature `W`, mobility `m`, heat released per unit of phase `g`,
driving force `β - α w`. -/
structure Sys (ι : Type) where
  A : ι → (ι → ℝ) →ₗ[ℝ] ℝ
  H : ι → (ι → ℝ) →ₗ[ℝ] ℝ
  W : ι → (ι → ℝ) →ₗ[ℝ] ℝ
  m : ι → ℝ
  g : ι → ℝ
  interp : Char
  scale : ℝ
  α : ℝ
  β : ℝ

/-- A cell of smallest value is pulled up, constants are not moved. -/
def Pulls (A : (ι → ℝ) →ₗ[ℝ] ℝ) (c : ι) : Prop := (∀ x : ι → ℝ, (∀ q, x c ≤ x q) → 0 ≤ A x) ∧ ∀ k : ℝ, A (fun _ => k) = 0

/-- The weighted temperature is no larger than the temperatures. -/
def Means (W : (ι → ℝ) →ₗ[ℝ] ℝ) : Prop := ∀ (x : ι → ℝ) (R : ℝ), (∀ q, |x q| ≤ R) → |W x| ≤ R

noncomputable def Sys.phase (P : Sys ι) (φ T : ι → ℝ) (c : ι) : ℝ := P.A c φ + P.m c * reaction P.interp P.scale (P.β - P.α * P.W c T) (φ c)

noncomputable def Sys.heat (P : Sys ι) (φ T : ι → ℝ) (c : ι) : ℝ := P.H c T + P.g c * P.phase φ T c

/-- Both equations as one system: `(c, false)` is the phase, `(c, true)` the temperature. -/
noncomputable def Sys.field (P : Sys ι) (x : ι × Bool → ℝ) : ι × Bool → ℝ := fun p =>
  if p.2 then P.heat (fun q => x (q, false)) (fun q => x (q, true)) p.1 else P.phase (fun q => x (q, false)) (fun q => x (q, true)) p.1

theorem lin_contDiff (A : (ι → ℝ) →ₗ[ℝ] ℝ) (b : Bool) : ContDiff ℝ 1 (fun x : ι × Bool → ℝ => A (fun q => x (q, b))) := by
  have h1 : ContDiff ℝ 1 A.toContinuousLinearMap := ContinuousLinearMap.contDiff _
  have h2 : ContDiff ℝ 1 (fun x : ι × Bool → ℝ => fun q => x (q, b)) := contDiff_pi.2 fun q => contDiff_apply ℝ ℝ (q, b)
  exact h1.comp h2

theorem phase_contDiff (P : Sys ι) (c : ι) :
    ContDiff ℝ 1 (fun x : ι × Bool → ℝ => P.phase (fun q => x (q, false)) (fun q => x (q, true)) c) := by
  have hx : ContDiff ℝ 1 (fun x : ι × Bool → ℝ => x (c, false)) := contDiff_apply ℝ ℝ (c, false)
  unfold Sys.phase reaction slopeH
  have hA := lin_contDiff (P.A c) false
  have hW := lin_contDiff (P.W c) true
  split_ifs <;> fun_prop

theorem field_lip (P : Sys ι) : LocallyLipschitz P.field := by
  refine ContDiff.locallyLipschitz (𝕂 := ℝ) (contDiff_pi.2 fun p => ?_)
  obtain ⟨c, b⟩ := p
  cases b with
  | false => simpa [Sys.field] using phase_contDiff P c
  | true =>
    have := phase_contDiff P c
    have hH := lin_contDiff (P.H c) true
    simp only [Sys.field, if_true, Sys.heat]
    fun_prop

theorem reaction_zero (interp : Char) (scale d : ℝ) : reaction interp scale d 0 = 0 := by
  unfold reaction slopeH; split_ifs <;> ring

theorem reaction_one (interp : Char) (scale d : ℝ) : reaction interp scale d 1 = 0 := by
  unfold reaction slopeH; split_ifs <;> ring

theorem reaction_le (interp : Char) {scale d y : ℝ} (hs : 0 ≤ scale) (h0 : 0 ≤ y) (h1 : y ≤ 1) :
    |reaction interp scale d y| ≤ 32 * scale + 15 / 8 * |d| := by
  have hw : |32 * y * (1 - y) * (1 - 2 * y)| ≤ 32 := by
    rw [abs_mul, abs_mul, abs_mul]
    have a1 : |y| ≤ 1 := by rw [abs_le]; constructor <;> linarith
    have a2 : |1 - y| ≤ 1 := by rw [abs_le]; constructor <;> linarith
    have a3 : |1 - 2 * y| ≤ 1 := by rw [abs_le]; constructor <;> linarith
    have := mul_le_mul (mul_le_mul a1 a2 (abs_nonneg _) zero_le_one) a3 (abs_nonneg _) (by norm_num)
    rw [abs_of_pos (by norm_num : (0:ℝ) < 32)]
    nlinarith
  have hsl := slopeH_le interp h0 h1
  unfold reaction
  refine (abs_add_le _ _).trans ?_
  rw [abs_mul (-scale), abs_neg, abs_of_nonneg hs, abs_mul (slopeH _ _)]
  have := mul_le_mul_of_nonneg_left hw hs
  have := mul_le_mul_of_nonneg_right hsl (abs_nonneg d)
  linarith

/-- The phase rate is bounded by a constant plus a multiple of the temperatures. -/
theorem phase_bound [Nonempty ι] (P : Sys ι) (hs : 0 ≤ P.scale) (hW : ∀ c, Means (P.W c)) :
    ∃ C D : ℝ, 0 ≤ C ∧ 0 ≤ D ∧ ∀ (φ T : ι → ℝ) (R : ℝ), (∀ q, 0 ≤ φ q ∧ φ q ≤ 1) → (∀ q, |T q| ≤ R) → ∀ c, |P.g c * P.phase φ T c| ≤ C + D * R := by
  have one : ∀ c, ∃ C D : ℝ, 0 ≤ C ∧ 0 ≤ D ∧ ∀ (φ T : ι → ℝ) (R : ℝ), (∀ q, 0 ≤ φ q ∧ φ q ≤ 1) → (∀ q, |T q| ≤ R) → |P.g c * P.phase φ T c| ≤ C + D * R := fun c => by
    set N := ‖(P.A c).toContinuousLinearMap‖
    refine ⟨|P.g c| * (N + |P.m c| * (32 * P.scale + 15 / 8 * |P.β|)), |P.g c| * (|P.m c| * (15 / 8 * |P.α|)), by positivity, by positivity,
      fun φ T R hφ hT => ?_⟩
    rw [abs_mul]
    have hA : |P.A c φ| ≤ N := by
      have h1 := (P.A c).toContinuousLinearMap.le_opNorm φ
      have h2 : ‖φ‖ ≤ 1 := (pi_norm_le_iff_of_nonneg zero_le_one).2 fun q => by
        rw [Real.norm_eq_abs, abs_le]; constructor <;> linarith [(hφ q).1, (hφ q).2]
      rw [Real.norm_eq_abs] at h1
      exact h1.trans ((mul_le_mul_of_nonneg_left h2 (norm_nonneg _)).trans (le_of_eq (mul_one _)))
    have hd : |P.β - P.α * P.W c T| ≤ |P.β| + |P.α| * R := by
      refine (abs_sub _ _).trans ?_
      rw [abs_mul]
      have := mul_le_mul_of_nonneg_left (hW c T R hT) (abs_nonneg P.α)
      linarith
    have hr := reaction_le P.interp (d := P.β - P.α * P.W c T) hs (hφ c).1 (hφ c).2
    have hp : |P.phase φ T c| ≤ N + |P.m c| * (32 * P.scale + 15 / 8 * (|P.β| + |P.α| * R)) := by
      unfold Sys.phase
      refine (abs_add_le _ _).trans (add_le_add hA ?_)
      rw [abs_mul]
      exact mul_le_mul_of_nonneg_left (hr.trans (by linarith)) (abs_nonneg _)
    exact (mul_le_mul_of_nonneg_left hp (abs_nonneg _)).trans (le_of_eq (by ring))
  choose C D hC hD hb using one
  refine ⟨∑ c, C c, ∑ c, D c, Finset.sum_nonneg fun c _ => hC c, Finset.sum_nonneg fun c _ => hD c, fun φ T R hφ hT c => ?_⟩
  have hR : 0 ≤ R := (abs_nonneg _).trans (hT (Classical.arbitrary ι))
  have h1 := Finset.single_le_sum (fun q _ => hC q) (Finset.mem_univ c)
  have h2 := Finset.single_le_sum (fun q _ => hD q) (Finset.mem_univ c)
  exact (hb c φ T R hφ hT).trans (add_le_add h1 (mul_le_mul_of_nonneg_right h2 hR))

theorem pulls_down {A : (ι → ℝ) →ₗ[ℝ] ℝ} {c : ι} (h : Pulls A c) {x : ι → ℝ} (hx : ∀ q, x q ≤ x c) : A x ≤ 0 := by
  have := h.1 (-x) fun q => by simpa using hx q
  rw [map_neg] at this
  linarith

/-- Existence. -/
theorem exists_solution [Nonempty ι] (P : Sys ι) (hs : 0 ≤ P.scale) (hA : ∀ c, Pulls (P.A c) c) (hH : ∀ c, Pulls (P.H c) c) (hW : ∀ c, Means (P.W c))
    (T : ℝ) (hT : 0 ≤ T) (φ0 T0 : ι → ℝ) (h0 : ∀ c, 0 ≤ φ0 c ∧ φ0 c ≤ 1) :
    ∃ φ τ : ℝ → ι → ℝ, φ 0 = φ0 ∧ τ 0 = T0 ∧ (∀ t ∈ Icc 0 T, ∀ c, 0 ≤ φ t c ∧ φ t c ≤ 1) ∧
      (∀ t ∈ Icc 0 T, ∀ c, HasDerivAt (fun s => φ s c) (P.phase (φ t) (τ t) c) t) ∧
      ∀ t ∈ Icc 0 T, ∀ c, HasDerivAt (fun s => τ s c) (P.heat (φ t) (τ t) c) t := by
  obtain ⟨C, D, hC, hD, hb⟩ := phase_bound P hs hW
  set E := ‖T0‖
  set R := (E + C * T) * Real.exp (D * T)
  have hE : 0 ≤ E := norm_nonneg _
  have hR : 0 ≤ R := by positivity
  set lo : ι × Bool → ℝ := fun p => if p.2 then -R else 0 with hlo
  set hi : ι × Bool → ℝ := fun p => if p.2 then R else 1 with hhi
  have hle : ∀ p, lo p ≤ hi p := fun p => by simp only [hlo, hhi]; split_ifs <;> linarith
  obtain ⟨y, y0, hy⟩ := exists_clip P.field (field_lip P) hle T hT (fun p => if p.2 then T0 p.1 else φ0 p.1)
  set z : ℝ → ι × Bool → ℝ := fun t => clip lo hi (y t) with hz
  have zphi : ∀ t q, z t (q, false) = max 0 (min (y t (q, false)) 1) := fun t q => by simp [hz, clip, hlo, hhi]
  have ztau : ∀ t q, z t (q, true) = max (-R) (min (y t (q, true)) R) := fun t q => by simp [hz, clip, hlo, hhi]
  have z01 : ∀ t q, 0 ≤ z t (q, false) ∧ z t (q, false) ≤ 1 := fun t q => by
    rw [zphi]; exact ⟨le_max_left _ _, max_le zero_le_one (min_le_right _ _)⟩
  have dphi : ∀ t ∈ Icc 0 T, ∀ c, HasDerivAt (fun s => y s (c, false)) (P.phase (fun q => z t (q, false)) (fun q => z t (q, true)) c) t :=
    fun t ht c => by simpa [Sys.field] using hy t ht (c, false)
  have dtau : ∀ t ∈ Icc 0 T, ∀ c, HasDerivAt (fun s => y s (c, true)) (P.heat (fun q => z t (q, false)) (fun q => z t (q, true)) c) t :=
    fun t ht c => by simpa [Sys.field] using hy t ht (c, true)
  have low := stays_nonneg (Finset.univ : Finset ι) (fun t c => y t (c, false)) _ T 0 1 one_pos (fun t ht c _ => dphi t ht c)
    (fun c _ => by rw [y0]; simpa using (h0 c).1) fun t ht c _ hmin _ hneg => by
      have hzc : z t (c, false) = 0 := by
        rw [zphi]; exact max_eq_left ((min_le_left _ _).trans hneg.le)
      have := (hA c).1 (fun q => z t (q, false)) fun q => by rw [hzc]; exact (z01 t q).1
      unfold Sys.phase
      simp only [hzc, reaction_zero]
      linarith
  have high := stays_nonneg (Finset.univ : Finset ι) (fun t c => 1 - y t (c, false)) _ T 0 1 one_pos (fun t ht c _ => (dphi t ht c).const_sub 1)
    (fun c _ => by rw [y0]; simpa using (h0 c).2) fun t ht c _ hmin _ hneg => by
      have hzc : z t (c, false) = 1 := by
        rw [zphi, min_eq_right (by linarith), max_eq_right zero_le_one]
      have := pulls_down (hA c) (x := fun q => z t (q, false)) fun q => by rw [hzc]; exact (z01 t q).2
      unfold Sys.phase
      simp only [hzc, reaction_one]
      linarith
  have zle : ∀ t (m : ℝ), (∀ q, |y t (q, true)| ≤ m) → ∀ q, |z t (q, true)| ≤ m := fun t m hm q => by
    have := abs_le.1 (hm q)
    rw [ztau, abs_le]
    constructor
    · refine le_max_iff.2 ?_
      by_cases h : R ≤ m
      · exact Or.inl (by linarith)
      · exact Or.inr (le_min this.1 (by linarith [abs_nonneg (y t (q, true)), hm q]))
    · exact max_le (by linarith [abs_nonneg (y t (q, true)), hm q]) ((min_le_left _ _).trans this.2)
  have temp := error_le (Finset.univ : Finset ι) (fun t c => y t (c, true)) _ T D C E hD hC hE (fun t ht c _ => dtau t ht c)
    (fun c _ => by rw [y0]; simpa using norm_le_pi_norm T0 c)
    (fun t ht c _ hpos hmax => by
      have hp := pulls_down (hH c) (x := fun q => z t (q, true)) fun q => by
        rw [ztau, ztau]
        exact max_le_max le_rfl (min_le_min ((le_abs_self _).trans (hmax q (Finset.mem_univ q))) le_rfl)
      have := (abs_le.1 (hb (fun q => z t (q, false)) (fun q => z t (q, true)) _ (z01 t) (zle t _ fun q => hmax q (Finset.mem_univ q)) c)).2
      unfold Sys.heat
      linarith)
    (fun t ht c _ hneg hmax => by
      have hp := (hH c).1 (fun q => z t (q, true)) fun q => by
        rw [ztau, ztau]
        refine max_le_max le_rfl (min_le_min ?_ le_rfl)
        have := neg_le_abs (y t (q, true))
        have := hmax q (Finset.mem_univ q)
        linarith
      have := (abs_le.1 (hb (fun q => z t (q, false)) (fun q => z t (q, true)) _ (z01 t) (zle t _ fun q => hmax q (Finset.mem_univ q)) c)).1
      unfold Sys.heat
      linarith)
  have hin : ∀ t ∈ Icc 0 T, z t = y t := fun t ht => by
    refine clip_eq ⟨fun p => ?_, fun p => ?_⟩ <;> obtain ⟨c, b⟩ := p <;> cases b
    · simpa [hlo] using low t ht c (Finset.mem_univ c)
    · have h1 := temp t ht c (Finset.mem_univ c)
      have h2 : (E + C * t) * Real.exp (D * t) ≤ R :=
        mul_le_mul (by have := mul_le_mul_of_nonneg_left ht.2 hC; linarith) (Real.exp_le_exp.2 (mul_le_mul_of_nonneg_left ht.2 hD))
          (Real.exp_pos _).le (by positivity)
      simpa [hlo] using (abs_le.1 (h1.trans h2)).1
    · simpa [hhi] using high t ht c (Finset.mem_univ c)
    · have h1 := temp t ht c (Finset.mem_univ c)
      have h2 : (E + C * t) * Real.exp (D * t) ≤ R :=
        mul_le_mul (by have := mul_le_mul_of_nonneg_left ht.2 hC; linarith) (Real.exp_le_exp.2 (mul_le_mul_of_nonneg_left ht.2 hD))
          (Real.exp_pos _).le (by positivity)
      simpa [hhi] using (abs_le.1 (h1.trans h2)).2
  refine ⟨fun t c => y t (c, false), fun t c => y t (c, true), by simp [y0], by simp [y0], fun t ht c => ?_, fun t ht c => ?_, fun t ht c => ?_⟩
  · have := z01 t c; rw [hin t ht] at this; exact this
  · have := dphi t ht c; rw [hin t ht] at this; exact this
  · have := dtau t ht c; rw [hin t ht] at this; exact this

/-- Uniqueness. -/
theorem unique_solution (P : Sys ι) (T : ℝ) (φ τ φ' τ' : ℝ → ι → ℝ)
    (h1 : ∀ t ∈ Icc 0 T, ∀ c, HasDerivAt (fun s => φ s c) (P.phase (φ t) (τ t) c) t)
    (h2 : ∀ t ∈ Icc 0 T, ∀ c, HasDerivAt (fun s => τ s c) (P.heat (φ t) (τ t) c) t)
    (h1' : ∀ t ∈ Icc 0 T, ∀ c, HasDerivAt (fun s => φ' s c) (P.phase (φ' t) (τ' t) c) t)
    (h2' : ∀ t ∈ Icc 0 T, ∀ c, HasDerivAt (fun s => τ' s c) (P.heat (φ' t) (τ' t) c) t) (e : φ 0 = φ' 0) (e' : τ 0 = τ' 0) :
    ∀ t ∈ Icc 0 T, φ t = φ' t ∧ τ t = τ' t := fun t ht => by
  have key := unique_of P.field (field_lip P) T (fun t p => if p.2 then τ t p.1 else φ t p.1) (fun t p => if p.2 then τ' t p.1 else φ' t p.1)
    (fun t ht p => by
      obtain ⟨c, b⟩ := p
      cases b with
      | false => simpa [Sys.field] using h1 t ht c
      | true => simpa [Sys.field] using h2 t ht c)
    (fun t ht p => by
      obtain ⟨c, b⟩ := p
      cases b with
      | false => simpa [Sys.field] using h1' t ht c
      | true => simpa [Sys.field] using h2' t ht c) (by simp only [e, e']) t ht
  exact ⟨funext fun c => by simpa using congrFun key (c, false), funext fun c => by simpa using congrFun key (c, true)⟩

end AMPE.MeltSystem
