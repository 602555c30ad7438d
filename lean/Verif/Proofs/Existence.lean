import Mathlib.Analysis.ODE.PicardLindelof
import Mathlib.Analysis.ODE.ExistUnique
import Mathlib.Topology.Algebra.MetricSpace.Lipschitz
import Mathlib.Analysis.Calculus.ContDiff.RCLike
import Mathlib.Analysis.Calculus.ContDiff.Basic
import Verif.Proofs.Converge

/-!
# Solutions of finite systems of differential equations up to any time

A system with locally Lipschitz rates, read at the nearest point of a box, has a solution up to any time; a solution that stays in the
box solves the system itself.  Two solutions that start equal are equal.
-/

namespace AMPE.Existence

open Set

variable {ι : Type} [Fintype ι]

/-- The nearest point of the box. -/
noncomputable def clip (lo hi : ι → ℝ) (x : ι → ℝ) : ι → ℝ := fun i => max (lo i) (min (x i) (hi i))

theorem clip_mem {lo hi : ι → ℝ} (h : ∀ i, lo i ≤ hi i) (x : ι → ℝ) : clip lo hi x ∈ Icc lo hi :=
  ⟨fun i => le_max_left _ _, fun i => max_le (h i) (min_le_right _ _)⟩

theorem clip_eq {lo hi x : ι → ℝ} (h : x ∈ Icc lo hi) : clip lo hi x = x := by
  funext i
  unfold clip
  rw [min_eq_left (h.2 i), max_eq_right (h.1 i)]

theorem clip_lip (lo hi : ι → ℝ) : LipschitzWith 1 (clip lo hi) := by
  refine LipschitzWith.of_dist_le_mul fun x y => ?_
  rw [NNReal.coe_one, one_mul, dist_pi_le_iff dist_nonneg]
  intro i
  refine le_trans ?_ (dist_le_pi_dist x y i)
  rw [Real.dist_eq, Real.dist_eq]
  unfold clip
  rw [max_comm (lo i), max_comm (lo i)]
  refine (abs_max_sub_max_le_abs (min (x i) (hi i)) (min (y i) (hi i)) (lo i)).trans ?_
  have := abs_min_sub_min_le_max (x i) (hi i) (y i) (hi i)
  simpa using this

theorem lip_clip (F : (ι → ℝ) → ι → ℝ) (hF : LocallyLipschitz F) {lo hi : ι → ℝ} (h : ∀ i, lo i ≤ hi i) :
    ∃ K, LipschitzWith K fun x => F (clip lo hi x) := by
  obtain ⟨K, hK⟩ := LocallyLipschitzOn.exists_lipschitzOnWith_of_compact (isCompact_Icc (a := lo) (b := hi)) (hF.locallyLipschitzOn)
  refine ⟨K * 1, ?_⟩
  have := hK.comp (clip_lip lo hi).lipschitzOnWith (fun x (_ : x ∈ univ) => clip_mem h x)
  rwa [lipschitzOnWith_univ] at this

theorem exists_clip (F : (ι → ℝ) → ι → ℝ) (hF : LocallyLipschitz F) {lo hi : ι → ℝ} (h : ∀ i, lo i ≤ hi i) (T : ℝ) (hT : 0 ≤ T) (x0 : ι → ℝ) :
    ∃ y : ℝ → ι → ℝ, y 0 = x0 ∧ ∀ t ∈ Icc 0 T, ∀ i, HasDerivAt (fun s => y s i) (F (clip lo hi (y t)) i) t := by
  obtain ⟨K, hK⟩ := lip_clip F hF h
  obtain ⟨C, hC⟩ := (isCompact_Icc (a := lo) (b := hi)).exists_bound_of_continuousOn hF.continuous.continuousOn
  set L : NNReal := ⟨max C 0, le_max_right _ _⟩
  have hL : ∀ x, ‖F (clip lo hi x)‖ ≤ L := fun x => (hC _ (clip_mem h x)).trans (le_max_left _ _)
  set a : NNReal := L * ⟨T + 1, by linarith⟩
  have pl : IsPicardLindelof (fun _ x => F (clip lo hi x)) (tmin := -1) (tmax := T + 1) ⟨0, by constructor <;> linarith⟩ x0 a 0 L K := by
    refine IsPicardLindelof.of_time_independent (fun x _ => hL x) hK.lipschitzOnWith ?_
    have : max (T + 1 - 0) (0 - (-1 : ℝ)) = T + 1 := by rw [max_eq_left] <;> linarith
    rw [this, NNReal.coe_zero, sub_zero]
    exact le_of_eq rfl
  obtain ⟨y, h0, hy⟩ := pl.exists_eq_forall_mem_Icc_hasDerivWithinAt₀
  refine ⟨y, h0, fun t ht i => ?_⟩
  have := (hy t ⟨by linarith [ht.1], by linarith [ht.2]⟩).hasDerivAt (Icc_mem_nhds (by linarith [ht.1]) (by linarith [ht.2]))
  exact (hasDerivAt_pi.1 this) i

theorem unique_of (F : (ι → ℝ) → ι → ℝ) (hF : LocallyLipschitz F) (T : ℝ) (y z : ℝ → ι → ℝ)
    (hy : ∀ t ∈ Icc 0 T, ∀ i, HasDerivAt (fun s => y s i) (F (y t) i) t) (hz : ∀ t ∈ Icc 0 T, ∀ i, HasDerivAt (fun s => z s i) (F (z t) i) t)
    (h0 : y 0 = z 0) : ∀ t ∈ Icc 0 T, y t = z t := by
  have dy : ∀ t ∈ Icc 0 T, HasDerivAt y (F (y t)) t := fun t ht => hasDerivAt_pi.2 (hy t ht)
  have dz : ∀ t ∈ Icc 0 T, HasDerivAt z (F (z t)) t := fun t ht => hasDerivAt_pi.2 (hz t ht)
  have cy : ContinuousOn y (Icc 0 T) := fun t ht => (dy t ht).continuousAt.continuousWithinAt
  have cz : ContinuousOn z (Icc 0 T) := fun t ht => (dz t ht).continuousAt.continuousWithinAt
  obtain ⟨A, hA⟩ := isCompact_Icc.exists_bound_of_continuousOn cy
  obtain ⟨B, hB⟩ := isCompact_Icc.exists_bound_of_continuousOn cz
  intro t0 ht0
  have hT : 0 ≤ T := ht0.1.trans ht0.2
  set R := max A B
  have hR : 0 ≤ R := (norm_nonneg _).trans ((hA 0 ⟨le_rfl, hT⟩).trans (le_max_left _ _))
  have box : ∀ x : ι → ℝ, ‖x‖ ≤ R → clip (fun _ => -R) (fun _ => R) x = x := fun x hx =>
    clip_eq ⟨fun i => (abs_le.1 ((norm_le_pi_norm x i).trans hx)).1, fun i => (abs_le.1 ((norm_le_pi_norm x i).trans hx)).2⟩
  obtain ⟨K, hK⟩ := lip_clip F hF (lo := fun _ => -R) (hi := fun _ => R) (fun _ => by linarith)
  have e1 : ∀ t ∈ Icc 0 T, clip (fun _ => -R) (fun _ => R) (y t) = y t := fun t ht => box _ ((hA t ht).trans (le_max_left _ _))
  have e2 : ∀ t ∈ Icc 0 T, clip (fun _ => -R) (fun _ => R) (z t) = z t := fun t ht => box _ ((hB t ht).trans (le_max_right _ _))
  exact ODE_solution_unique (v := fun _ x => F (clip (fun _ => -R) (fun _ => R) x)) (fun _ => hK) cy
    (fun t ht => by simp only [e1 t ⟨ht.1, ht.2.le⟩]; exact (dy t ⟨ht.1, ht.2.le⟩).hasDerivWithinAt) cz
    (fun t ht => by simp only [e2 t ⟨ht.1, ht.2.le⟩]; exact (dz t ⟨ht.1, ht.2.le⟩).hasDerivWithinAt) h0 ht0

end AMPE.Existence
