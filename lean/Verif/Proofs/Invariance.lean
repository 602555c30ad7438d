import Mathlib.Analysis.Calculus.Deriv.Slope
import Mathlib.Analysis.Calculus.Deriv.Mul
import Mathlib.Analysis.SpecialFunctions.ExpDeriv
import Mathlib.Analysis.Calculus.Deriv.Prod
import Mathlib.Analysis.ODE.Gronwall
import Mathlib.Topology.Order.Lattice
import Mathlib.Topology.Order.Compact

/-!
# Invariant regions of finite systems of differential equations

If, wherever a component is the smallest and slightly negative, its rate is at least a multiple of it, no component that starts
nonnegative becomes negative.
-/

namespace AMPE.Invariance

open Set

/-- At a point where `g` is the smallest of its values on the left, its derivative is not positive. -/
theorem deriv_nonpos_of_min_left {g : ℝ → ℝ} {g' a t : ℝ} (hat : a < t) (hg : HasDerivAt g g' t) (hmin : ∀ s ∈ Icc a t, g t ≤ g s) : g' ≤ 0 := by
  have h1 : Filter.Tendsto (slope g t) (nhdsWithin t (Iio t)) (nhds g') :=
    (hasDerivWithinAt_iff_tendsto_slope' (by simp)).1 (hg.hasDerivWithinAt (s := Iio t))
  refine le_of_tendsto h1 ?_
  filter_upwards [Ioo_mem_nhdsLT hat] with s hs
  rw [slope_def_field]
  exact div_nonpos_of_nonneg_of_nonpos (sub_nonneg.2 (hmin s ⟨hs.1.le, hs.2.le⟩)) (sub_nonpos.2 hs.2.le)

theorem stays_nonneg {ι : Type} (S : Finset ι) (u v : ℝ → ι → ℝ) (T K δ : ℝ) (hδ : 0 < δ)
    (hd : ∀ t ∈ Icc 0 T, ∀ i ∈ S, HasDerivAt (fun s => u s i) (v t i) t)
    (h0 : ∀ i ∈ S, 0 ≤ u 0 i)
    (hv : ∀ t ∈ Icc 0 T, ∀ i ∈ S, (∀ j ∈ S, u t i ≤ u t j) → -δ < u t i → u t i < 0 → K * u t i ≤ v t i) :
    ∀ t ∈ Icc 0 T, ∀ i ∈ S, 0 ≤ u t i := by
  by_contra hcon
  push Not at hcon
  obtain ⟨t', ht', i', hi', hneg⟩ := hcon
  have hS : S.Nonempty := ⟨i', hi'⟩
  set m : ℝ → ℝ := fun t => S.inf' hS (u t) with hm
  have hcont : ContinuousOn m (Icc 0 T) := by
    refine ContinuousOn.finset_inf'_apply hS fun i hi t ht => ?_
    exact (hd t ht i hi).continuousAt.continuousWithinAt
  have hm_le : ∀ t, ∀ i ∈ S, m t ≤ u t i := fun t i hi => Finset.inf'_le _ hi
  have hm_ex : ∀ t, ∃ i ∈ S, m t = u t i := fun t => Finset.exists_mem_eq_inf' hS (u t)
  have hm0 : 0 ≤ m 0 := by
    obtain ⟨i, hi, e⟩ := hm_ex 0
    rw [e]; exact h0 i hi
  have hmt' : m t' < 0 := lt_of_le_of_lt (hm_le t' i' hi') hneg
  -- the first time the smallest value reaches the level `-ε`
  set ε := min (δ / 2) (-m t') with hε
  have hε0 : 0 < ε := lt_min (by linarith) (by linarith)
  have hεδ : ε < δ := lt_of_le_of_lt (min_le_left _ _) (by linarith)
  set A : Set ℝ := Icc 0 t' ∩ m ⁻¹' Iic (-ε) with hA
  have hsub : Icc 0 t' ⊆ Icc 0 T := Icc_subset_Icc_right ht'.2
  have hAc : IsCompact A := by
    have : IsClosed A := (hcont.mono hsub).preimage_isClosed_of_isClosed isClosed_Icc isClosed_Iic
    exact isCompact_Icc.of_isClosed_subset this inter_subset_left
  have hAne : A.Nonempty := ⟨t', ⟨ht'.1, le_rfl⟩, by
    show m t' ≤ -ε
    linarith [min_le_right (δ / 2) (-m t')]⟩
  obtain ⟨t1, ht1, hfirst⟩ := hAc.exists_isLeast hAne
  have ht1T : t1 ∈ Icc 0 T := hsub ht1.1
  have hmt1 : m t1 ≤ -ε := ht1.2
  have hbefore : ∀ s ∈ Icc 0 t1, s ≠ t1 → -ε < m s := by
    intro s hs hne
    by_contra hc
    have : t1 ≤ s := hfirst ⟨⟨hs.1, hs.2.trans ht1.1.2⟩, not_lt.1 hc⟩
    exact hne (le_antisymm hs.2 this)
  have hsub1 : Icc 0 t1 ⊆ Icc 0 T := Icc_subset_Icc_right ht1T.2
  have ht1pos : 0 < t1 := by
    rcases eq_or_lt_of_le ht1T.1 with h | h
    · rw [← h] at hmt1; linarith
    · exact h
  have hmt1' : -δ < m t1 := by
    by_contra hc
    have hc' : m t1 ≤ -δ := not_lt.1 hc
    -- by continuity the level is reached before
    have hiv : Icc (m t1) (m 0) ⊆ m '' Icc 0 t1 := intermediate_value_Icc' ht1pos.le (hcont.mono hsub1)
    obtain ⟨s, hs, hse⟩ := hiv (show -ε ∈ Icc (m t1) (m 0) from ⟨by linarith, by linarith⟩)
    have hst : s ≠ t1 := fun h => by rw [h] at hse; linarith
    have := hbefore s hs hst
    linarith
  have hlow : ∀ s ∈ Icc 0 t1, -δ < m s := fun s hs => by
    by_cases h : s = t1
    · rw [h]; exact hmt1'
    · linarith [hbefore s hs h]
  -- weighted minimum
  set L := |K| + 1 with hL
  have hLpos : 0 < L := by positivity
  set ψ : ℝ → ℝ := fun t => Real.exp (-(2 * L) * t) * m t with hψ
  have hψc : ContinuousOn ψ (Icc 0 t1) := ContinuousOn.mul (by fun_prop) (hcont.mono hsub1)
  obtain ⟨ts, hts, hmin⟩ := isCompact_Icc.exists_isMinOn (nonempty_Icc.2 ht1pos.le) hψc
  have hψneg : ψ ts < 0 := lt_of_le_of_lt (hmin ⟨ht1pos.le, le_rfl⟩) (mul_neg_of_pos_of_neg (Real.exp_pos _) (by linarith))
  have hmneg : m ts < 0 := by
    by_contra hc
    exact absurd hψneg (not_lt.2 (mul_nonneg (Real.exp_pos _).le (not_lt.1 hc)))
  have htspos : 0 < ts := by
    rcases eq_or_lt_of_le hts.1 with h | h
    · rw [← h] at hmneg; linarith
    · exact h
  obtain ⟨i, hi, hie⟩ := hm_ex ts
  have htsT : ts ∈ Icc 0 T := hsub1 hts
  have hrate := hv ts htsT i hi (fun j hj => by rw [← hie]; exact hm_le ts j hj) (by rw [← hie]; exact hlow ts hts) (by rw [← hie]; exact hmneg)
  have hder : HasDerivAt (fun s => Real.exp (-(2 * L) * s) * u s i)
      (Real.exp (-(2 * L) * ts) * (-(2 * L)) * u ts i + Real.exp (-(2 * L) * ts) * v ts i) ts := by
    have e1 : HasDerivAt (fun s => Real.exp (-(2 * L) * s)) (Real.exp (-(2 * L) * ts) * (-(2 * L))) ts := by
      have := ((hasDerivAt_id ts).const_mul (-(2 * L))).exp
      simpa using this
    exact e1.mul (hd ts htsT i hi)
  have hle := deriv_nonpos_of_min_left htspos hder fun s hs => by
    have h1 : ψ ts ≤ ψ s := hmin ⟨hs.1, hs.2.trans hts.2⟩
    have h2 : ψ s ≤ Real.exp (-(2 * L) * s) * u s i := mul_le_mul_of_nonneg_left (hm_le s i hi) (Real.exp_pos _).le
    have h3 : ψ ts = Real.exp (-(2 * L) * ts) * u ts i := by rw [hψ]; simp only; rw [hie]
    linarith
  have hu : u ts i < 0 := by rw [← hie]; exact hmneg
  have : 0 < v ts i - 2 * L * u ts i := by
    have hk : K ≤ L := by linarith [le_abs_self K]
    nlinarith
  have : 0 < Real.exp (-(2 * L) * ts) * (v ts i - 2 * L * u ts i) := mul_pos (Real.exp_pos _) this
  nlinarith

/-- Negative derivative at a zero: negative shortly after. -/
theorem eventually_neg {g : ℝ → ℝ} {g' : ℝ} (hg : HasDerivAt g g' 0) (h0 : g 0 = 0) (hneg : g' < 0) :
    ∃ τ > 0, ∀ t ∈ Ioo 0 τ, g t < 0 := by
  have h1 : Filter.Tendsto (slope g 0) (nhdsWithin 0 (Ioi 0)) (nhds g') :=
    (hasDerivWithinAt_iff_tendsto_slope' (by simp)).1 (hg.hasDerivWithinAt (s := Ioi 0))
  have h2 : ∀ᶠ s in nhdsWithin (0 : ℝ) (Ioi 0), slope g 0 s < 0 := h1.eventually (gt_mem_nhds hneg)
  obtain ⟨τ, hτ, hs⟩ := mem_nhdsGT_iff_exists_Ioo_subset.1 h2
  refine ⟨τ, hτ, fun t ht => ?_⟩
  have := hs ht
  simp only [mem_setOf_eq, slope_def_field, h0, sub_zero] at this
  by_contra hc
  exact absurd this (not_lt.2 (div_nonneg (not_lt.1 hc) ht.1.le))

/-- Rates bounded by a multiple of the largest component: what is zero at the start stays zero. -/
theorem stays_zero {ι : Type*} (S : Finset ι) (u v : ℝ → ι → ℝ) (T K : ℝ) (hK : 0 ≤ K)
    (hd : ∀ t ∈ Icc 0 T, ∀ i ∈ S, HasDerivAt (fun s => u s i) (v t i) t) (h0 : ∀ i ∈ S, u 0 i = 0)
    (hv : ∀ t ∈ Icc 0 T, ∀ B, 0 ≤ B → (∀ j ∈ S, |u t j| ≤ B) → ∀ i ∈ S, |v t i| ≤ K * B) :
    ∀ t ∈ Icc 0 T, ∀ i ∈ S, u t i = 0 := by
  have h := eq_zero_of_abs_deriv_le_mul_abs_self_of_eq_zero_right (f := fun t (i : S) => u t i) (f' := fun t (i : S) => v t i)
    (K := K) (a := 0) (b := T)
    (continuousOn_pi.2 fun i t ht => (hd t ht i i.2).continuousAt.continuousWithinAt)
    (fun t ht => (hasDerivAt_pi.2 fun i : S => hd t ⟨ht.1, ht.2.le⟩ i i.2).hasDerivWithinAt)
    (funext fun i => h0 i i.2)
    (fun t ht => by
      refine (pi_norm_le_iff_of_nonneg (mul_nonneg hK (norm_nonneg _))).2 fun i => ?_
      refine hv t ⟨ht.1, ht.2.le⟩ _ (norm_nonneg _) (fun j hj => ?_) i i.2
      exact norm_le_pi_norm (fun i : S => u t i) ⟨j, hj⟩)
  exact fun t ht i hi => congrFun (h t ht) ⟨i, hi⟩

end AMPE.Invariance
