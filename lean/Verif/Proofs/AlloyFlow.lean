import Mathlib.Analysis.Calculus.Deriv.Add
import Mathlib.Analysis.Calculus.Deriv.Mul
import Mathlib.Analysis.Calculus.Deriv.MeanValue
import Mathlib.Tactic.Linarith
import Mathlib.Tactic.Ring
import Mathlib.Tactic.LinearCombination

/-!
# The split of a composition between two convex phases

`(1 - h) cl + h ca = c` with equal slopes: unique, continuous, and the energy of the mixture is differentiable along every differentiable
motion of `h` and `c`, even though nothing is assumed about the motion of `cl` and `ca`.
-/

namespace AMPE.AlloyFlow

open Filter Topology

/-- Tangents of a function with monotone derivative stay below it. -/
theorem tangent {f df : ℝ → ℝ} (hf : ∀ x, HasDerivAt f (df x) x) (hm : Monotone df) (x y : ℝ) : f x + df x * (y - x) ≤ f y := by
  rcases lt_trichotomy x y with h | h | h
  · obtain ⟨z, hz, e⟩ := exists_hasDerivAt_eq_slope f df h (fun u _ => (hf u).continuousAt.continuousWithinAt) fun u _ => hf u
    have hp : 0 < y - x := by linarith
    rw [eq_div_iff hp.ne'] at e
    have := mul_le_mul_of_nonneg_right (hm hz.1.le) hp.le
    linarith
  · subst h; simp
  · obtain ⟨z, hz, e⟩ := exists_hasDerivAt_eq_slope f df h (fun u _ => (hf u).continuousAt.continuousWithinAt) fun u _ => hf u
    have hp : 0 < x - y := by linarith
    rw [eq_div_iff hp.ne'] at e
    have := mul_le_mul_of_nonneg_right (hm hz.2.le) hp.le
    nlinarith

/-- A differentiable function vanishing at `t` times a continuous one vanishing at `t`. -/
theorem deriv_zero_mul {f g : ℝ → ℝ} {f' t : ℝ} (hf : HasDerivAt f f' t) (hg : ContinuousAt g t) (f0 : f t = 0) (g0 : g t = 0) :
    HasDerivAt (fun s => f s * g s) 0 t := by
  have h1 : f =O[𝓝 t] fun s => s - t := by simpa [f0] using hf.isBigO_sub
  have h2 : g =o[𝓝 t] fun _ => (1 : ℝ) := by
    rw [Asymptotics.isLittleO_one_iff, ← g0]; exact hg
  have h3 : (fun s => f s * g s) =o[𝓝 t] fun s => s - t := by simpa using h1.mul_isLittleO h2
  rw [hasDerivAt_iff_isLittleO]
  simpa [f0] using h3

/-- A function squeezed between `0` and one with vanishing derivative. -/
theorem deriv_zero_squeeze {r u : ℝ → ℝ} {t : ℝ} (hu : HasDerivAt u 0 t) (u0 : u t = 0) (r0 : r t = 0) (h0 : ∀ s, 0 ≤ r s)
    (h1 : ∀ s, r s ≤ u s) : HasDerivAt r 0 t := by
  rw [hasDerivAt_iff_isLittleO] at hu ⊢
  simp only [u0, r0, smul_zero, sub_zero] at hu ⊢
  refine Asymptotics.IsBigO.trans_isLittleO (Asymptotics.IsBigO.of_bound 1 (Eventually.of_forall fun s => ?_)) hu
  rw [Real.norm_eq_abs, Real.norm_eq_abs, abs_of_nonneg (h0 s), abs_of_nonneg ((h0 s).trans (h1 s)), one_mul]
  exact h1 s

/-- The compositions cannot jump up. -/
theorem upper {dfL dfA h c cl ca : ℝ → ℝ} (mL : StrictMono dfL) (mA : StrictMono dfA) (kA : Continuous dfA)
    (hh : ∀ s, 0 ≤ h s ∧ h s ≤ 1) (mass : ∀ s, (1 - h s) * cl s + h s * ca s = c s) (eq : ∀ s, dfL (cl s) = dfA (ca s)) {t : ℝ}
    (ch : ContinuousAt h t) (cc : ContinuousAt c t) {e : ℝ} (he : 0 < e) : ∀ᶠ s in 𝓝 t, cl s < cl t + e := by
  have hμ : dfA (ca t) < dfL (cl t + e) := by rw [← eq t]; exact mL (by linarith)
  obtain ⟨d, hd, hd'⟩ : ∃ d > 0, dfA (ca t + d) < dfL (cl t + e) := by
    have hc : ContinuousAt (fun d => dfA (ca t + d)) 0 := by fun_prop
    have hev : ∀ᶠ d in 𝓝 (0 : ℝ), dfA (ca t + d) < dfL (cl t + e) :=
      hc.eventually (gt_mem_nhds (by simpa using hμ))
    obtain ⟨r, hr, hball⟩ := Metric.eventually_nhds_iff.1 hev
    exact ⟨r / 2, by linarith, hball (by rw [Real.dist_eq, sub_zero, abs_of_pos (by linarith)]; linarith)⟩
  have hz : ContinuousAt (fun s => c s - c t - (h s - h t) * (ca t - cl t)) t :=
    (cc.sub continuousAt_const).sub ((ch.sub continuousAt_const).mul continuousAt_const)
  have hev : ∀ᶠ s in 𝓝 t, c s - c t - (h s - h t) * (ca t - cl t) < min e d :=
    hz.eventually (gt_mem_nhds (by simp [he, hd]))
  filter_upwards [hev] with s hs
  by_contra hcon
  have h1 : cl t + e ≤ cl s := not_lt.1 hcon
  have h2 : ca t + d < ca s := by
    refine mA.lt_iff_lt.1 (lt_of_lt_of_le hd' ?_)
    rw [← eq s]
    exact mL.monotone h1
  have i1 : (1 - h s) * min e d ≤ (1 - h s) * (cl s - cl t) :=
    mul_le_mul_of_nonneg_left ((min_le_left _ _).trans (by linarith)) (by linarith [(hh s).2])
  have i2 : h s * min e d ≤ h s * (ca s - ca t) :=
    mul_le_mul_of_nonneg_left ((min_le_right _ _).trans (by linarith)) (hh s).1
  have := mass s
  have := mass t
  nlinarith

/-- The compositions of the phases are continuous. -/
theorem split_continuous {dfL dfA h c cl ca : ℝ → ℝ} (mL : StrictMono dfL) (mA : StrictMono dfA) (kA : Continuous dfA)
    (hh : ∀ s, 0 ≤ h s ∧ h s ≤ 1) (mass : ∀ s, (1 - h s) * cl s + h s * ca s = c s) (eq : ∀ s, dfL (cl s) = dfA (ca s)) {t : ℝ}
    (ch : ContinuousAt h t) (cc : ContinuousAt c t) : ContinuousAt cl t := by
  rw [Metric.continuousAt_iff']
  intro e he
  have up := upper mL mA kA hh mass eq ch cc he
  have dn := upper (dfL := fun x => -dfL (-x)) (dfA := fun x => -dfA (-x)) (h := h) (c := fun s => -c s) (cl := fun s => -cl s)
    (ca := fun s => -ca s) (fun x y hxy => neg_lt_neg (mL (neg_lt_neg hxy))) (fun x y hxy => neg_lt_neg (mA (neg_lt_neg hxy)))
    (by fun_prop) hh (fun s => by linarith [mass s]) (fun s => by simp [eq s]) ch cc.neg he
  filter_upwards [up, dn] with s h1 h2
  rw [Real.dist_eq, abs_lt]
  constructor <;> linarith

/-- The split is unique. -/
theorem split_unique {dfL dfA : ℝ → ℝ} (mL : StrictMono dfL) (mA : StrictMono dfA) {h x y x' y' : ℝ} (hh : 0 ≤ h ∧ h ≤ 1)
    (mass : (1 - h) * x + h * y = (1 - h) * x' + h * y') (e : dfL x = dfA y) (e' : dfL x' = dfA y') : x = x' ∧ y = y' := by
  have key : ∀ {a b a' b' : ℝ}, (1 - h) * a + h * b = (1 - h) * a' + h * b' → dfL a = dfA b → dfL a' = dfA b' → ¬ a < a' := by
    intro a b a' b' m e1 e2 hlt
    have hb : b < b' := mA.lt_iff_lt.1 (by rw [← e1, ← e2]; exact mL hlt)
    rcases hh.1.eq_or_lt with h0 | h0
    · rw [← h0] at m; linarith
    · nlinarith [mul_pos h0 (sub_pos.2 hb), mul_nonneg (sub_nonneg.2 hh.2) (sub_pos.2 hlt).le]
  have hx : x = x' := le_antisymm (not_lt.1 (key mass.symm e' e)) (not_lt.1 (key mass e e'))
  refine ⟨hx, mA.injective ?_⟩
  rw [← e, ← e', hx]

/-- The energy of the mixture along a motion of fraction and composition: the slope in the fraction is the difference of the grand
potentials, the slope in the composition is the common chemical potential. -/
theorem envelope {dfL dfA fL fA h c cl ca : ℝ → ℝ} (hL : ∀ x, HasDerivAt fL (dfL x) x) (hA : ∀ x, HasDerivAt fA (dfA x) x)
    (mL : StrictMono dfL) (mA : StrictMono dfA) (kL : Continuous dfL) (kA : Continuous dfA)
    (hh : ∀ s, 0 ≤ h s ∧ h s ≤ 1) (mass : ∀ s, (1 - h s) * cl s + h s * ca s = c s) (eq : ∀ s, dfL (cl s) = dfA (ca s)) {t h' c' : ℝ}
    (dh : HasDerivAt h h' t) (dc : HasDerivAt c c' t) :
    HasDerivAt (fun s => (1 - h s) * fL (cl s) + h s * fA (ca s))
      (-h' * (fL (cl t) - fA (ca t) - dfL (cl t) * (cl t - ca t)) + dfL (cl t) * c') t := by
  have cl_c := split_continuous mL mA kA hh mass eq dh.continuousAt dc.continuousAt
  have ca_c := split_continuous (h := fun s => 1 - h s) (cl := ca) (ca := cl) (c := c) mA mL kL
    (fun s => ⟨by linarith [(hh s).2], by linarith [(hh s).1]⟩) (fun s => by rw [← mass s]; ring) (fun s => (eq s).symm)
    (continuousAt_const.sub dh.continuousAt) dc.continuousAt
  set μ : ℝ → ℝ := fun s => dfL (cl s) with hμ
  set W : ℝ → ℝ := fun s => (fA (ca s) - μ s * ca s) - (fL (cl s) - μ s * cl s) with hW
  have μ_c : ContinuousAt μ t := kL.continuousAt.comp cl_c
  have W_c : ContinuousAt W t :=
    (((hA (ca t)).continuousAt.comp ca_c).sub (μ_c.mul ca_c)).sub (((hL (cl t)).continuousAt.comp cl_c).sub (μ_c.mul cl_c))
  set e : ℝ → ℝ := fun s => (1 - h s) * fL (cl s) + h s * fA (ca s) with he
  set G : ℝ → ℝ := fun s => e t + (h s - h t) * W t + μ t * (c s - c t) with hG
  have dG : HasDerivAt G (h' * W t + μ t * c') t :=
    (((dh.sub_const (h t)).mul_const (W t)).const_add (e t)).add ((dc.sub_const (c t)).const_mul (μ t))
  have low : ∀ s u, e u + (h s - h u) * W u + μ u * (c s - c u) ≤ e s := by
    intro s u
    have t1 := mul_le_mul_of_nonneg_left (tangent hL mL.monotone (cl u) (cl s)) (show 0 ≤ 1 - h s by linarith [(hh s).2])
    have t2 := mul_le_mul_of_nonneg_left (tangent hA mA.monotone (ca u) (ca s)) (hh s).1
    rw [← eq u] at t2
    have m1 := mass s
    have m2 := mass u
    simp only [he, hW, hμ, ← m1, ← m2]
    nlinarith
  have dU : HasDerivAt (fun s => (h s - h t) * (W s - W t) + (c s - c t) * (μ s - μ t)) 0 t := by
    have a := deriv_zero_mul (dh.sub_const (h t)) (W_c.sub continuousAt_const) (g := fun s => W s - W t) (sub_self _) (sub_self _)
    have b := deriv_zero_mul (dc.sub_const (c t)) (μ_c.sub continuousAt_const) (g := fun s => μ s - μ t) (sub_self _) (sub_self _)
    exact (a.add b).congr_deriv (add_zero 0)
  have dR : HasDerivAt (fun s => e s - G s) 0 t := by
    refine deriv_zero_squeeze dU (by simp) (by simp [hG]) (fun s => sub_nonneg.2 (low s t)) fun s => ?_
    have := low t s
    simp only [hG]
    nlinarith
  refine ((dR.add dG).congr_of_eventuallyEq (Eventually.of_forall fun s => ?_)).congr_deriv ?_
  · simp
  · simp only [hW, hμ]; ring

end AMPE.AlloyFlow
