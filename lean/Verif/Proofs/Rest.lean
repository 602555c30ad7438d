import Mathlib.Analysis.Calculus.MeanValue
import Mathlib.Analysis.Calculus.Deriv.MeanValue
import Mathlib.Topology.Algebra.Order.LiminfLimsup
import Mathlib.Topology.Order.MonotoneConvergence

/-!
# A quantity that is dissipated without end must fade

A function with a lower bound whose rate is at most `-q`, with `q ≥ 0` bounded and Lipschitz, forces `q → 0`.
-/

namespace AMPE.Rest

open Filter Topology

/-- Bounded at all times from 0. -/
def Bounded (f : ℝ → ℝ) : Prop := ∃ B, ∀ t, 0 ≤ t → |f t| ≤ B

/-- Bounded and Lipschitz at all times from 0. -/
def Tame (f : ℝ → ℝ) : Prop := Bounded f ∧ ∃ K, ∀ s t, 0 ≤ s → 0 ≤ t → |f s - f t| ≤ K * |s - t|

theorem Bounded.const (c : ℝ) : Bounded fun _ => c := ⟨|c|, fun _ _ => le_rfl⟩

theorem Bounded.add {f g : ℝ → ℝ} (hf : Bounded f) (hg : Bounded g) : Bounded fun t => f t + g t := by
  obtain ⟨A, hA⟩ := hf
  obtain ⟨B, hB⟩ := hg
  exact ⟨A + B, fun t ht => (abs_add_le _ _).trans (add_le_add (hA t ht) (hB t ht))⟩

theorem Bounded.mul {f g : ℝ → ℝ} (hf : Bounded f) (hg : Bounded g) : Bounded fun t => f t * g t := by
  obtain ⟨A, hA⟩ := hf
  obtain ⟨B, hB⟩ := hg
  refine ⟨A * B, fun t ht => ?_⟩
  rw [abs_mul]
  exact mul_le_mul (hA t ht) (hB t ht) (abs_nonneg _) ((abs_nonneg _).trans (hA t ht))

theorem Bounded.neg {f : ℝ → ℝ} (hf : Bounded f) : Bounded fun t => -f t := by
  obtain ⟨A, hA⟩ := hf
  exact ⟨A, fun t ht => by rw [abs_neg]; exact hA t ht⟩

theorem Bounded.sub {f g : ℝ → ℝ} (hf : Bounded f) (hg : Bounded g) : Bounded fun t => f t - g t := by
  simpa [sub_eq_add_neg] using hf.add hg.neg

theorem Bounded.sum {ι : Type*} (s : Finset ι) {f : ι → ℝ → ℝ} (hf : ∀ i, Bounded (f i)) : Bounded fun t => ∑ i ∈ s, f i t := by
  classical
  induction s using Finset.induction_on with
  | empty => simpa using Bounded.const 0
  | insert a s ha ih =>
    simp only [Finset.sum_insert ha]
    exact (hf a).add ih

theorem Tame.const (c : ℝ) : Tame fun _ => c := ⟨Bounded.const c, 0, fun _ _ _ _ => by simp⟩

theorem Tame.add {f g : ℝ → ℝ} (hf : Tame f) (hg : Tame g) : Tame fun t => f t + g t := by
  obtain ⟨bf, A, hA⟩ := hf
  obtain ⟨bg, B, hB⟩ := hg
  refine ⟨bf.add bg, A + B, fun s t hs ht => ?_⟩
  rw [show f s + g s - (f t + g t) = f s - f t + (g s - g t) by ring, add_mul]
  exact (abs_add_le _ _).trans (add_le_add (hA s t hs ht) (hB s t hs ht))

theorem Tame.mul {f g : ℝ → ℝ} (hf : Tame f) (hg : Tame g) : Tame fun t => f t * g t := by
  obtain ⟨⟨P, hP⟩, A, hA⟩ := hf
  obtain ⟨⟨Q, hQ⟩, B, hB⟩ := hg
  refine ⟨Bounded.mul ⟨P, hP⟩ ⟨Q, hQ⟩, P * B + A * Q, fun s t hs ht => ?_⟩
  rw [show f s * g s - f t * g t = f s * (g s - g t) + (f s - f t) * g t by ring]
  refine (abs_add_le _ _).trans ?_
  rw [abs_mul, abs_mul]
  have h1 := mul_le_mul (hP s hs) (hB s t hs ht) (abs_nonneg _) ((abs_nonneg _).trans (hP s hs))
  have h2 := mul_le_mul (hA s t hs ht) (hQ t ht) (abs_nonneg _) ((abs_nonneg _).trans (hA s t hs ht))
  calc _ ≤ _ := add_le_add h1 h2
    _ = _ := by ring

theorem Tame.neg {f : ℝ → ℝ} (hf : Tame f) : Tame fun t => -f t := by
  simpa using (Tame.const (-1)).mul hf

theorem Tame.sub {f g : ℝ → ℝ} (hf : Tame f) (hg : Tame g) : Tame fun t => f t - g t := by
  simpa [sub_eq_add_neg] using hf.add hg.neg

theorem Tame.pow_two {f : ℝ → ℝ} (hf : Tame f) : Tame fun t => f t ^ 2 := by
  simpa [sq] using hf.mul hf

theorem Tame.sum {ι : Type*} (s : Finset ι) {f : ι → ℝ → ℝ} (hf : ∀ i, Tame (f i)) : Tame fun t => ∑ i ∈ s, f i t := by
  classical
  induction s using Finset.induction_on with
  | empty => simpa using Tame.const 0
  | insert a s ha ih =>
    simp only [Finset.sum_insert ha]
    exact (hf a).add ih

/-- A bounded function with a bounded rate is tame. -/
theorem Tame.of_deriv {f f' : ℝ → ℝ} (hb : Bounded f) (hd : ∀ t, 0 ≤ t → HasDerivAt f (f' t) t) (hb' : Bounded f') : Tame f := by
  obtain ⟨B, hB⟩ := hb'
  refine ⟨hb, B, fun s t hs ht => ?_⟩
  have := Convex.norm_image_sub_le_of_norm_hasDerivWithin_le (f := f) (f' := f') (C := B) (s := Set.Ici 0) (x := t) (y := s)
    (fun x hx => (hd x hx).hasDerivWithinAt) (fun x hx => hB x hx) (convex_Ici 0) ht hs
  simpa [Real.norm_eq_abs] using this

/-- A bounded function times one that fades fades. -/
theorem bounded_mul_tendsto {f g : ℝ → ℝ} (hf : Bounded f) (hg : Tendsto g atTop (𝓝 0)) : Tendsto (fun t => f t * g t) atTop (𝓝 0) := by
  obtain ⟨B, hB⟩ := hf
  have h : Tendsto (fun t => B * |g t|) atTop (𝓝 0) := by simpa using (hg.abs).const_mul B
  refine squeeze_zero_norm' ?_ h
  filter_upwards [eventually_ge_atTop 0] with t ht
  rw [Real.norm_eq_abs, abs_mul]
  exact mul_le_mul_of_nonneg_right (hB t ht) (abs_nonneg _)

/-- From `g² → 0` to `g → 0`. -/
theorem tendsto_of_sq {g : ℝ → ℝ} (h : Tendsto (fun t => g t ^ 2) atTop (𝓝 0)) : Tendsto g atTop (𝓝 0) := by
  have := (Real.continuous_sqrt.tendsto 0).comp h
  rw [Real.sqrt_zero] at this
  refine (tendsto_zero_iff_abs_tendsto_zero _).2 (this.congr fun t => ?_)
  simp [Function.comp, Real.sqrt_sq_eq_abs]

/-- The lemma: `V` has a lower bound, its rate is at most `-q`. -/
theorem fades {V q : ℝ → ℝ} (m : ℝ) (hm : ∀ t, 0 ≤ t → m ≤ V t) (hd : ∀ t, 0 ≤ t → ∃ d, HasDerivAt V d t ∧ d ≤ -q t)
    (hq0 : ∀ t, 0 ≤ t → 0 ≤ q t) (hq : Tame q) : Tendsto q atTop (𝓝 0) := by
  obtain ⟨-, K, hK⟩ := hq
  choose! d hd1 hd2 using hd
  -- the sum is nonincreasing and has a limit
  have anti : AntitoneOn V (Set.Ici 0) := by
    refine antitoneOn_of_deriv_nonpos (convex_Ici 0) (fun x hx => (hd1 x hx).continuousAt.continuousWithinAt)
      (fun x hx => ?_) (fun x hx => ?_)
    · rw [interior_Ici] at hx
      exact (hd1 x (le_of_lt hx)).differentiableAt.differentiableWithinAt
    · rw [interior_Ici] at hx
      rw [(hd1 x (le_of_lt hx)).deriv]
      linarith [hd2 x (le_of_lt hx), hq0 x (le_of_lt hx)]
  have anti' : Antitone fun t => V (max t 0) := fun s t h => anti (Set.mem_Ici.2 (le_max_right _ _))
    (Set.mem_Ici.2 (le_max_right _ _)) (max_le_max h le_rfl)
  have bdd : BddBelow (Set.range fun t => V (max t 0)) := ⟨m, by rintro _ ⟨t, rfl⟩; exact hm _ (le_max_right _ _)⟩
  have lim := tendsto_atTop_ciInf anti' bdd
  set ℓ := ⨅ t, V (max t 0)
  have lim' : Tendsto V atTop (𝓝 ℓ) := by
    refine lim.congr' ?_
    filter_upwards [eventually_ge_atTop 0] with t ht
    rw [max_eq_left ht]
  -- what a step of length `h` costs
  have K0 : 0 ≤ K := by simpa using (abs_nonneg _).trans (hK 1 0 zero_le_one le_rfl)
  have step : ∀ h, 0 < h → ∀ t, 0 ≤ t → q t ≤ (V t - V (t + h)) / h + K * h := by
    intro h hh t ht
    have hle : V (t + h) - V t ≤ (-(q t) + K * h) * (t + h - t) := by
      refine Convex.image_sub_le_mul_sub_of_deriv_le (convex_Icc t (t + h))
        (fun x hx => (hd1 x (ht.trans hx.1)).continuousAt.continuousWithinAt) (fun x hx => ?_) (fun x hx => ?_) t
        ⟨le_rfl, by linarith⟩ (t + h) ⟨by linarith, le_rfl⟩ (by linarith)
      · rw [interior_Icc] at hx
        exact (hd1 x (ht.trans hx.1.le)).differentiableAt.differentiableWithinAt
      · rw [interior_Icc] at hx
        have hx0 := ht.trans hx.1.le
        rw [(hd1 x hx0).deriv]
        have h1 := hd2 x hx0
        have h2 := hK t x ht hx0
        have h3 : K * |t - x| ≤ K * h := mul_le_mul_of_nonneg_left (by rw [abs_le]; constructor <;> linarith [hx.1, hx.2]) K0
        have h4 := (abs_le.1 (h2.trans h3)).2
        linarith
    have : q t * h ≤ V t - V (t + h) + K * h * h := by
      have e : t + h - t = h := by ring
      rw [e] at hle
      linarith
    rw [← sub_le_iff_le_add, le_div_iff₀ hh]
    linarith
  rw [Metric.tendsto_atTop]
  intro ε hε
  set h := ε / (2 * (K + 1)) with hh
  have hpos : 0 < h := by positivity
  have hKh : K * h ≤ ε / 2 := by
    rw [hh, mul_div_assoc', div_le_div_iff₀ (by positivity) (by norm_num)]
    nlinarith
  have dif : Tendsto (fun t => (V t - V (t + h)) / h) atTop (𝓝 0) := by
    have := (lim'.sub (lim'.comp (tendsto_atTop_add_const_right atTop h tendsto_id))).div_const h
    simpa using this
  obtain ⟨t0, ht0⟩ := (Metric.tendsto_atTop.1 dif) (ε / 2) (by positivity)
  refine ⟨max t0 0, fun t ht => ?_⟩
  have ht1 := (le_max_left _ _).trans ht
  have ht2 := (le_max_right _ _).trans ht
  have a := ht0 t ht1
  rw [Real.dist_eq, sub_zero] at a
  rw [Real.dist_eq, sub_zero, abs_of_nonneg (hq0 t ht2)]
  have b := step h hpos t ht2
  linarith [(abs_lt.1 a).2]

end AMPE.Rest
