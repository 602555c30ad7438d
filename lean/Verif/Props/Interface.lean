import Verif.Model.Interface
import Mathlib.Analysis.Calculus.LHopital
import Mathlib.Analysis.Calculus.Deriv.Slope
import Mathlib.Analysis.SpecialFunctions.ExpDeriv
import Mathlib.Analysis.SpecialFunctions.Integrals.Basic
import Mathlib.MeasureTheory.Integral.IntervalIntegral.FundThmCalculus
import Mathlib.Tactic.Linarith
import Mathlib.Tactic.Ring
import Mathlib.Tactic.NormNum
import Mathlib.Tactic.FieldSimp
import Mathlib.Tactic.LinearCombination
import Mathlib.Tactic.FinCases

/-! # C81: the interface has the energy and the width asked for -/

namespace AMPE.Interface.Props

open AMPE.Functions AMPE.Flux AMPE.PhaseRHS AMPE.Interface Filter Topology

/-! ## Specification -/

/-- The planar interface of width `delta`. -/
noncomputable def profile (delta x : ℝ) : ℝ := 1 / (1 + Real.exp (-x / delta))

/-- The values a grid of spacings `a h`, `b h` takes on a planar field varying in direction `(n0, n1)`, around the point at
signed distance `x` (cell `(0,0)`). -/
noncomputable def sample (f : ℝ → ℝ) (x a b n0 n1 h : ℝ) : Field2 := fun i j => f (x + ((i : ℝ) * (a * n0) + (j : ℝ) * (b * n1)) * h)

/-- A direction and a shape of the grid cells. -/
structure Setting (a b n0 n1 : ℝ) : Prop where
  a : a ≠ 0
  b : b ≠ 0
  unit : n0 ^ 2 + n1 ^ 2 = 1

/-! ## The profile -/

theorem profile_range (delta x : ℝ) : 0 < profile delta x ∧ profile delta x < 1 := by
  have := Real.exp_pos (-x / delta)
  unfold profile
  constructor
  · positivity
  · rw [div_lt_one (by positivity)]; linarith

theorem profile_deriv (delta x : ℝ) :
    HasDerivAt (profile delta) (profile delta x * (1 - profile delta x) / delta) x := by
  have h1 : HasDerivAt (fun x : ℝ => -x / delta) (-1 / delta) x := ((hasDerivAt_id' x).neg).div_const delta
  have h2 : HasDerivAt (fun x : ℝ => 1 + Real.exp (-x / delta)) (Real.exp (-x / delta) * (-1 / delta)) x := (h1.exp).const_add 1
  have hp := Real.exp_pos (-x / delta)
  have h3 := h2.fun_inv (by positivity)
  have e : profile delta = fun x => (1 + Real.exp (-x / delta))⁻¹ := by funext y; simp [profile]
  rw [e]
  refine h3.congr_deriv ?_
  have hne : 1 + Real.exp (-x / delta) ≠ 0 := by positivity
  beta_reduce
  generalize Real.exp (-x / delta) = E at hne
  simp only [div_eq_mul_inv]
  generalize delta⁻¹ = d
  field_simp
  ring

theorem profile_deriv2 (delta x : ℝ) :
    HasDerivAt (fun x => profile delta x * (1 - profile delta x) / delta)
      (profile delta x * (1 - profile delta x) * (1 - 2 * profile delta x) / delta ^ 2) x := by
  have h := profile_deriv delta x
  refine ((h.mul (h.const_sub 1)).div_const delta).congr_deriv ?_
  simp only [div_eq_mul_inv, ← inv_pow]
  ring

/-! ## Second differences -/

theorem second_difference (f f' : ℝ → ℝ) (f'' x k : ℝ) (hf : ∀ y, HasDerivAt f (f' y) y) (hf' : HasDerivAt f' f'' x) :
    Tendsto (fun h : ℝ => (f (x + k * h) - 2 * f x + f (x - k * h)) / h ^ 2) (𝓝[≠] 0) (𝓝 (k ^ 2 * f'')) := by
  have d1 : ∀ h : ℝ, HasDerivAt (fun h : ℝ => x + k * h) k h := fun h =>
    (((hasDerivAt_id' h).const_mul k).const_add x).congr_deriv (mul_one k)
  have d2 : ∀ h : ℝ, HasDerivAt (fun h : ℝ => x - k * h) (-k) h := fun h =>
    (((hasDerivAt_id' h).const_mul k).const_sub x).congr_deriv (by ring)
  have c1 : ∀ h, HasDerivAt (fun h : ℝ => f (x + k * h)) (f' (x + k * h) * k) h := fun h =>
    HasDerivAt.comp (h₂ := f) (h := fun h : ℝ => x + k * h) h (hf _) (d1 h)
  have c2 : ∀ h, HasDerivAt (fun h : ℝ => f (x - k * h)) (f' (x - k * h) * (-k)) h := fun h =>
    HasDerivAt.comp (h₂ := f) (h := fun h : ℝ => x - k * h) h (hf _) (d2 h)
  have F : ∀ h, HasDerivAt (fun h : ℝ => f (x + k * h) - 2 * f x + f (x - k * h)) (k * (f' (x + k * h) - f' (x - k * h))) h := fun h =>
    (((c1 h).sub_const (2 * f x)).add (c2 h)).congr_deriv (by ring)
  have G : ∀ h : ℝ, HasDerivAt (fun h : ℝ => h ^ 2) (2 * h) h := fun h => (hasDerivAt_pow 2 h).congr_deriv (by simp)
  refine HasDerivAt.lhopital_zero_nhdsNE (f' := fun h => k * (f' (x + k * h) - f' (x - k * h))) (g' := fun h => 2 * h)
    (Eventually.of_forall F) (Eventually.of_forall G) ?_ ?_ ?_ ?_
  · filter_upwards [self_mem_nhdsWithin] with h hh
    exact mul_ne_zero two_ne_zero hh
  · have := (F 0).continuousAt.tendsto
    simp only [mul_zero, add_zero, sub_zero] at this
    rw [show f x - 2 * f x + f x = 0 by ring] at this
    exact this.mono_left nhdsWithin_le_nhds
  · have := (G 0).continuousAt.tendsto
    simp only [ne_eq, OfNat.ofNat_ne_zero, not_false_eq_true, zero_pow] at this
    exact this.mono_left nhdsWithin_le_nhds
  · have e1 : HasDerivAt (fun h : ℝ => f' (x + k * h)) (f'' * k) 0 :=
      HasDerivAt.comp (h₂ := f') (h := fun h : ℝ => x + k * h) 0 (by rw [mul_zero, add_zero]; exact hf') (d1 0)
    have e2 : HasDerivAt (fun h : ℝ => f' (x - k * h)) (f'' * (-k)) 0 :=
      HasDerivAt.comp (h₂ := f') (h := fun h : ℝ => x - k * h) 0 (by rw [mul_zero, sub_zero]; exact hf') (d2 0)
    have e3 := ((e1.sub e2).const_mul (k / 2)).tendsto_slope_zero
    refine (e3.congr' ?_).mono_right (le_of_eq ?_)
    · filter_upwards [self_mem_nhdsWithin] with h hh
      have hh' : h ≠ 0 := hh
      simp only [Pi.sub_apply, zero_add, mul_zero, add_zero, sub_zero, smul_eq_mul]
      field_simp
      ring
    · congr 1
      ring

theorem fluxDiv_limit (iso : Bool) (eps : ℝ) {a b n0 n1 : ℝ} (S : Setting a b n0 n1) (f f' : ℝ → ℝ) (f'' x : ℝ)
    (hf : ∀ y, HasDerivAt f (f' y) y) (hf' : HasDerivAt f' f'' x) :
    Tendsto (fun h : ℝ => fluxDiv iso eps (a * h) (b * h) (sample f x a b n0 n1 h) 0 0) (𝓝[≠] 0) (𝓝 (eps ^ 2 * f'')) := by
  have L := fun k => second_difference f f' f'' x k hf hf'
  have ha := S.a
  have hb := S.b
  cases iso
  · have T := ((L (a * n0)).const_mul (eps ^ 2 / a ^ 2)).add ((L (b * n1)).const_mul (eps ^ 2 / b ^ 2))
    refine (T.congr' ?_).mono_right (le_of_eq ?_)
    · filter_upwards [self_mem_nhdsWithin] with h hh
      have hh' : h ≠ 0 := hh
      simp only [fluxDiv, Bool.false_eq_true, if_false, div2, gradFluxX, gradFluxY, sample, Int.cast_add, Int.cast_sub, Int.cast_zero,
        Int.cast_one, zero_add, zero_mul, zero_sub, add_zero, one_mul, sub_self, neg_mul, ← sub_eq_add_neg]
      field_simp
      ring
    · congr 1
      field_simp
      linear_combination eps ^ 2 * f'' * S.unit
  · have T := (((((L (a * n0 - b * n1)).add (L (a * n0 + b * n1))).sub ((L (b * n1)).const_mul 2)).add ((L (a * n0)).const_mul 10)).const_mul
        (eps ^ 2 / (12 * a ^ 2))).add
      (((((L (a * n0 - b * n1)).add (L (a * n0 + b * n1))).sub ((L (a * n0)).const_mul 2)).add ((L (b * n1)).const_mul 10)).const_mul
        (eps ^ 2 / (12 * b ^ 2)))
    refine (T.congr' ?_).mono_right (le_of_eq ?_)
    · filter_upwards [self_mem_nhdsWithin] with h hh
      have hh' : h ≠ 0 := hh
      have e1 : x + (a * n0 - b * n1) * h = x + (a * n0 + -(b * n1)) * h := by ring
      have e2 : x - (a * n0 - b * n1) * h = x + (-(a * n0) + b * n1) * h := by ring
      have e3 : x - (a * n0 + b * n1) * h = x + (-(a * n0) + -(b * n1)) * h := by ring
      have e4 : x - b * n1 * h = x + (-(b * n1)) * h := by ring
      have e5 : x - a * n0 * h = x + (-(a * n0)) * h := by ring
      simp only [fluxDiv, if_true, div2, isoFluxX, isoFluxY, sample, Int.cast_add, Int.cast_sub, Int.cast_zero,
        Int.cast_one, zero_add, zero_mul, zero_sub, add_zero, one_mul, sub_self, neg_mul, e1, e2, e3, e4, e5, Int.cast_neg]
      field_simp
      ring
    · congr 1
      field_simp
      linear_combination 12 * eps ^ 2 * f'' * a ^ 2 * b ^ 2 * S.unit

theorem sample_zero (f : ℝ → ℝ) (x a b n0 n1 h : ℝ) : sample f x a b n0 n1 h 0 0 = f x := by simp [sample]

theorem eps_sq {sigma delta : ℝ} (hs : 0 < sigma) (hd : 0 < delta) : (readInterface sigma delta).1 ^ 2 = 6 * sigma * delta := by
  unfold readInterface
  exact Real.sq_sqrt (by positivity)

theorem eps_pos {sigma delta : ℝ} (hs : 0 < sigma) (hd : 0 < delta) : 0 < (readInterface sigma delta).1 :=
  Real.sqrt_pos.mpr (by positivity)

theorem flux_eps_sq (n : ℕ) (hn : 1 < n) (e : ℝ) : (fluxEpsilon n false e) ^ 2 = e ^ 2 / 2 := by
  rw [fluxEpsilon, if_pos ⟨hn, rfl⟩, div_pow, Real.sq_sqrt (by norm_num)]

/-! ## Stationary interfaces -/

/-- **C81** (one order parameter): on the planar interface of width `delta`, in any direction, the rate computed by the
program tends to zero as the grid is refined, with either stencil. -/
theorem c81_stationary (sigma delta : ℝ) (hs : 0 < sigma) (hd : 0 < delta) (iso : Bool) {a b n0 n1 : ℝ} (S : Setting a b n0 n1)
    (x : ℝ) (r : ℝ → ℝ)
    (hr : ∀ h, singleRate iso (readInterface sigma delta).1 (readInterface sigma delta).2 (a * h) (b * h)
      (sample (profile delta) x a b n0 n1 h) 0 0 = some (r h)) :
    Tendsto r (𝓝[≠] 0) (𝓝 0) := by
  have L := fluxDiv_limit iso (readInterface sigma delta).1 S _ _ _ x (profile_deriv delta) (profile_deriv2 delta x)
  have e : r = fun h => fluxDiv iso (readInterface sigma delta).1 (a * h) (b * h) (sample (profile delta) x a b n0 n1 h) 0 0
      - (readInterface sigma delta).2 * (32 * profile delta x * (1 - profile delta x) * (1 - 2 * profile delta x)) := by
    funext h
    have := hr h
    simp only [singleRate, pbgCell, derivWellFunc, if_true, Option.bind_eq_bind, Option.bind_some, Bool.false_eq_true, if_false,
      Option.some.injEq, fluxEpsilon, gt_iff_lt, lt_self_iff_false, false_and] at this
    rw [← this]
    simp [sample]
  rw [e]
  refine (L.sub_const _).mono_right (le_of_eq ?_)
  rw [eps_sq hs hd]
  congr 1
  simp only [readInterface]
  field_simp
  ring

/-- **C81** (three phases): the interface between any two of the three phases is stationary in the same sense. -/
theorem c81_stationary_three (sigma delta : ℝ) (hs : 0 < sigma) (hd : 0 < delta) (iso : Bool) {a b n0 n1 : ℝ} (S : Setting a b n0 n1)
    (x : ℝ) (p q k : Fin 3) (hpq : p ≠ q) :
    Tendsto (fun h => threeRate iso (readInterface sigma delta).1 (readInterface sigma delta).2 (a * h) (b * h)
      (fun m => sample (fun y => if m = p then profile delta y else if m = q then 1 - profile delta y else 0) x a b n0 n1 h) k 0 0)
      (𝓝[≠] 0) (𝓝 0) := by
  have Lp := fluxDiv_limit iso (readInterface sigma delta).1 S _ _ _ x (profile_deriv delta) (profile_deriv2 delta x)
  have Lq := fluxDiv_limit iso (readInterface sigma delta).1 S (fun y => 1 - profile delta y) _ _ x
    (fun y => (profile_deriv delta y).const_sub 1) ((profile_deriv2 delta x).neg)
  have L0 := fluxDiv_limit iso (readInterface sigma delta).1 S (fun _ => 0) (fun _ => 0) 0 x
    (fun y => hasDerivAt_const y 0) (hasDerivAt_const x 0)
  rw [eps_sq hs hd] at Lp Lq L0
  have hL : ∀ m, Tendsto (fun h : ℝ => fluxDiv iso (readInterface sigma delta).1 (a * h) (b * h)
      (sample (fun y => if m = p then profile delta y else if m = q then 1 - profile delta y else 0) x a b n0 n1 h) 0 0) (𝓝[≠] 0)
      (𝓝 (if m = p then 6 * sigma * delta * (profile delta x * (1 - profile delta x) * (1 - 2 * profile delta x) / delta ^ 2)
        else if m = q then 6 * sigma * delta * (-(profile delta x * (1 - profile delta x) * (1 - 2 * profile delta x) / delta ^ 2))
        else 6 * sigma * delta * 0)) := by
    intro m
    by_cases h1 : m = p
    · simp only [h1, if_true]; exact Lp
    · by_cases h2 : m = q
      · simp only [h1, h2, if_true, if_false, hpq.symm]; exact Lq
      · simp only [h1, h2, if_false]; exact L0
  have hW : (readInterface sigma delta).2 = 3 * sigma / delta / 16 := rfl
  simp only [threeRate, threeCell, fluxEpsilon, Bool.true_eq_false, and_false, if_false, sample_zero, derivTripleWellFunc]
  have R : ∀ m, Tendsto (fun h : ℝ => fluxDiv iso (readInterface sigma delta).1 (a * h) (b * h)
      (sample (fun y => if m = p then profile delta y else if m = q then 1 - profile delta y else 0) x a b n0 n1 h) 0 0 -
      (readInterface sigma delta).2 * (32 * (1 / 3) *
        (2 * (if m = p then profile delta x else if m = q then 1 - profile delta x else 0) *
            (1 - (if m = p then profile delta x else if m = q then 1 - profile delta x else 0)) *
            (1 - 2 * (if m = p then profile delta x else if m = q then 1 - profile delta x else 0)) -
          (if m + 1 = p then profile delta x else if m + 1 = q then 1 - profile delta x else 0) *
            (1 - (if m + 1 = p then profile delta x else if m + 1 = q then 1 - profile delta x else 0)) *
            (1 - 2 * (if m + 1 = p then profile delta x else if m + 1 = q then 1 - profile delta x else 0)) -
          (if m + 2 = p then profile delta x else if m + 2 = q then 1 - profile delta x else 0) *
            (1 - (if m + 2 = p then profile delta x else if m + 2 = q then 1 - profile delta x else 0)) *
            (1 - 2 * (if m + 2 = p then profile delta x else if m + 2 = q then 1 - profile delta x else 0)))))
      (𝓝[≠] 0) (𝓝 0) := by
    intro m
    refine ((hL m).sub_const _).mono_right (le_of_eq ?_)
    rw [hW]
    congr 1
    generalize profile delta x = f
    clear hL Lp Lq L0
    fin_cases m <;> fin_cases p <;> fin_cases q <;> first
      | exact absurd rfl hpq
      | (simp only [Fin.isValue, Fin.zero_eta, Fin.mk_one, Fin.reduceFinMk, Fin.reduceAdd, Fin.reduceEq, zero_add, reduceIte]
         field_simp
         try ring)
  have Z := (R k).sub ((((R 0).add (R 1)).add (R 2)).mul_const (1 / 3))
  refine Z.mono_right (le_of_eq ?_)
  norm_num

/-- **C81** (violation): with several order parameters the interface between two grains is not stationary: both grains grow
into it, at a rate proportional to the interface energy. -/
theorem c81_violation_multi (sigma delta : ℝ) (hs : 0 < sigma) (hd : 0 < delta) (iso : Bool) {a b n0 n1 : ℝ} (S : Setting a b n0 n1)
    (x : ℝ) (n : ℕ) (p q : Fin n) (hpq : p ≠ q) :
    Tendsto (fun h => multiRate n iso (readInterface sigma delta).1 (readInterface sigma delta).2 (a * h) (b * h)
      (fun m => sample (fun y => if m = p then profile delta y else if m = q then 1 - profile delta y else 0) x a b n0 n1 h) p 0 0)
      (𝓝[≠] 0) (𝓝 (9 * sigma / (2 * delta) * profile delta x ^ 2 * (1 - profile delta x))) ∧
    0 < 9 * sigma / (2 * delta) * profile delta x ^ 2 * (1 - profile delta x) := by
  have hn : 1 < n := by
    rcases n with _ | _ | n
    · exact p.elim0
    · exact absurd (Fin.ext (by have := p.2; have := q.2; omega)) hpq
    · omega
  have Lp := fluxDiv_limit iso (fluxEpsilon n false (readInterface sigma delta).1) S _ _ _ x (profile_deriv delta) (profile_deriv2 delta x)
  rw [flux_eps_sq n hn, eps_sq hs hd] at Lp
  have hsum : (∑ k : Fin n, (if k = p then profile delta x else if k = q then 1 - profile delta x else 0) *
      (if k = p then profile delta x else if k = q then 1 - profile delta x else 0)) =
      profile delta x * profile delta x + (1 - profile delta x) * (1 - profile delta x) := by
    rw [Finset.sum_eq_add p q hpq]
    · simp [hpq.symm]
    · intro c _ hc; simp [hc.1, hc.2]
    · simp
    · simp
  constructor
  · simp only [multiRate, multiWell, sample_zero, hsum, if_true]
    refine (Lp.add_const _).mono_right (le_of_eq ?_)
    congr 1
    simp only [multiOrderScale, multiOrderGamma, readInterface]
    generalize profile delta x = f
    field_simp
    ring
  · have := profile_range delta x
    have h1 : 0 < 1 - profile delta x := by linarith [this.2]
    have h2 := this.1
    positivity

/-- **C81** (sintering): the composition potential vanishes on the surface of a particle. -/
theorem c81_sintering_potential (sigma delta : ℝ) (hs : 0 < sigma) (hd : 0 < delta) {a b n0 n1 : ℝ} (S : Setting a b n0 n1) (x : ℝ)
    (n : ℕ) (p : ℕ) (hp : p ∈ Finset.Icc 1 n) :
    Tendsto (fun h => muWang (wangParameters sigma delta).1 (wangParameters sigma delta).2.1 (wangParameters sigma delta).2.2 (a * h) (b * h) n
      (sample (profile delta) x a b n0 n1 h) (fun m => sample (fun y => if m = p then profile delta y else 0) x a b n0 n1 h) 0 0)
      (𝓝[≠] 0) (𝓝 0) := by
  have L := fluxDiv_limit false 1 S _ _ _ x (profile_deriv delta) (profile_deriv2 delta x)
  have h2 : (∑ k ∈ Finset.Icc 1 n, (if k = p then profile delta x else 0) * (if k = p then profile delta x else 0)) =
      profile delta x * profile delta x := by
    rw [Finset.sum_eq_single_of_mem p hp]
    · simp
    · intro c _ hc; simp [hc]
  have h3 : (∑ k ∈ Finset.Icc 1 n, (if k = p then profile delta x else 0) * (if k = p then profile delta x else 0) *
      (if k = p then profile delta x else 0)) = profile delta x * profile delta x * profile delta x := by
    rw [Finset.sum_eq_single_of_mem p hp]
    · simp
    · intro c _ hc; simp [hc]
  have el : ∀ h, lap2 (a * h) (b * h) (sample (profile delta) x a b n0 n1 h) 0 0 =
      fluxDiv false 1 (a * h) (b * h) (sample (profile delta) x a b n0 n1 h) 0 0 := by
    intro h
    simp only [fluxDiv, Bool.false_eq_true, if_false, div2, gradFluxX, gradFluxY, lap2, div_eq_mul_inv, one_mul, add_sub_cancel_right]
    ring
  simp only [muWang, sample_zero, h2, h3, el]
  refine ((L.const_mul _).const_sub _).mono_right (le_of_eq ?_)
  congr 1
  simp only [wangParameters]
  generalize profile delta x = f
  field_simp
  ring

/-- **C81** (violation, sintering): the order parameter of the particle is multiplied by `epsilon` once too often: on the
same surface its rate tends to `(epsilon - 1)` times the curvature term, so the surface is stationary exactly if
`6 sigma delta = 1`. -/
theorem c81_violation_sintering (sigma delta : ℝ) (hs : 0 < sigma) (hd : 0 < delta) (iso : Bool) {a b n0 n1 : ℝ} (S : Setting a b n0 n1)
    (n : ℕ) (hn : 1 < n) (p : Fin n) :
    (∀ x, Tendsto (fun h => sinterRate n iso (readInterface sigma delta).1 (wangParameters sigma delta).2.1 (a * h) (b * h)
      (sample (profile delta) x a b n0 n1 h) (fun m => sample (fun y => if m = p then profile delta y else 0) x a b n0 n1 h) p 0 0)
      (𝓝[≠] 0) (𝓝 (((readInterface sigma delta).1 - 1) * (3 * sigma / delta) *
        (profile delta x * (1 - profile delta x) * (1 - 2 * profile delta x))))) ∧
    ((∀ x, ((readInterface sigma delta).1 - 1) * (3 * sigma / delta) *
        (profile delta x * (1 - profile delta x) * (1 - 2 * profile delta x)) = 0) ↔ 6 * sigma * delta = 1) := by
  have hp := eps_pos hs hd
  have he := eps_sq hs hd
  constructor
  · intro x
    have Lp := fluxDiv_limit iso (fluxEpsilon n false (readInterface sigma delta).1) S _ _ _ x (profile_deriv delta) (profile_deriv2 delta x)
    rw [flux_eps_sq n hn, he] at Lp
    have hsum : (∑ k : Fin n, (if k = p then profile delta x else 0) * (if k = p then profile delta x else 0)) =
        profile delta x * profile delta x := by
      rw [Finset.sum_eq_single_of_mem p (Finset.mem_univ p)]
      · simp
      · intro c _ hc; simp [hc]
    simp only [sinterRate, wangRate, sample_zero, hsum, if_true]
    refine ((Lp.const_mul _).sub_const _).mono_right (le_of_eq ?_)
    congr 1
    simp only [wangParameters]
    generalize profile delta x = f
    generalize (readInterface sigma delta).1 = E
    field_simp
    ring
  · constructor
    · intro h
      obtain ⟨x, hx⟩ : ∃ x, 1 - 2 * profile delta x ≠ 0 := by
        refine ⟨delta, ?_⟩
        unfold profile
        rw [neg_div, div_self hd.ne']
        have h1 : Real.exp (-1) < 1 := by rw [Real.exp_lt_one_iff]; norm_num
        have h2 := Real.exp_pos (-1)
        intro h3
        field_simp at h3
        linarith
      have h1 := h x
      have r := profile_range delta x
      have hA : (3 * sigma / delta) ≠ 0 := by positivity
      have hB : profile delta x * (1 - profile delta x) * (1 - 2 * profile delta x) ≠ 0 :=
        mul_ne_zero (mul_ne_zero r.1.ne' (by linarith [r.2])) hx
      have h2 : (readInterface sigma delta).1 - 1 = 0 := by
        rcases mul_eq_zero.mp h1 with h3 | h3
        · rcases mul_eq_zero.mp h3 with h4 | h4
          · exact h4
          · exact absurd h4 hA
        · exact absurd h3 hB
      rw [← he, sub_eq_zero.mp h2]; norm_num
    · intro h x
      have : (readInterface sigma delta).1 = 1 := by
        rw [readInterface, h]; exact Real.sqrt_one
      rw [this]; ring

/-! ## Energy -/

/-- **C81**: every smooth profile with values in `[0,1]` that crosses from phase fraction `u` to `v` has at least the
energy `sigma` times `S(v) - S(u)`, `S(y) = 3y² - 2y³`; in particular at least `sigma` from 0 to 1. -/
theorem c81_energy_at_least (sigma delta : ℝ) (hs : 0 < sigma) (hd : 0 < delta) (f f' g : ℝ → ℝ) (hf : ∀ x, HasDerivAt f (f' x) x)
    (hc : Continuous f') (hr : ∀ x, 0 ≤ f x ∧ f x ≤ 1) (hg : ∀ x, wellFunc 'd' (f x) = some (g x)) (l r : ℝ) (hlr : l ≤ r) :
    sigma * ((3 * f r ^ 2 - 2 * f r ^ 3) - (3 * f l ^ 2 - 2 * f l ^ 3)) ≤
      ∫ x in l..r, ((readInterface sigma delta).1 ^ 2 / 2 * f' x ^ 2 + (readInterface sigma delta).2 * g x) := by
  have hcf : Continuous f := continuous_iff_continuousAt.mpr fun x => (hf x).continuousAt
  have hG : g = fun x => 16 * f x * f x * (1 - f x) * (1 - f x) := by
    funext x
    have := hg x
    simp only [wellFunc, if_true, Option.some.injEq] at this
    exact this.symm
  have hd1 : ∀ x, HasDerivAt (fun x => sigma * (3 * f x ^ 2 - 2 * f x ^ 3)) (6 * sigma * (f x * (1 - f x)) * f' x) x := fun x =>
    ((((hf x).pow 2).const_mul 3).sub (((hf x).pow 3).const_mul 2)).const_mul sigma |>.congr_deriv (by simp; ring)
  have hi : (∫ x in l..r, 6 * sigma * (f x * (1 - f x)) * f' x) =
      sigma * (3 * f r ^ 2 - 2 * f r ^ 3) - sigma * (3 * f l ^ 2 - 2 * f l ^ 3) :=
    intervalIntegral.integral_eq_sub_of_hasDerivAt (fun x _ => hd1 x)
      (Continuous.intervalIntegrable (by fun_prop) l r)
  rw [mul_sub, ← hi]
  refine intervalIntegral.integral_mono_on hlr (Continuous.intervalIntegrable (by fun_prop) l r)
    (Continuous.intervalIntegrable (by rw [hG]; fun_prop) l r) ?_
  intro x _
  rw [eps_sq hs hd, hG]
  simp only [readInterface]
  have key : 6 * sigma * delta / 2 * f' x ^ 2 + 3 * sigma / delta / 16 * (16 * f x * f x * (1 - f x) * (1 - f x))
      - 6 * sigma * (f x * (1 - f x)) * f' x = 3 * sigma / delta * (delta * f' x - f x * (1 - f x)) ^ 2 := by
    field_simp
    ring
  have : 0 ≤ 3 * sigma / delta * (delta * f' x - f x * (1 - f x)) ^ 2 := by positivity
  linarith

/-- **C81**: the profile of width `delta` attains it: its energy on a window is exactly that amount, ... -/
theorem c81_energy_profile (sigma delta : ℝ) (hs : 0 < sigma) (hd : 0 < delta) (g : ℝ → ℝ)
    (hg : ∀ x, wellFunc 'd' (profile delta x) = some (g x)) (l r : ℝ) :
    (∫ x in l..r, ((readInterface sigma delta).1 ^ 2 / 2 * (profile delta x * (1 - profile delta x) / delta) ^ 2
      + (readInterface sigma delta).2 * g x)) =
      sigma * ((3 * profile delta r ^ 2 - 2 * profile delta r ^ 3) - (3 * profile delta l ^ 2 - 2 * profile delta l ^ 3)) := by
  have hf := profile_deriv delta
  have hcf : Continuous (profile delta) := continuous_iff_continuousAt.mpr fun x => (hf x).continuousAt
  have hd1 : ∀ x, HasDerivAt (fun x => sigma * (3 * profile delta x ^ 2 - 2 * profile delta x ^ 3))
      (6 * sigma * (profile delta x * (1 - profile delta x)) * (profile delta x * (1 - profile delta x) / delta)) x := fun x =>
    ((((hf x).pow 2).const_mul 3).sub (((hf x).pow 3).const_mul 2)).const_mul sigma |>.congr_deriv (by simp; ring)
  have hi := intervalIntegral.integral_eq_sub_of_hasDerivAt (a := l) (b := r) (fun x _ => hd1 x)
      (Continuous.intervalIntegrable (by fun_prop) l r)
  rw [mul_sub, ← hi]
  refine intervalIntegral.integral_congr fun x _ => ?_
  have := hg x
  simp only [wellFunc, if_true, Option.some.injEq] at this
  beta_reduce
  rw [← this, eps_sq hs hd]
  simp only [readInterface]
  field_simp
  ring

theorem profile_top (delta : ℝ) (hd : 0 < delta) : Tendsto (profile delta) atTop (𝓝 1) := by
  have h1 : Tendsto (fun x : ℝ => -x / delta) atTop atBot := by
    have : Tendsto (fun x : ℝ => x / delta) atTop atTop := tendsto_id.atTop_div_const hd
    exact (tendsto_neg_atTop_atBot.comp this).congr fun x => by simp [neg_div]
  have h2 := Real.tendsto_exp_atBot.comp h1
  have h3 := (h2.const_add 1).inv₀ (by norm_num)
  simp only [add_zero, inv_one] at h3
  exact h3.congr fun x => by simp [profile]

theorem profile_neg (delta x : ℝ) : profile delta (-x) = 1 - profile delta x := by
  unfold profile
  rw [neg_neg, neg_div, Real.exp_neg]
  have := Real.exp_pos (x / delta)
  field_simp
  ring

/-- ... and its total energy per area is the `sigma` asked for. -/
theorem c81_energy_total (sigma delta : ℝ) (hs : 0 < sigma) (hd : 0 < delta) (g : ℝ → ℝ)
    (hg : ∀ x, wellFunc 'd' (profile delta x) = some (g x)) :
    Tendsto (fun l => ∫ x in (-l)..l, ((readInterface sigma delta).1 ^ 2 / 2 * (profile delta x * (1 - profile delta x) / delta) ^ 2
      + (readInterface sigma delta).2 * g x)) atTop (𝓝 sigma) := by
  have h1 := profile_top delta hd
  have h2 : Tendsto (fun l => profile delta (-l)) atTop (𝓝 0) := by
    have := h1.const_sub 1
    simp only [sub_self] at this
    exact this.congr fun l => (profile_neg delta l).symm
  have T := ((((h1.pow 2).const_mul 3).sub ((h1.pow 3).const_mul 2)).sub (((h2.pow 2).const_mul 3).sub ((h2.pow 3).const_mul 2))).const_mul sigma
  refine (T.congr fun l => (c81_energy_profile sigma delta hs hd g hg (-l) l).symm).mono_right (le_of_eq ?_)
  congr 1
  norm_num

/-- **C81**: the width used in the anti-trapping current is the `delta` asked for. -/
theorem c81_antitrapping_width (sigma delta : ℝ) (hs : 0 < sigma) (hd : 0 < delta) :
    antitrappingWidth (readInterface sigma delta).1 (readInterface sigma delta).2 = delta := by
  unfold antitrappingWidth readInterface
  rw [← Real.sqrt_div (by positivity), show 6 * sigma * delta / (32 * (3 * sigma / delta / 16)) = delta ^ 2 by field_simp; norm_num]
  exact Real.sqrt_sq hd.le

example : Setting 1 (1/2) (3/5) (4/5) := ⟨one_ne_zero, by norm_num, by norm_num⟩

/-- In the sintering test of the repository `epsilon = 1` (so the extra factor is invisible); with `sigma = delta = 1` it
is not. -/
example : ¬(6 * (1 : ℝ) * 1 = 1) ∧ 6 * (1 / 6 : ℝ) * 1 = 1 := by norm_num

end AMPE.Interface.Props
