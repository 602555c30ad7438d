import Verif.Model.Bilayer
import Mathlib.Analysis.Complex.ExponentialBounds
import Mathlib.Algebra.BigOperators.Fin
import Mathlib.Algebra.BigOperators.Intervals
import Mathlib.Tactic.Linarith
import Mathlib.Tactic.FieldSimp
import Mathlib.Tactic.Ring
import Mathlib.Tactic.FinCases
import Mathlib.Tactic.LinearCombination

/-!
# C144: layers are where, and as much, as asked for
-/

namespace AMPE.Bilayer.Props

open AMPE.Bilayer Finset

/-! ## What is meant -/

/-- Distance of the middle of cell `m` from a plane. -/
noncomputable def dist (m : ℕ) (c : ℝ) : ℝ := |(m : ℝ) + 1 / 2 - c|

/-- Sum of a field over all cells of the box. -/
noncomputable def total (o : Opts) (f : ℕ → ℝ) : ℝ := ∑ i ∈ range o.nx, ∑ j ∈ range o.ny, ∑ k ∈ range o.nz, f (o.across i j k)

theorem d1_eq (o : Opts) (m : ℕ) : o.d1 m = dist m o.centerOne - o.rad := by unfold Opts.d1 dist; rw [Real.sqrt_sq_eq_abs]

theorem d2_eq (o : Opts) (m : ℕ) : o.d2 m = dist m o.centerTwo - o.radTwo := by unfold Opts.d2 dist; rw [Real.sqrt_sq_eq_abs]

theorem total_eq (o : Opts) (f : ℕ → ℝ) : total o f = o.area * ∑ m ∈ range o.width, f m := by
  unfold total Opts.across Opts.area Opts.width
  cases o.dir <;> simp only [sum_const, card_range, nsmul_eq_mul, ← mul_sum] <;> push_cast <;> ring

theorem vol_eq (o : Opts) : o.vol = o.area * o.width := by
  unfold Opts.vol Opts.area Opts.width
  cases o.dir <;> push_cast <;> ring

/-! ## The profile -/

theorem phi_sharp {delta : ℤ} (h : delta ≤ 0) (d : ℝ) : phi delta d = if 0 < d then 0 else 1 := by
  unfold phi; rw [if_neg (by omega)]

theorem phi_smooth {delta : ℤ} (h : 0 < delta) (d : ℝ) : phi delta d = 1 / (1 + Real.exp (d / delta)) := by
  unfold phi
  rw [if_pos h, Real.tanh_eq_sinh_div_cosh, Real.sinh_eq, Real.cosh_eq]
  have hd : (0:ℝ) < delta := by exact_mod_cast h
  set y := d / (delta : ℝ) with hy
  have e1 : (-0.5 : ℝ) * d * (1 / delta) = -(y / 2) := by rw [hy]; ring
  rw [e1, neg_neg]
  have e2 : Real.exp y = Real.exp (y / 2) * Real.exp (y / 2) := by rw [← Real.exp_add]; congr 1; ring
  have e3 : Real.exp (-(y / 2)) = 1 / Real.exp (y / 2) := by rw [Real.exp_neg, one_div]
  rw [e2, e3]
  have hp := Real.exp_pos (y / 2)
  generalize Real.exp (y / 2) = x at *
  have : 1 + x * x ≠ 0 := by positivity
  have : 1 / x + x ≠ 0 := by positivity
  field_simp
  ring

theorem phi_range (delta : ℤ) (d : ℝ) : 0 ≤ phi delta d ∧ phi delta d ≤ 1 := by
  by_cases h : 0 < delta
  · rw [phi_smooth h]
    have := Real.exp_pos (d / delta)
    exact ⟨by positivity, by rw [div_le_one (by positivity)]; linarith⟩
  · rw [phi_sharp (by omega)]
    split_ifs <;> norm_num

/-- **C144**: the phase is a mixture of the two values asked for, whatever the layers and the width of the interfaces. -/
theorem c144_phase_range (o : Opts) (m : ℕ) : min o.phaseIn o.phaseOut ≤ o.phase m ∧ o.phase m ≤ max o.phaseIn o.phaseOut := by
  have mixed : ∀ p : ℝ, 0 ≤ p → p ≤ 1 → min o.phaseIn o.phaseOut ≤ p * o.phaseIn + (1 - p) * o.phaseOut ∧
      p * o.phaseIn + (1 - p) * o.phaseOut ≤ max o.phaseIn o.phaseOut := fun p p0 p1 => by
    have a1 := min_le_left o.phaseIn o.phaseOut
    have a2 := min_le_right o.phaseIn o.phaseOut
    have b1 := le_max_left o.phaseIn o.phaseOut
    have b2 := le_max_right o.phaseIn o.phaseOut
    constructor <;> nlinarith
  unfold Opts.phase Opts.mix
  simp only
  split_ifs
  · exact mixed _ (phi_range _ _).1 (phi_range _ _).2
  · exact mixed _ (phi_range _ _).1 (phi_range _ _).2
  · exact mixed _ (phi_range _ _).1 (phi_range _ _).2

/-- **C144**: one layer without a diffuse interface: the cells at most a radius from its middle are inside, the others outside. -/
theorem c144_one_layer (o : Opts) (h1 : o.two = false) (hd : o.delta ≤ 0) (inn out : ℝ) (m : ℕ) :
    o.mix inn out m = if dist m o.center ≤ o.rad then inn else out := by
  unfold Opts.mix
  rw [phi_sharp hd, d1_eq, h1]
  have hc : o.centerOne = o.center := by unfold Opts.centerOne; rw [h1]; rfl
  rw [hc]
  simp only [Bool.false_eq_true, if_false]
  by_cases h : dist m o.center ≤ o.rad
  · rw [if_pos h, if_neg (by linarith)]; simp
  · rw [if_neg h, if_pos (by linarith)]; simp

/-- Two layers without a diffuse interface; a cell whose middle is exactly on the edge of the second layer is not part of it. -/
theorem c144_two_layers_partial (o : Opts) (h2 : o.two = true) (hd : o.delta = 0) (inn out : ℝ) (m : ℕ) :
    o.mix inn out m = if dist m o.centerOne ≤ o.rad ∨ dist m o.centerTwo < o.radTwo then inn else out := by
  unfold Opts.mix
  rw [phi_sharp hd.le, phi_sharp hd.le, d1_eq, d2_eq, h2, hd]
  simp only [if_true, Int.cast_zero]
  by_cases h : dist m o.centerTwo < o.radTwo
  · rw [if_pos (by linarith), if_pos (Or.inr h), if_neg (by linarith)]; simp
  · rw [if_neg (by linarith)]
    by_cases h' : dist m o.centerOne ≤ o.rad
    · rw [if_pos (Or.inl h'), if_neg (by linarith)]; simp
    · have h3 : ¬ (dist m o.centerOne ≤ o.rad ∨ dist m o.centerTwo < o.radTwo) := by tauto
      rw [if_neg h3, if_pos (by linarith)]; simp

/-- **C144, violation**: two layers across z are one: with the same radii the file is the one of a single layer of that radius,
since their middles are not moved apart. -/
theorem c144_violation_two_across_z (o : Opts) (hz : o.dir = .z) (h2 : o.two = true) (hd : o.delta = 0) (hr : o.ratio = 1) (inn out : ℝ) (m : ℕ) :
    o.centerOne = o.centerTwo ∧ o.mix inn out m = if dist m o.center ≤ o.rad then inn else out := by
  have e1 : o.centerOne = o.center := by unfold Opts.centerOne; rw [h2, hz]; rfl
  have e2 : o.centerTwo = o.center := by unfold Opts.centerTwo; rw [hz]
  have e3 : o.radTwo = o.rad := by unfold Opts.radTwo; rw [h2, hr]; simp
  refine ⟨e1.trans e2.symm, ?_⟩
  rw [c144_two_layers_partial o h2 hd, e1, e2, e3]
  by_cases h : dist m o.center ≤ o.rad
  · rw [if_pos h, if_pos (Or.inl h)]
  · rw [if_neg h, if_neg (by rintro (h' | h'); exacts [h h', h h'.le])]

/-- **C144, violation**: however wide the interfaces, the one of the second layer is cut off: from the last cell less than `delta` outside
it to the next one the phase drops by more than a fifth (phase one inside, zero outside, first layer far away). -/
theorem c144_violation_cut (o : Opts) (h2 : o.two = true) (hd : 0 < o.delta) (hin : o.phaseIn = 1) (hout : o.phaseOut = 0) (m : ℕ)
    (ha : o.d2 m < o.delta) (hb : (o.delta : ℝ) ≤ o.d2 (m + 1)) (hfar : 4 * (o.delta : ℝ) ≤ o.d1 (m + 1)) :
    1 / 5 < o.phase m - o.phase (m + 1) := by
  have hδ : (0:ℝ) < o.delta := by exact_mod_cast hd
  have p1 : o.phase m = phi o.delta (o.d2 m) := by
    unfold Opts.phase Opts.mix; rw [h2, hin, hout]; simp only [if_true]; rw [if_pos ha]; ring
  have p2 : o.phase (m + 1) = phi o.delta (o.d1 (m + 1)) := by
    unfold Opts.phase Opts.mix; rw [h2, hin, hout]; simp only [if_true]; rw [if_neg (by linarith)]; ring
  rw [p1, p2, phi_smooth hd, phi_smooth hd]
  have e1 : Real.exp (o.d2 m / o.delta) < 2.7182818286 :=
    (Real.exp_lt_exp.2 (by rw [div_lt_one hδ]; exact ha)).trans Real.exp_one_lt_d9
  have e4 : Real.exp 4 ≤ Real.exp (o.d1 (m + 1) / o.delta) := Real.exp_le_exp.2 (by rw [le_div_iff₀ hδ]; exact hfar)
  have e5 : (2.7182818283 : ℝ) ^ 4 < Real.exp 4 := by
    have := Real.exp_one_gt_d9
    rw [show (4:ℝ) = ((4:ℕ) : ℝ) * 1 by norm_num, Real.exp_nat_mul]
    exact pow_lt_pow_left₀ this (by norm_num) (by norm_num)
  have hp := Real.exp_pos (o.d2 m / o.delta)
  have l : 1 / 4 < 1 / (1 + Real.exp (o.d2 m / o.delta)) := one_div_lt_one_div_of_lt (by linarith) (by linarith)
  have r : 1 / (1 + Real.exp (o.d1 (m + 1) / o.delta)) < 1 / 50 := one_div_lt_one_div_of_lt (by norm_num) (by norm_num at e5; linarith)
  linarith

/-! ## Composition -/

/-- The cells inside. -/
noncomputable def inside (o : Opts) : Finset ℕ := (range o.width).filter fun m =>
  dist m o.centerOne ≤ o.rad ∨ (o.two = true ∧ dist m o.centerTwo < o.radTwo)

theorem mix_inside (o : Opts) (hd : o.delta = 0) (inn out : ℝ) (m : ℕ) (hm : m ∈ range o.width) :
    o.mix inn out m = if m ∈ inside o then inn else out := by
  cases h : o.two with
  | false =>
    rw [c144_one_layer o h hd.le]
    have hc : o.centerOne = o.center := by unfold Opts.centerOne; rw [h]; rfl
    simp only [inside, mem_filter, hm, true_and, h, hc, Bool.false_eq_true, false_and, or_false]
  | true =>
    rw [c144_two_layers_partial o h hd]
    simp only [inside, mem_filter, hm, true_and, h]

theorem total_mix (o : Opts) (hd : o.delta = 0) (inn out : ℝ) :
    total o (o.mix inn out) = out * o.vol + (inn - out) * (o.area * (inside o).card) := by
  rw [total_eq, sum_congr rfl fun m hm => mix_inside o hd inn out m hm]
  have hsub : inside o ⊆ range o.width := filter_subset _ _
  have : ∑ m ∈ range o.width, (if m ∈ inside o then inn else out) = out * o.width + (inn - out) * (inside o).card := by
    have e : ∀ m, (if m ∈ inside o then inn else out) = out + if m ∈ inside o then inn - out else 0 := fun m => by split_ifs <;> ring
    simp only [e, sum_add_distrib, sum_const, card_range, nsmul_eq_mul, sum_ite_mem, inter_eq_right.2 hsub]
    ring
  rw [this, vol_eq]
  ring

/-- **C144**: with a nominal composition and a composition inside, the composition of the file is the nominal one up to the error made in
counting the cells of the solid, for one or two layers of any place and size. -/
theorem c144_composition (o : Opts) (hd : o.delta = 0) (c ci : ℝ) (hc : o.nomconc = some c) (hi : o.concIn = some ci) (ho : o.concOut = none)
    (hl : 0 < o.vl) : ∃ co f, co = (c * o.vol - ci * o.vs) / o.vl ∧ (∀ m, o.conc m = some (some (f m))) ∧
      total o f = c * o.vol + (ci - co) * (o.area * (inside o).card - o.vs) := by
  refine ⟨(c * o.vol - ci * o.vs) / o.vl, o.mix ci ((c * o.vol - ci * o.vs) / o.vl), rfl, fun m => ?_, ?_⟩
  · simp [Opts.conc, Opts.compositions, hc, hi, ho, hl]
  · rw [total_mix o hd]
    have hne : o.vl ≠ 0 := hl.ne'
    have hv : o.vol = o.vl + o.vs := by unfold Opts.vl; ring
    rw [hv]
    field_simp
    ring

theorem card_inside (o : Opts) (a b : ℕ) (hb : b ≤ o.width) (h : ∀ m, m < o.width → (m ∈ inside o ↔ a ≤ m ∧ m < b)) :
    (inside o).card = b - a := by
  rw [← Nat.card_Ico]
  congr 1
  ext m
  rw [mem_Ico]
  constructor
  · intro hm; exact (h m (mem_range.1 (mem_filter.1 hm).1)).1 hm
  · intro hm; exact (h m (by omega)).2 hm

/-- A layer in the middle. -/
theorem inside_one (o : Opts) (h1 : o.two = false) (m : ℕ) (hm : m < o.width) (hc : o.center = o.width / 2) :
    m ∈ inside o ↔ (o.width : ℝ) / 2 - o.rad ≤ m + 1 / 2 ∧ (m : ℝ) + 1 / 2 ≤ o.width / 2 + o.rad := by
  have e : o.centerOne = o.center := by unfold Opts.centerOne; rw [h1]; rfl
  simp only [inside, mem_filter, mem_range, hm, true_and, h1, Bool.false_eq_true, false_and, or_false, e, hc, dist, abs_le]
  constructor <;> rintro ⟨a, b⟩ <;> constructor <;> linarith

theorem area_pos {o : Opts} (hl : 0 < o.vl) (hr : 0 ≤ o.rad) : 0 < o.area := by
  rcases Nat.eq_zero_or_pos o.area with h | h
  · have hv : o.vol = 0 := by rw [vol_eq, h]; simp
    have hs : o.vs = 0 := by
      unfold Opts.vs; rw [hv, h]; simp only [Nat.cast_zero, mul_zero]; split_ifs <;> simp
    unfold Opts.vl at hl
    rw [hv, hs] at hl; simp at hl
  · exact h

theorem vs_one (o : Opts) (h1 : o.two = false) (hw : 2 * o.rad ≤ o.width) : o.vs = 2 * o.rad * o.area := by
  unfold Opts.vs
  rw [h1]
  simp only [Bool.false_eq_true, if_false]
  rw [min_eq_left]
  rw [vol_eq]
  have : (0:ℝ) ≤ o.area := by positivity
  nlinarith

/-- **C144**: one sharp layer in the middle of a box of an even number of cells across, whose half width is given as a number of cells: the
mean composition is the nominal one. -/
theorem c144_nominal_partial (o : Opts) (h1 : o.two = false) (hd : o.delta = 0) (c ci : ℝ) (hc : o.nomconc = some c) (hi : o.concIn = some ci)
    (ho : o.concOut = none) (hm : o.center = o.width / 2) (h r : ℕ) (hw : o.width = 2 * h) (hr : o.radius = some (r : ℤ)) (hlt : r < h)
    (ha : 0 < o.area) : ∃ f, (∀ m, o.conc m = some (some (f m))) ∧ total o f = c * o.vol := by
  have er : o.rad = r := by unfold Opts.rad; rw [hr]; simp
  have ehw : (o.width : ℝ) = 2 * h := by rw [hw]; push_cast; ring
  have hrh : (r : ℝ) < h := by exact_mod_cast hlt
  have es := vs_one o h1 (by rw [er, ehw]; linarith)
  have ha' : (0:ℝ) < o.area := by exact_mod_cast ha
  have hl : 0 < o.vl := by
    unfold Opts.vl; rw [es, vol_eq, er, ehw]
    have := mul_pos ha' (sub_pos.2 hrh); linarith
  obtain ⟨co, f, _, hf, ht⟩ := c144_composition o hd c ci hc hi ho hl
  refine ⟨f, hf, ?_⟩
  have hcard : (inside o).card = (h + r) - (h - r) := card_inside o (h - r) (h + r) (by omega) fun m hmw => by
    rw [inside_one o h1 m hmw hm, er, ehw]
    constructor
    · rintro ⟨a, b⟩
      constructor
      · by_contra hh
        have : m + 1 ≤ h - r := by omega
        have h2 : ((m + 1 + r : ℕ) : ℝ) ≤ (h : ℝ) := by exact_mod_cast (by omega : m + 1 + r ≤ h)
        push_cast at h2; linarith
      · by_contra hh
        have h2 : ((h + r : ℕ) : ℝ) ≤ (m : ℝ) := by exact_mod_cast (by omega : h + r ≤ m)
        push_cast at h2; linarith
    · rintro ⟨a, b⟩
      have h2 : (h : ℝ) ≤ ((m + r : ℕ) : ℝ) := by exact_mod_cast (by omega : h ≤ m + r)
      have h3 : ((m + 1 : ℕ) : ℝ) ≤ ((h + r : ℕ) : ℝ) := by exact_mod_cast (by omega : m + 1 ≤ h + r)
      push_cast at h2 h3
      constructor <;> linarith
  have h4 : (h + r) - (h - r) = 2 * r := by omega
  rw [ht, hcard, h4, es, er]
  push_cast; ring

/-- The excess of composition when one layer of cells too many is solid. -/
theorem excess (o : Opts) (c ci co t : ℝ) (hco : co = (c * o.vol - ci * o.vs) / o.vl) (hl : 0 < o.vl) (n : ℝ)
    (ht : t = c * o.vol + (ci - co) * n) : t - c * o.vol = (ci - c) * (o.vol / o.vl) * n := by
  have hv : o.vol = o.vl + o.vs := by unfold Opts.vl; ring
  rw [ht, hco, hv]
  have := hl.ne'
  field_simp
  ring

/-- **C144, violation**: with an odd number of cells across, the file holds one plane of cells too much of the inside: the mean composition
is not the nominal one unless both are equal. -/
theorem c144_violation_odd (o : Opts) (h1 : o.two = false) (hd : o.delta = 0) (c ci : ℝ) (hc : o.nomconc = some c) (hi : o.concIn = some ci)
    (ho : o.concOut = none) (hm : o.center = o.width / 2) (h r : ℕ) (hw : o.width = 2 * h + 1) (hr : o.radius = some (r : ℤ)) (hlt : r ≤ h)
    (ha : 0 < o.area) : ∃ f, (∀ m, o.conc m = some (some (f m))) ∧ total o f - c * o.vol = (ci - c) * (o.vol / o.vl) * o.area ∧
      (total o f = c * o.vol ↔ ci = c) := by
  have er : o.rad = r := by unfold Opts.rad; rw [hr]; simp
  have ehw : (o.width : ℝ) = 2 * h + 1 := by rw [hw]; push_cast; ring
  have hrh : (r : ℝ) ≤ h := by exact_mod_cast hlt
  have es := vs_one o h1 (by rw [er, ehw]; linarith)
  have ha' : (0:ℝ) < o.area := by exact_mod_cast ha
  have hl : 0 < o.vl := by
    unfold Opts.vl; rw [es, vol_eq, er, ehw]
    have := mul_nonneg ha'.le (sub_nonneg.2 hrh); linarith
  have hv : 0 < o.vol := by rw [vol_eq, ehw]; positivity
  obtain ⟨co, f, hco, hf, ht⟩ := c144_composition o hd c ci hc hi ho hl
  have hcard : (inside o).card = (h + r + 1) - (h - r) := card_inside o (h - r) (h + r + 1) (by omega) fun m hmw => by
    rw [inside_one o h1 m hmw hm, er, ehw]
    constructor
    · rintro ⟨a, b⟩
      constructor
      · by_contra hh
        have h2 : ((m + 1 + r : ℕ) : ℝ) ≤ (h : ℝ) := by exact_mod_cast (by omega : m + 1 + r ≤ h)
        push_cast at h2; linarith
      · by_contra hh
        have h2 : ((h + r + 1 : ℕ) : ℝ) ≤ (m : ℝ) := by exact_mod_cast (by omega : h + r + 1 ≤ m)
        push_cast at h2; linarith
    · rintro ⟨a, b⟩
      have h2 : (h : ℝ) ≤ ((m + r : ℕ) : ℝ) := by exact_mod_cast (by omega : h ≤ m + r)
      have h3 : (m : ℝ) ≤ ((h + r : ℕ) : ℝ) := by exact_mod_cast (by omega : m ≤ h + r)
      push_cast at h2 h3
      constructor <;> linarith
  have h4 : (h + r + 1) - (h - r) = 2 * r + 1 := by omega
  rw [hcard, h4, es, er] at ht
  have key := excess o c ci co (total o f) hco hl o.area (by rw [ht]; push_cast; ring)
  refine ⟨f, hf, key, ?_⟩
  rw [← sub_eq_zero, key]
  have : o.vol / o.vl * o.area ≠ 0 := by positivity
  rw [mul_assoc, mul_eq_zero, or_iff_left this, sub_eq_zero]

/-- **C144, violation**: without a radius, a quarter of the cells across, the same happens whenever that number is even and not a multiple of
four. -/
theorem c144_violation_default_radius (o : Opts) (h1 : o.two = false) (hd : o.delta = 0) (c ci : ℝ) (hc : o.nomconc = some c)
    (hi : o.concIn = some ci) (ho : o.concOut = none) (hm : o.center = o.width / 2) (q : ℕ) (hw : o.width = 4 * q + 2) (hr : o.radius = none)
    (ha : 0 < o.area) : ∃ f, (∀ m, o.conc m = some (some (f m))) ∧ (total o f = c * o.vol ↔ ci = c) := by
  have ehw : (o.width : ℝ) = 4 * q + 2 := by rw [hw]; push_cast; ring
  have er : o.rad = q + 1 / 2 := by unfold Opts.rad; rw [hr, h1]; simp only [Bool.false_eq_true, if_false]; rw [ehw]; ring
  have hq : (0:ℝ) ≤ q := by positivity
  have es := vs_one o h1 (by rw [er, ehw]; linarith)
  have ha' : (0:ℝ) < o.area := by exact_mod_cast ha
  have hl : 0 < o.vl := by
    unfold Opts.vl; rw [es, vol_eq, er, ehw]
    have := mul_nonneg ha'.le hq; linarith
  have hv : 0 < o.vol := by rw [vol_eq, ehw]; positivity
  obtain ⟨co, f, hco, hf, ht⟩ := c144_composition o hd c ci hc hi ho hl
  have hcard : (inside o).card = (3 * q + 2) - q := card_inside o q (3 * q + 2) (by omega) fun m hmw => by
    rw [inside_one o h1 m hmw hm, er, ehw]
    constructor
    · rintro ⟨a, b⟩
      constructor
      · by_contra hh
        have h2 : ((m + 1 : ℕ) : ℝ) ≤ (q : ℝ) := by exact_mod_cast (by omega : m + 1 ≤ q)
        push_cast at h2; linarith
      · by_contra hh
        have h2 : ((3 * q + 2 : ℕ) : ℝ) ≤ (m : ℝ) := by exact_mod_cast (by omega : 3 * q + 2 ≤ m)
        push_cast at h2; linarith
    · rintro ⟨a, b⟩
      have h2 : (q : ℝ) ≤ (m : ℝ) := by exact_mod_cast a
      have h3 : (m : ℝ) ≤ ((3 * q + 1 : ℕ) : ℝ) := by exact_mod_cast (by omega : m ≤ 3 * q + 1)
      push_cast at h3
      constructor <;> linarith
  have h4 : (3 * q + 2) - q = 2 * q + 2 := by omega
  rw [hcard, h4, es, er] at ht
  have key := excess o c ci co (total o f) hco hl o.area (by rw [ht]; push_cast; ring)
  refine ⟨f, hf, ?_⟩
  rw [← sub_eq_zero, key]
  have : o.vol / o.vl * o.area ≠ 0 := by positivity
  rw [mul_assoc, mul_eq_zero, or_iff_left this, sub_eq_zero]

/-- **C144**: two sharp layers across x or y, in a box of a multiple of four cells across: the mean composition is the nominal one when the
second has the size of the first; **violation**: with `--ratio` the second layer has another size, which the amounts of solid and liquid do
not know, and it is not. -/
theorem c144_two_nominal_partial (o : Opts) (h2 : o.two = true) (hax : o.dir = .x ∨ o.dir = .y) (hd : o.delta = 0) (c ci : ℝ)
    (hc : o.nomconc = some c) (hi : o.concIn = some ci) (ho : o.concOut = none) (hm : o.center = o.width / 2) (h r s : ℕ)
    (hw : o.width = 4 * h) (hr : o.radius = some (r : ℤ)) (hs : o.rad * o.ratio = s) (hrh : r < h) (hsh : s ≤ h) (ha : 0 < o.area) :
    ∃ f, (∀ m, o.conc m = some (some (f m))) ∧ total o f - c * o.vol = (ci - c) * (o.vol / o.vl) * (o.area * (2 * s - 2 * r)) ∧
      (total o f = c * o.vol ↔ ci = c ∨ s = r) := by
  have ehw : (o.width : ℝ) = 4 * h := by rw [hw]; push_cast; ring
  have er : o.rad = r := by unfold Opts.rad; rw [hr]; simp
  have hrh' : (r : ℝ) < h := by exact_mod_cast hrh
  have ha' : (0:ℝ) < o.area := by exact_mod_cast ha
  have hr0 : (0:ℝ) ≤ r := by positivity
  have es : o.vs = 4 * r * o.area := by
    unfold Opts.vs
    rw [h2]
    simp only [if_true]
    rw [er, min_eq_left]
    · ring
    · rw [vol_eq, ehw]; nlinarith
  have hl : 0 < o.vl := by
    unfold Opts.vl; rw [es, vol_eq, ehw]
    have := mul_pos ha' (sub_pos.2 hrh'); linarith
  have hv : 0 < o.vol := by
    have : 0 < (h : ℝ) := by linarith
    rw [vol_eq, ehw]; positivity
  obtain ⟨co, f, hco, hf, ht⟩ := c144_composition o hd c ci hc hi ho hl
  have e1 : o.centerOne = h := by
    unfold Opts.centerOne; rw [h2]; rcases hax with hx | hx <;> rw [hx] <;> simp only [if_true] <;> rw [hm, ehw] <;> ring
  have e2 : o.centerTwo = 3 * h := by
    unfold Opts.centerTwo; rcases hax with hx | hx <;> rw [hx] <;> simp only <;> rw [hm, ehw] <;> ring
  have e3 : o.radTwo = s := by unfold Opts.radTwo; rw [h2]; simpa using hs
  have hset : inside o = Ico (h - r) (h + r) ∪ Ico (3 * h - s) (3 * h + s) := by
    ext m
    simp only [inside, mem_filter, mem_range, mem_union, mem_Ico, h2, true_and, e1, e2, e3, er, dist, abs_le, abs_lt]
    constructor
    · rintro ⟨hmw, ⟨a, b⟩ | ⟨a, b⟩⟩
      · left
        constructor
        · by_contra hh
          have h2 : ((m + 1 + r : ℕ) : ℝ) ≤ (h : ℝ) := by exact_mod_cast (by omega : m + 1 + r ≤ h)
          push_cast at h2; linarith
        · by_contra hh
          have h2 : ((h + r : ℕ) : ℝ) ≤ (m : ℝ) := by exact_mod_cast (by omega : h + r ≤ m)
          push_cast at h2; linarith
      · right
        constructor
        · by_contra hh
          have h2 : ((m + 1 + s : ℕ) : ℝ) ≤ ((3 * h : ℕ) : ℝ) := by exact_mod_cast (by omega : m + 1 + s ≤ 3 * h)
          push_cast at h2; linarith
        · by_contra hh
          have h2 : ((3 * h + s : ℕ) : ℝ) ≤ (m : ℝ) := by exact_mod_cast (by omega : 3 * h + s ≤ m)
          push_cast at h2; linarith
    · rintro (⟨a, b⟩ | ⟨a, b⟩)
      · have h2 : (h : ℝ) ≤ ((m + r : ℕ) : ℝ) := by exact_mod_cast (by omega : h ≤ m + r)
        have h3 : ((m + 1 : ℕ) : ℝ) ≤ ((h + r : ℕ) : ℝ) := by exact_mod_cast (by omega : m + 1 ≤ h + r)
        push_cast at h2 h3
        exact ⟨by omega, Or.inl ⟨by linarith, by linarith⟩⟩
      · have h2 : ((3 * h : ℕ) : ℝ) ≤ ((m + s : ℕ) : ℝ) := by exact_mod_cast (by omega : 3 * h ≤ m + s)
        have h3 : ((m + 1 : ℕ) : ℝ) ≤ ((3 * h + s : ℕ) : ℝ) := by exact_mod_cast (by omega : m + 1 ≤ 3 * h + s)
        push_cast at h2 h3
        exact ⟨by omega, Or.inr ⟨by linarith, by linarith⟩⟩
  have hdis : Disjoint (Ico (h - r) (h + r)) (Ico (3 * h - s) (3 * h + s)) := by
    rw [disjoint_left]; intro m h1 h2; rw [mem_Ico] at h1 h2; omega
  have hcard : (inside o).card = 2 * r + 2 * s := by
    rw [hset, card_union_of_disjoint hdis, Nat.card_Ico, Nat.card_Ico]; omega
  rw [hcard, es] at ht
  have key := excess o c ci co (total o f) hco hl (o.area * (2 * s - 2 * r)) (by rw [ht]; push_cast; ring)
  refine ⟨f, hf, key, ?_⟩
  rw [← sub_eq_zero, key]
  have hne : o.vol / o.vl ≠ 0 := by positivity
  rw [mul_assoc, mul_eq_zero, sub_eq_zero, mul_eq_zero, or_iff_right hne, mul_eq_zero, or_iff_right ha'.ne']
  refine or_congr Iff.rfl ?_
  constructor
  · intro h; have : (s : ℝ) = r := by linarith
    exact_mod_cast this
  · rintro rfl; ring

/-- **C144, violation**: a nominal composition alone, without a composition inside, is lost: the file holds zero everywhere. -/
theorem c144_violation_nominal_alone (o : Opts) (c : ℝ) (hc : o.nomconc = some c) (hi : o.concIn = none) (ho : o.concOut = none) (m : ℕ) :
    o.conc m = some (some 0) := by
  simp [Opts.conc, Opts.compositions, hc, hi, ho, Opts.mix]

/-- **C144, violation**: a nominal composition together with a composition outside stops the script; a composition outside alone is ignored. -/
theorem c144_violation_outside (o : Opts) (co : ℝ) (ho : o.concOut = some co) :
    (o.nomconc.isSome → 0 < o.vs → ∀ m, o.conc m = none) ∧ (o.nomconc = none → o.concIn = none → ∀ m, o.conc m = some none) := by
  constructor
  · intro hc hv m
    obtain ⟨c, hc⟩ := Option.isSome_iff_exists.1 hc
    simp [Opts.conc, Opts.compositions, hc, ho, hv]
  · intro hc hi m
    simp [Opts.conc, Opts.compositions, hc, hi]

/-! ## Orientation -/

/-- **C144, violation**: with one layer the orientation asked for outside, by `--quat-out` or by an angle, is not used: all cells have the
orientation of the inside. -/
theorem c144_violation_orientation_outside (o : Opts) (h1 : o.two = false) {n : ℕ} (q : Orient n) (m : ℕ) : o.quat q m = q.inside := by
  unfold Opts.quat; rw [h1]; rfl

/-- The scalar product of two orientations. -/
def dot {n : ℕ} (p q : Fin n → ℝ) : ℝ := ∑ a, p a * q a

/-- **C144**: two layers and an angle: the layers are given unit orientations turned by that angle with respect to each other (`cos` of half
the angle for quaternions, of the angle for two components). -/
theorem c144_angle (angle : ℝ) :
    dot (simple4 true angle).inside (simple4 true angle).inside = 1 ∧ dot (simple4 true angle).insideTwo (simple4 true angle).insideTwo = 1 ∧
    dot (simple4 true angle).inside (simple4 true angle).insideTwo = Real.cos (angle / 2) ∧
    dot (simple2 true angle).inside (simple2 true angle).inside = 1 ∧ dot (simple2 true angle).insideTwo (simple2 true angle).insideTwo = 1 ∧
    dot (simple2 true angle).inside (simple2 true angle).insideTwo = Real.cos angle := by
  have key : ∀ x : ℝ, Real.cos x * Real.cos x + Real.sqrt (1 - Real.cos x * Real.cos x) * Real.sqrt (1 - Real.cos x * Real.cos x) = 1 := fun x => by
    rw [Real.mul_self_sqrt]
    · ring
    · have := Real.sin_sq_add_cos_sq x; nlinarith [sq_nonneg (Real.sin x)]
  refine ⟨?_, ?_, ?_, ?_, ?_, ?_⟩ <;> simp [dot, simple4, simple2, Fin.sum_univ_succ]
  · exact key _
  · exact key _

/-- **C144**: the orientation between two layers is a unit quaternion turned by half the angle. -/
theorem c144_angle_between (angle : ℝ) :
    dot (simple4 true angle).outside (simple4 true angle).outside = 1 ∧ dot (simple4 true angle).inside (simple4 true angle).outside = Real.cos (angle / 4) := by
  have h : 0 ≤ 1 - Real.cos (angle / 4) * Real.cos (angle / 4) := by
    have := Real.sin_sq_add_cos_sq (angle / 4)
    nlinarith [sq_nonneg (Real.sin (angle / 4))]
  constructor
  · simp [dot, simple4, Fin.sum_univ_succ]
    rw [Real.mul_self_sqrt h]
    ring
  · simp [dot, simple4, Fin.sum_univ_succ]

/-- **C144**: two layers, sharp interfaces: each cell has the orientation of the layer whose centre is nearer. -/
theorem c144_orientation_sharp (o : Opts) (h2 : o.two = true) (hd : o.delta ≤ 0) {n : ℕ} (q : Orient n) (m : ℕ) :
    (dist m o.centerTwo < dist m o.centerOne → o.quat q m = q.insideTwo) ∧ (dist m o.centerOne ≤ dist m o.centerTwo → o.quat q m = q.inside) := by
  unfold Opts.quat dist
  rw [h2]
  simp only [if_true, Real.sqrt_sq_eq_abs]
  rw [if_neg (by intro h; omega)]
  exact ⟨fun h => if_pos h, fun h => if_neg (not_lt.mpr h)⟩

/-- The weight of the second orientation between the layers is strictly between zero and one. -/
theorem weight_range {d1 d2 : ℝ} (h1 : 0 < d1) (h2 : 0 < d2) : let f := d1 / (d1 + d2)
    0 < f * f * f * (10 - 15 * f + 6 * f * f) ∧ f * f * f * (10 - 15 * f + 6 * f * f) < 1 := by
  intro f
  have f0 : 0 < f := by positivity
  have f1 : f < 1 := by simp only [f]; rw [div_lt_one (by positivity)]; linarith
  generalize f = f at *
  constructor
  · have : 0 < 10 - 15 * f + 6 * f * f := by nlinarith [sq_nonneg (4 * f - 5)]
    positivity
  · have e : 1 - f * f * f * (10 - 15 * f + 6 * f * f) = (1 - f) * (1 - f) * (1 - f) * (1 + 3 * f + 6 * f * f) := by ring
    have : 0 < 1 - f := by linarith
    have : 0 < (1 - f) * (1 - f) * (1 - f) * (1 + 3 * f + 6 * f * f) := by positivity
    linarith

/-- **C144, violation**: with diffuse interfaces the orientations outside both layers are not of length one, wherever the layers are turned
with respect to each other. -/
theorem c144_violation_length (o : Opts) (h2 : o.two = true) (hd : 0 < o.delta) {n : ℕ} (q : Orient n) (hu : dot q.inside q.inside = 1)
    (hu2 : dot q.insideTwo q.insideTwo = 1) (hne : q.inside ≠ q.insideTwo) (m : ℕ) (h1 : 0 < o.d1 m) (h3 : 0 < o.d2 m) :
    dot (o.quat q m) (o.quat q m) < 1 := by
  have hq : o.quat q m = fun a => (let f := o.d1 m / (o.d1 m + o.d2 m); f * f * f * (10 - 15 * f + 6 * f * f)) * q.insideTwo a
      + (1 - (let f := o.d1 m / (o.d1 m + o.d2 m); f * f * f * (10 - 15 * f + 6 * f * f))) * q.inside a := by
    unfold Opts.quat; rw [h2]; simp only [if_true]; rw [if_pos ⟨h3, h1, hd⟩]
  obtain ⟨w0, w1⟩ := weight_range h1 h3
  rw [hq]
  generalize (let f := o.d1 m / (o.d1 m + o.d2 m); f * f * f * (10 - 15 * f + 6 * f * f)) = p at *
  have hlt : dot q.inside q.insideTwo < 1 := by
    obtain ⟨a, ha⟩ := Function.ne_iff.1 hne
    have e : ∑ b, (q.inside b - q.insideTwo b) ^ 2 = dot q.inside q.inside - 2 * dot q.inside q.insideTwo + dot q.insideTwo q.insideTwo := by
      unfold dot
      rw [mul_sum, ← sum_sub_distrib, ← sum_add_distrib]
      exact sum_congr rfl fun b _ => by ring
    have hpos : 0 < ∑ b, (q.inside b - q.insideTwo b) ^ 2 :=
      sum_pos' (fun b _ => sq_nonneg _) ⟨a, mem_univ a, by have := sub_ne_zero.2 ha; positivity⟩
    rw [e, hu, hu2] at hpos
    linarith
  have e : dot (fun a => p * q.insideTwo a + (1 - p) * q.inside a) (fun a => p * q.insideTwo a + (1 - p) * q.inside a)
      = p * p * dot q.insideTwo q.insideTwo + 2 * (p * (1 - p)) * dot q.inside q.insideTwo + (1 - p) * (1 - p) * dot q.inside q.inside := by
    unfold dot
    rw [mul_sum, mul_sum, mul_sum, ← sum_add_distrib, ← sum_add_distrib]
    exact sum_congr rfl fun b _ => by ring
  rw [e, hu, hu2]
  have : 0 < p * (1 - p) := mul_pos w0 (by linarith)
  nlinarith

/-! ## Temperature -/

/-- **C144**: a gradient leaves the mean temperature at the value given. -/
theorem c144_gradient (nx : ℕ) (t0 g : ℝ) (dist : ℕ → ℝ) : ∑ i ∈ range nx, temperature nx t0 (some g) none i (dist i) = nx * t0 := by
  have e : ∀ i : ℕ, temperature nx t0 (some g) none i (dist i) = t0 + g * ((i : ℝ) - 0.5 * nx + 0.5) := fun i => rfl
  simp only [e, sum_add_distrib, sum_const, card_range, nsmul_eq_mul, ← mul_sum, sum_sub_distrib]
  have s : ∑ i ∈ range nx, (i : ℝ) = nx * (nx - 1) / 2 := by
    induction nx with
    | zero => simp
    | succ k ih => rw [sum_range_succ, ih (fun i => rfl)]; push_cast; ring
  rw [s]; ring

/-- **C144, violation**: the bump of `--gaussT` decays with the distance and not with its square: at a distance of `nx²/32` cells, which is
more than the box for `nx > 32`, it still is more than half as high. -/
theorem c144_violation_gauss (nx : ℕ) (hnx : 0 < nx) (t0 g : ℝ) (hg : 0 < g) (i : ℕ) (d : ℝ) (hd : d ≤ (nx : ℝ) * nx / 32) :
    g / 2 < temperature nx t0 none (some g) i d - t0 := by
  have e : temperature nx t0 none (some g) i d = t0 + g * Real.exp (-d / (0.0625 * nx * nx)) := rfl
  rw [e]
  have hn : (0:ℝ) < nx := by exact_mod_cast hnx
  have h1 : -(1 / 2) ≤ -d / (0.0625 * nx * nx) := by
    rw [le_div_iff₀ (by positivity)]; linarith
  have h2 : 1 / 2 < Real.exp (-d / (0.0625 * nx * nx)) := by
    have h3 := Real.add_one_lt_exp (show (-(1/2) : ℝ) ≠ 0 by norm_num)
    have h4 := Real.exp_le_exp.2 h1
    linarith
  nlinarith

/-! ## Examples -/

/-- The layer of examples/bilayer_AuNi without its diffuse interface: 256 cells across, half width 24. -/
example : ∃ f, (∀ m, (⟨false, 1, 256, 8, 1, some 24, 0, 1, 0, .x, none, none, none, some 0.25, some 0.1, none⟩ : Opts).conc m = some (some (f m))) ∧
    total ⟨false, 1, 256, 8, 1, some 24, 0, 1, 0, .x, none, none, none, some 0.25, some 0.1, none⟩ f = 0.25 *
      (⟨false, 1, 256, 8, 1, some 24, 0, 1, 0, .x, none, none, none, some 0.25, some 0.1, none⟩ : Opts).vol :=
  c144_nominal_partial _ rfl rfl 0.25 0.1 rfl rfl rfl (by simp [Opts.center, Opts.width]) 128 24 rfl rfl (by norm_num) (by decide)

/-- Two layers of half widths 8 and 16 in 256 cells: the mean composition is wrong. -/
example : ∃ f, (∀ m, (⟨true, 2, 256, 8, 1, some 8, 0, 1, 0, .x, none, none, none, some 0.25, some 0.1, none⟩ : Opts).conc m = some (some (f m))) ∧
    total ⟨true, 2, 256, 8, 1, some 8, 0, 1, 0, .x, none, none, none, some 0.25, some 0.1, none⟩ f ≠ 0.25 *
      (⟨true, 2, 256, 8, 1, some 8, 0, 1, 0, .x, none, none, none, some 0.25, some 0.1, none⟩ : Opts).vol := by
  obtain ⟨f, hf, _, h⟩ := c144_two_nominal_partial ⟨true, 2, 256, 8, 1, some 8, 0, 1, 0, .x, none, none, none, some 0.25, some 0.1, none⟩ rfl
    (Or.inl rfl) rfl 0.25 0.1 rfl rfl rfl (by simp [Opts.center, Opts.width]) 64 8 16 rfl rfl (by simp [Opts.rad]; norm_num) (by norm_num)
    (by norm_num) (by decide)
  exact ⟨f, hf, fun e => by rcases h.1 e with h | h <;> norm_num at h⟩

/-- The hypotheses of `c144_violation_cut` (interface of 2 cells, layers of half width 8 in 256 cells) are met in the cells 201 and 202. -/
example : let o : Opts := ⟨true, 1, 256, 1, 1, some 8, 2, 1, 0, .x, none, none, none, none, none, none⟩
    o.d2 201 < o.delta ∧ (o.delta : ℝ) ≤ o.d2 202 ∧ 4 * (o.delta : ℝ) ≤ o.d1 202 := by
  intro o
  rw [d2_eq, d2_eq, d1_eq]
  have e1 : o.centerOne = 64 := by simp [o, Opts.centerOne, Opts.center]; norm_num
  have e2 : o.centerTwo = 192 := by simp [o, Opts.centerTwo, Opts.center]; norm_num
  have e3 : o.rad = 8 := by simp [o, Opts.rad]
  have e4 : o.radTwo = 8 := by simp [o, Opts.radTwo, Opts.rad]
  rw [e1, e2, e3, e4]
  have e5 : (o.delta : ℝ) = 2 := by simp [o]
  rw [e5]
  simp only [dist]
  refine ⟨?_, ?_, ?_⟩
  · rw [abs_of_pos (by norm_num)]; norm_num
  · rw [abs_of_pos (by norm_num)]; norm_num
  · rw [abs_of_pos (by norm_num)]; norm_num

end AMPE.Bilayer.Props
