import Verif.Model.BoundaryGrains
import Mathlib.Algebra.BigOperators.Fin
import Mathlib.Algebra.BigOperators.Intervals
import Mathlib.Algebra.Order.BigOperators.Group.Finset
import Mathlib.Analysis.SpecialFunctions.Artanh
import Mathlib.Tactic.Linarith
import Mathlib.Tactic.FieldSimp
import Mathlib.Tactic.Ring
import Mathlib.Tactic.LinearCombination

/-!
# C148: the solid along a side is the fraction asked for, has the composition asked for and the grains asked for
-/

namespace AMPE.BoundaryGrains.Props

open AMPE.BoundaryGrains Finset

/-! ## What is meant -/

/-- Sum of a field over the cells of a plane (`n0` along the front, `n1` across it). -/
noncomputable def total (n0 n1 : ℕ) (f : ℕ → ℕ → ℝ) : ℝ := ∑ a ∈ range n0, ∑ b ∈ range n1, f a b

/-- The field of a front without noise and without a width. -/
noncomputable def sharp (n0 n1 ngrains : ℕ) (sf : ℝ) (a b : ℕ) : ℝ := phase n0 n1 ngrains sf 0 0 0 0 a b

/-- The middle of cell `i` lies inside slab `g` of `ngrains` equal slabs of an axis of `n` cells. -/
def InSlab (n ngrains i g : ℕ) : Prop := (g : ℝ) * n < (i + 1 / 2) * ngrains ∧ ((i : ℝ) + 1 / 2) * ngrains < (g + 1) * n

/-- Average over a cell (weight 1/4) and its six neighbours (weights 1/8). -/
noncomputable def average (q : ℕ → ℕ → ℕ → ℝ) (im i ip jm j jp km k kp : ℕ) : ℝ :=
  q i j k / 4 + (q im j k + q ip j k + q i jm k + q i jp k + q i j km + q i j kp) / 8

/-! ## Helpers -/

theorem foldl_mul (f : ℕ → ℝ) (l : List ℕ) (p : ℝ) : l.foldl (fun p g => p * f g) p = p * (l.map f).prod := by
  induction l generalizing p with
  | nil => simp
  | cons a l ih => simp only [List.foldl_cons, List.map_cons, List.prod_cons, ih]; ring

theorem front_range (w d : ℝ) : 0 ≤ front w d ∧ front w d ≤ 1 := by
  unfold front
  have h1 := Real.neg_one_lt_tanh (-3 * d / w)
  have h2 := Real.tanh_lt_one (-3 * d / w)
  split_ifs <;> constructor <;> norm_num at * <;> linarith

theorem cut_range (n0 ngrains : ℕ) (x : ℝ) (g : ℕ) : 0 ≤ cut n0 ngrains x g ∧ cut n0 ngrains x g ≤ 1 := by
  unfold cut
  dsimp only
  generalize 0.5 * Real.pi * |x - g * (1 / ngrains)| * n0 / 5 = t
  have h1 := Real.neg_one_le_sin t
  have h2 := Real.sin_le_one t
  split_ifs
  · exact ⟨mul_self_nonneg _, by nlinarith⟩
  · exact ⟨by norm_num, le_refl _⟩

theorem prod_range (f : ℕ → ℝ) (hf : ∀ g, 0 ≤ f g ∧ f g ≤ 1) (l : List ℕ) : 0 ≤ (l.map f).prod ∧ (l.map f).prod ≤ 1 := by
  induction l with
  | nil => simp
  | cons a l ih =>
    simp only [List.map_cons, List.prod_cons]
    have := hf a
    exact ⟨mul_nonneg this.1 ih.1, mul_le_one₀ this.2 ih.1 ih.2⟩

theorem phase_eq (n0 n1 ngrains : ℕ) (sf width noise fluctuation draw : ℝ) (a b : ℕ) :
    phase n0 n1 ngrains sf width noise fluctuation draw a b =
      front (width / n1) (depth (pos n1 b) sf (delta noise fluctuation draw (pos n0 a)))
        * ((List.range' 1 (ngrains - 1)).map (cut n0 ngrains (pos n0 a))).prod := by
  unfold phase; exact foldl_mul _ _ _

theorem front_sharp {n1 : ℕ} (h1 : 0 < n1) (sf draw x : ℝ) (b : ℕ) :
    front (0 / n1) (depth (pos n1 b) sf (delta 0 0 draw x)) = if (b : ℝ) + 1 / 2 < sf * n1 then 1 else 0 := by
  have hn : (0:ℝ) < n1 := by exact_mod_cast h1
  unfold front depth delta pos
  rw [zero_div, if_neg (lt_irrefl _), if_neg (lt_irrefl _), if_neg (lt_irrefl _)]
  have : (((b:ℝ) + 0.5) / (1 * n1) - sf + 0 < 0) ↔ (b : ℝ) + 1 / 2 < sf * n1 := by
    rw [add_zero, sub_neg, one_mul, div_lt_iff₀ hn]; norm_num
  simp only [this]

theorem sharp_eq {n0 n1 : ℕ} (h1 : 0 < n1) (ngrains : ℕ) (sf : ℝ) (a b : ℕ) :
    sharp n0 n1 ngrains sf a b = (if (b : ℝ) + 1 / 2 < sf * n1 then 1 else 0)
      * ((List.range' 1 (ngrains - 1)).map (cut n0 ngrains (pos n0 a))).prod := by
  unfold sharp; rw [phase_eq, front_sharp h1]

theorem count {n1 m : ℕ} (hm : m ≤ n1) : ∑ b ∈ range n1, (if (b : ℝ) + 1 / 2 < m then (1:ℝ) else 0) = m := by
  have h : ∀ b ∈ range n1, (if (b : ℝ) + 1 / 2 < m then (1:ℝ) else 0) = if b < m then 1 else 0 := by
    intro b _
    by_cases hb : b < m
    · have : ((b:ℝ) + 1) ≤ m := by exact_mod_cast hb
      rw [if_pos hb, if_pos (by linarith)]
    · have : (m:ℝ) ≤ b := by exact_mod_cast (not_lt.mp hb)
      rw [if_neg hb, if_neg (by linarith)]
  rw [sum_congr rfl h, ← sum_filter, sum_const, nsmul_eq_mul, mul_one]
  congr 1
  have : (range n1).filter (fun b => b < m) = range m := by ext b; simp only [mem_filter, mem_range]; omega
  rw [this, card_range]

theorem total_sharp {n0 n1 m : ℕ} (h1 : 0 < n1) (hm : m ≤ n1) {sf : ℝ} (hs : sf * n1 = m) (ngrains : ℕ) :
    total n0 n1 (sharp n0 n1 ngrains sf)
      = m * ∑ a ∈ range n0, ((List.range' 1 (ngrains - 1)).map (cut n0 ngrains (pos n0 a))).prod := by
  unfold total
  rw [mul_sum]
  refine sum_congr rfl fun a _ => ?_
  simp only [sharp_eq h1, hs]
  rw [← sum_mul, count hm]

theorem cut_lt_one {n0 ngrains : ℕ} (h0 : 0 < n0) (hg : 2 ≤ ngrains) : cut n0 ngrains (pos n0 (n0 / ngrains)) 1 < 1 := by
  have hn : (0:ℝ) < n0 := by exact_mod_cast h0
  have hgr : (0:ℝ) < ngrains := by exact_mod_cast (by omega : 0 < ngrains)
  set a := n0 / ngrains with ha
  have l1 : ((a * ngrains : ℕ) : ℝ) ≤ n0 := by exact_mod_cast Nat.div_mul_le_self n0 ngrains
  have l2 : (n0 : ℝ) < ((a + 1) * ngrains : ℕ) := by
    have := Nat.lt_mul_div_succ n0 (by omega : 0 < ngrains)
    exact_mod_cast (by rw [mul_comm]; exact this)
  push_cast at l1 l2
  have key : (n0:ℝ) * |pos n0 a - ((1:ℕ):ℝ) * (1 / ngrains)| ≤ 1 / 2 := by
    have : (n0:ℝ) * |pos n0 a - ((1:ℕ):ℝ) * (1 / ngrains)| = |(a:ℝ) + 1 / 2 - n0 / ngrains| := by
      rw [← abs_of_pos hn, ← abs_mul, abs_of_pos hn]
      unfold pos
      congr 1
      push_cast
      field_simp
      ring
    rw [this, abs_le]
    have e1 : (a:ℝ) ≤ n0 / ngrains := by rw [le_div_iff₀ hgr]; exact l1
    have e2 : (n0:ℝ) / ngrains ≤ a + 1 := by rw [div_le_iff₀ hgr]; exact l2.le
    constructor <;> linarith
  unfold cut
  dsimp only
  rw [if_pos (by linarith)]
  have hnn : 0 ≤ (n0:ℝ) * |pos n0 a - ((1:ℕ):ℝ) * (1 / ngrains)| := by positivity
  generalize |pos n0 a - ((1:ℕ):ℝ) * (1 / ngrains)| = d at *
  have hpi := Real.pi_pos
  have harg : 0.5 * Real.pi * d * n0 / 5 = Real.pi * (n0 * d) / 10 := by ring
  rw [harg]
  have hc : 0 < Real.cos (Real.pi * (n0 * d) / 10) := by
    apply Real.cos_pos_of_mem_Ioo
    constructor
    · have : 0 ≤ Real.pi * (n0 * d) / 10 := by positivity
      linarith
    · nlinarith
  have := Real.sin_sq_add_cos_sq (Real.pi * (n0 * d) / 10)
  nlinarith

/-! ## Phase -/

/-- Every value of the phase lies between 0 and 1, whatever the options and the noise. -/
theorem c148_phase_range (n0 n1 ngrains : ℕ) (sf width noise fluctuation draw : ℝ) (a b : ℕ) :
    0 ≤ phase n0 n1 ngrains sf width noise fluctuation draw a b ∧ phase n0 n1 ngrains sf width noise fluctuation draw a b ≤ 1 := by
  rw [phase_eq]
  have h1 := front_range (width / n1) (depth (pos n1 b) sf (delta noise fluctuation draw (pos n0 a)))
  have h2 := prod_range _ (cut_range n0 ngrains (pos n0 a)) (List.range' 1 (ngrains - 1))
  exact ⟨mul_nonneg h1.1 h2.1, mul_le_one₀ h1.2 h2.1 h2.2⟩

/-- One grain and a sharp front: the solid consists of the cells whose middle lies below the fraction asked for. -/
theorem c148_front {n0 n1 : ℕ} (h1 : 0 < n1) (sf : ℝ) (a b : ℕ) :
    sharp n0 n1 1 sf a b = if (b : ℝ) + 1 / 2 < sf * n1 then 1 else 0 := by
  rw [sharp_eq h1]; simp

/-- One grain and a sharp front between two planes of cells: the solid fills exactly the fraction asked for. -/
theorem c148_fraction_partial {n0 n1 m : ℕ} (h1 : 0 < n1) (hm : m ≤ n1) {sf : ℝ} (hs : sf * n1 = m) :
    total n0 n1 (sharp n0 n1 1 sf) = sf * (n0 * n1) := by
  rw [total_sharp h1 hm hs]
  simp only [Nat.sub_self, List.range'_zero, List.map_nil, List.prod_nil, sum_const, card_range, nsmul_eq_mul, mul_one]
  rw [← hs]; ring

/-- Violation: with two grains or more the solid always fills less than the fraction asked for, because the phase is lowered at the
boundaries between the grains. -/
theorem c148_violation_fraction {n0 n1 m ngrains : ℕ} (h0 : 0 < n0) (h1 : 0 < n1) (hm0 : 0 < m) (hm : m ≤ n1) {sf : ℝ} (hs : sf * n1 = m)
    (hg : 2 ≤ ngrains) : total n0 n1 (sharp n0 n1 ngrains sf) < sf * (n0 * n1) := by
  rw [total_sharp h1 hm hs]
  have e : sf * (n0 * n1 : ℝ) = m * ∑ a ∈ range n0, (1:ℝ) := by simp; rw [← hs]; ring
  rw [e]
  have hmr : (0:ℝ) < m := by exact_mod_cast hm0
  refine mul_lt_mul_of_pos_left ?_ hmr
  refine sum_lt_sum (fun a _ => (prod_range _ (cut_range n0 ngrains (pos n0 a)) _).2) ⟨n0 / ngrains, ?_, ?_⟩
  · rw [mem_range]; exact Nat.div_lt_self h0 hg
  · obtain ⟨k, rfl⟩ : ∃ k, ngrains = k + 2 := ⟨ngrains - 2, by omega⟩
    have : k + 2 - 1 = k + 1 := by omega
    rw [this, List.range'_succ, List.map_cons, List.prod_cons]
    have h := cut_lt_one h0 hg
    have hp := prod_range _ (cut_range n0 (k + 2) (pos n0 (n0 / (k + 2)))) (List.range' (1 + 1) k)
    have hc := cut_range n0 (k + 2) (pos n0 (n0 / (k + 2))) 1
    nlinarith [mul_le_mul_of_nonneg_left hp.2 hc.1]

/-! ## Composition -/

/-- With a nominal composition `c`, the total solute differs from `c` times the number of cells by the error of the solid fraction times
`(ci - c)/(1 - sf)`. -/
theorem c148_mean (n0 n1 : ℕ) (f : ℕ → ℕ → ℝ) {c ci co sf : ℝ} {given : Option ℝ} (hco : outside (some c) given ci sf = some co) :
    total n0 n1 (fun a b => composition ci co (f a b)) - c * (n0 * n1)
      = (total n0 n1 f - sf * (n0 * n1)) * ((ci - c) / (1 - sf)) := by
  simp only [outside] at hco
  split_ifs at hco with h
  obtain rfl := Option.some.inj hco
  unfold total composition
  have e : ∀ a ∈ range n0, ∑ b ∈ range n1, (ci * f a b + (c - ci * sf) / (1 - sf) * (1 - f a b))
      = (ci - (c - ci * sf) / (1 - sf)) * (∑ b ∈ range n1, f a b) + (c - ci * sf) / (1 - sf) * n1 := by
    intro a _
    rw [mul_sum]
    have : ((c - ci * sf) / (1 - sf)) * (n1:ℝ) = ∑ b ∈ range n1, (c - ci * sf) / (1 - sf) := by simp [mul_comm]
    rw [this, ← sum_add_distrib]
    exact sum_congr rfl fun b _ => by ring
  rw [sum_congr rfl e, sum_add_distrib, ← mul_sum]
  generalize ∑ a ∈ range n0, ∑ b ∈ range n1, f a b = S
  simp only [sum_const, card_range, nsmul_eq_mul]
  field_simp
  ring

/-- One grain, sharp front between two planes of cells: the mean composition is the nominal one. -/
theorem c148_mean_partial {n0 n1 m : ℕ} (h1 : 0 < n1) (hm : m ≤ n1) {c ci co sf : ℝ} (hs : sf * n1 = m) {given : Option ℝ}
    (hco : outside (some c) given ci sf = some co) :
    total n0 n1 (fun a b => composition ci co (sharp n0 n1 1 sf a b)) = c * (n0 * n1) := by
  have h := c148_mean n0 n1 (sharp n0 n1 1 sf) hco
  rw [c148_fraction_partial h1 hm hs, sub_self, zero_mul, sub_eq_zero] at h
  exact h

/-- Violation: with two grains or more the mean composition is never the nominal one, unless the solid has the nominal composition. -/
theorem c148_violation_mean {n0 n1 m ngrains : ℕ} (h0 : 0 < n0) (h1 : 0 < n1) (hm0 : 0 < m) (hm : m ≤ n1) (hg : 2 ≤ ngrains)
    {c ci co sf : ℝ} (hs : sf * n1 = m) {given : Option ℝ} (hco : outside (some c) given ci sf = some co) :
    total n0 n1 (fun a b => composition ci co (sharp n0 n1 ngrains sf a b)) = c * (n0 * n1) ↔ ci = c := by
  have h := c148_mean n0 n1 (sharp n0 n1 ngrains sf) hco
  have hlt := c148_violation_fraction h0 h1 hm0 hm hs hg
  have hsf : 1 - sf ≠ 0 := by
    simp only [outside] at hco
    split_ifs at hco with h'
    exact h'
  rw [← sub_eq_zero, h, mul_eq_zero, div_eq_zero_iff, sub_eq_zero, sub_eq_zero]
  constructor
  · rintro (h | h | h)
    · exact absurd h hlt.ne
    · exact h
    · exact absurd h hsf
  · exact fun h => Or.inr (Or.inl h)

/-- Violation: with a nominal composition the composition asked for in the liquid has no effect. -/
theorem c148_violation_liquid (c ci sf : ℝ) (g g' : Option ℝ) : outside (some c) g ci sf = outside (some c) g' ci sf := rfl

/-- Without a nominal composition solid and liquid have the compositions asked for. -/
theorem c148_liquid (ci co sf y : ℝ) (h : y = 0 ∨ y = 1) :
    (outside none (some co) ci sf).map (fun o => composition (inside none (some ci)) o y) = some (if y = 1 then ci else co) := by
  rcases h with rfl | rfl <;> simp [outside, inside, composition]

/-! ## Grains -/

theorem foldl_pick (P : ℕ → Prop) [DecidablePred P] (n : ℕ) (g : ℕ) (hg : g < n) (hP : P g) (ho : ∀ g' < n, P g' → g' = g) :
    (List.range n).foldl (fun gm g' => if P g' then g' else gm) 0 = g := by
  induction n with
  | zero => omega
  | succ n ih =>
    rw [List.range_succ, List.foldl_append, List.foldl_cons, List.foldl_nil]
    by_cases hn : P n
    · rw [if_pos hn]; exact ho n (by omega) hn
    · rw [if_neg hn]
      have : g ≠ n := fun h => hn (h ▸ hP)
      exact ih (by omega) fun g' h' => ho g' (by omega)

theorem foldl_none (P : ℕ → Prop) [DecidablePred P] (n : ℕ) (ho : ∀ g' < n, ¬ P g') :
    (List.range n).foldl (fun gm g' => if P g' then g' else gm) 0 = 0 := by
  induction n with
  | zero => rfl
  | succ n ih =>
    rw [List.range_succ, List.foldl_append, List.foldl_cons, List.foldl_nil, if_neg (ho n (by omega))]
    exact ih fun g' h' => ho g' (by omega)

/-- The test of the script, without divisions. -/
theorem test_iff {nx n0 ngrains : ℕ} (hg : 0 < ngrains) (i g : ℕ) :
    (|((i : ℝ) + 0.5) - g * (1 / ngrains) * n0 - 0.5 * (1 / ngrains) * nx| < 0.5 * (1 / ngrains) * n0) ↔
      (g : ℝ) * n0 < ((i : ℝ) + 1 / 2) * ngrains + ((n0 : ℝ) - nx) / 2
        ∧ ((i : ℝ) + 1 / 2) * ngrains + ((n0 : ℝ) - nx) / 2 < (g + 1) * n0 := by
  have hgr : (0:ℝ) < ngrains := by exact_mod_cast hg
  have e1 : ((i : ℝ) + 0.5) - g * (1 / ngrains) * n0 - 0.5 * (1 / ngrains) * nx
      = (((i : ℝ) + 1 / 2) * ngrains - g * n0 - nx / 2) / ngrains := by field_simp; ring
  have e2 : (0.5 : ℝ) * (1 / ngrains) * n0 = (n0 / 2) / ngrains := by ring
  rw [e1, e2, abs_div, abs_of_pos hgr, div_lt_div_iff_of_pos_right hgr, abs_lt]
  constructor <;> rintro ⟨a, b⟩ <;> constructor <;> linarith

theorem slab_unique {n0 : ℕ} {z : ℝ} {g g' : ℕ} (h : (g : ℝ) * n0 < z ∧ z < (g + 1) * n0) (h' : (g' : ℝ) * n0 < z ∧ z < (g' + 1) * n0) :
    g' = g := by
  by_contra hne
  have hn : (0:ℝ) ≤ n0 := Nat.cast_nonneg _
  rcases lt_or_gt_of_ne hne with hlt | hlt
  · have : ((g':ℝ) + 1) ≤ g := by exact_mod_cast hlt
    nlinarith [mul_le_mul_of_nonneg_right this hn]
  · have : ((g:ℝ) + 1) ≤ g' := by exact_mod_cast hlt
    nlinarith [mul_le_mul_of_nonneg_right this hn]

/-- The grain of a plane of cells in terms of the slab that contains it, shifted by half the difference of the two axes. -/
theorem c148_grain {nx n0 ngrains : ℕ} (hg : 0 < ngrains) {i g : ℕ} (hgl : g < ngrains)
    (h : (g : ℝ) * n0 < ((i : ℝ) + 1 / 2) * ngrains + ((n0 : ℝ) - nx) / 2
      ∧ ((i : ℝ) + 1 / 2) * ngrains + ((n0 : ℝ) - nx) / 2 < (g + 1) * n0) : grain nx n0 ngrains i = g := by
  unfold grain
  refine foldl_pick (fun g : ℕ => |((i : ℝ) + 0.5) - g * (1 / ngrains) * n0 - 0.5 * (1 / ngrains) * nx| < 0.5 * (1 / ngrains) * n0)
    ngrains g hgl ((test_iff hg i g).mpr h) fun g' _ h' => ?_
  exact slab_unique h ((test_iff hg i g').mp h')

/-- Planes 1 and 2 (grains along x): a plane of cells that lies inside slab `g` belongs to grain `g`. -/
theorem c148_grain_partial {n0 ngrains i g : ℕ} (hgl : g < ngrains) (h : InSlab n0 ngrains i g) : grain n0 n0 ngrains i = g := by
  refine c148_grain (by omega) hgl ?_
  rw [sub_self, zero_div, add_zero]
  exact h

/-- Violation: a plane of cells on the border between two slabs belongs to grain 0, whichever slabs they are. -/
theorem c148_violation_border {n0 ngrains i g : ℕ} (hg : 0 < ngrains) (h : ((i : ℝ) + 1 / 2) * ngrains = g * n0) :
    grain n0 n0 ngrains i = 0 := by
  unfold grain
  refine foldl_none _ ngrains fun g' _ h' => ?_
  have h2 := (test_iff hg i g').mp h'
  rw [sub_self, zero_div, add_zero, h] at h2
  have hn : (0:ℝ) ≤ n0 := Nat.cast_nonneg _
  rcases Nat.lt_or_ge g' g with hlt | hge
  · have : ((g':ℝ) + 1) ≤ g := by exact_mod_cast hlt
    nlinarith [mul_le_mul_of_nonneg_right this hn]
  · have : ((g:ℝ)) ≤ g' := by exact_mod_cast hge
    nlinarith [mul_le_mul_of_nonneg_right this hn]

/-- Six cells and four grains: cell 4 lies on the border between the grains 2 and 3. -/
example : grain 6 6 4 4 = 0 := c148_violation_border (g := 3) (by norm_num) (by norm_num)
example : grain 6 6 4 3 = 2 := c148_grain_partial (by norm_num) ⟨by norm_num, by norm_num⟩

/-- Violation: plane 0 (grains along y) in a domain three times as long in x as in y: every plane of cells inside a slab but the first one
belongs to the grain before. -/
theorem c148_violation_plane {n0 ngrains i g : ℕ} (hgl : g + 1 < ngrains) (h : InSlab n0 ngrains i (g + 1)) :
    grain (3 * n0) n0 ngrains i = g := by
  refine c148_grain (by omega) (by omega) ?_
  obtain ⟨h1, h2⟩ := h
  push_cast at h1 h2 ⊢
  constructor <;> linarith

example : dir0 0 = 1 ∧ dir1 0 = 0 := ⟨rfl, rfl⟩
example : grain 30 10 2 7 = 0 := c148_violation_plane (g := 0) (by norm_num) ⟨by norm_num, by norm_num⟩

/-! ## Smoothing of the orientations -/

theorem before_pos {i m : ℕ} (h1 : 1 ≤ i) (h2 : i ≤ m) : before i m = i - 1 := by
  unfold before
  rw [Int.emod_eq_of_lt (by omega) (by omega)]; omega

theorem before_zero {m : ℕ} (h : 0 < m) : before 0 m = m - 1 := by
  unfold before
  have : ((0:ℕ):ℤ) - 1 = ((m:ℤ) - 1) + m * (-1) := by push_cast; ring
  rw [this, Int.add_mul_emod_self_left, Int.emod_eq_of_lt (by omega) (by omega)]; omega

theorem after_lt {i m : ℕ} (h : i + 1 < m) : after i m = i + 1 := by
  unfold after
  rw [Int.emod_eq_of_lt (by omega) (by omega)]; omega

theorem after_last {i m : ℕ} (h : i + 1 = m) : after i m = 0 := by
  unfold after
  have : (i:ℤ) + 1 = m := by exact_mod_cast h
  rw [this, Int.emod_self]; rfl

theorem before_lt {i m : ℕ} (h : 0 < m) : before i m < m := by
  unfold before
  have := Int.emod_lt_of_pos ((i:ℤ) - 1) (by exact_mod_cast h : (0:ℤ) < m)
  have := Int.emod_nonneg ((i:ℤ) - 1) (by omega : (m:ℤ) ≠ 0)
  omega

theorem after_lt' {i m : ℕ} (h : 0 < m) : after i m < m := by
  unfold after
  have := Int.emod_lt_of_pos ((i:ℤ) + 1) (by exact_mod_cast h : (0:ℤ) < m)
  have := Int.emod_nonneg ((i:ℤ) + 1) (by omega : (m:ℤ) ≠ 0)
  omega

theorem bounds_le (p : Bool) (n : ℕ) : (bounds p n).2 ≤ n := by unfold bounds; split_ifs <;> simp
theorem boundsZ_le (p : Bool) (n : ℕ) : (boundsZ p n).2 ≤ n := by unfold boundsZ; split_ifs <;> simp

/-- Smoothing never leaves the range of the values. -/
theorem c148_smooth_range (px py pz : Bool) (nx ny nz : ℕ) (q : ℕ → ℕ → ℕ → ℝ) (lo hi : ℝ)
    (h : ∀ i < nx, ∀ j < ny, ∀ k < nz, lo ≤ q i j k ∧ q i j k ≤ hi) {i j k : ℕ} (hi' : i < nx) (hj : j < ny) (hk : k < nz) :
    lo ≤ smooth px py pz nx ny nz q i j k ∧ smooth px py pz nx ny nz q i j k ≤ hi := by
  unfold smooth
  dsimp only
  have bx := bounds_le px nx
  have byy := bounds_le py ny
  have bz := boundsZ_le pz nz
  generalize bounds px nx = X at *
  generalize bounds py ny = Y at *
  generalize boundsZ pz nz = Z at *
  split_ifs with hc
  · obtain ⟨_, c2, _, c4, _, c6⟩ := hc
    have a0 := h i hi' j hj k hk
    have a1 := h i hi' j hj (before k Z.2) (lt_of_lt_of_le (before_lt (by omega)) bz)
    have a2 := h i hi' j hj (after k Z.2) (lt_of_lt_of_le (after_lt' (by omega)) bz)
    have a3 := h i hi' (before j Y.2) (lt_of_lt_of_le (before_lt (by omega)) byy) k hk
    have a4 := h i hi' (after j Y.2) (lt_of_lt_of_le (after_lt' (by omega)) byy) k hk
    have a5 := h (before i X.2) (lt_of_lt_of_le (before_lt (by omega)) bx) j hj k hk
    have a6 := h (after i X.2) (lt_of_lt_of_le (after_lt' (by omega)) bx) j hj k hk
    constructor <;> norm_num <;> linarith [a0.1, a0.2, a1.1, a1.2, a2.1, a2.2, a3.1, a3.2, a4.1, a4.2, a5.1, a5.2, a6.1, a6.2]
  · exact h i hi' j hj k hk

/-- Interior cells away from the last interior planes: the average with the neighbours, whatever the periodicity. -/
theorem c148_smooth_partial (px py pz : Bool) {nx ny nz i j k : ℕ} (q : ℕ → ℕ → ℕ → ℝ) (hi : 1 ≤ i ∧ i + 2 < nx) (hj : 1 ≤ j ∧ j + 2 < ny)
    (hk : 1 ≤ k ∧ k + 2 < nz) :
    smooth px py pz nx ny nz q i j k = average q (i - 1) i (i + 1) (j - 1) j (j + 1) (k - 1) k (k + 1) := by
  have hX : (bounds px nx).1 ≤ i ∧ i + 1 < (bounds px nx).2 := by unfold bounds; split_ifs <;> simp only <;> omega
  have hY : (bounds py ny).1 ≤ j ∧ j + 1 < (bounds py ny).2 := by unfold bounds; split_ifs <;> simp only <;> omega
  have hZ : (boundsZ pz nz).1 ≤ k ∧ k + 1 < (boundsZ pz nz).2 := by unfold boundsZ; split_ifs <;> simp only <;> omega
  unfold smooth average
  dsimp only
  rw [if_pos (by omega), before_pos hi.1 (by omega), before_pos hj.1 (by omega), before_pos hk.1 (by omega), after_lt hX.2, after_lt hY.2,
    after_lt hZ.2]
  norm_num
  ring

/-- Violation: without periodicity in x the last interior plane is averaged with the first plane of the domain instead of its neighbour, the
last plane: the result is wrong by an eighth of their difference. -/
theorem c148_violation_smooth (py pz : Bool) {nx ny nz j k : ℕ} (q : ℕ → ℕ → ℕ → ℝ) (hx : 3 ≤ nx) (hj : 1 ≤ j ∧ j + 2 < ny)
    (hk : 1 ≤ k ∧ k + 2 < nz) :
    smooth false py pz nx ny nz q (nx - 2) j k
      = average q (nx - 3) (nx - 2) (nx - 1) (j - 1) j (j + 1) (k - 1) k (k + 1) + (q 0 j k - q (nx - 1) j k) / 8 := by
  have hX : bounds false nx = (1, nx - 1) := rfl
  have hY : (bounds py ny).1 ≤ j ∧ j + 1 < (bounds py ny).2 := by unfold bounds; split_ifs <;> simp only <;> omega
  have hZ : (boundsZ pz nz).1 ≤ k ∧ k + 1 < (boundsZ pz nz).2 := by unfold boundsZ; split_ifs <;> simp only <;> omega
  unfold smooth average
  dsimp only
  rw [hX]
  dsimp only
  rw [if_pos (by omega), before_pos (by omega : 1 ≤ nx - 2) (by omega), before_pos hj.1 (by omega), before_pos hk.1 (by omega),
    after_last (by omega : nx - 2 + 1 = nx - 1), after_lt hY.2, after_lt hZ.2, show nx - 2 - 1 = nx - 3 by omega]
  norm_num
  ring

/-- With periodicity in x the last plane is averaged with the first one, and the first with the last, as it should be. -/
theorem c148_smooth_wraps (py pz : Bool) {nx ny nz j k : ℕ} (q : ℕ → ℕ → ℕ → ℝ) (hx : 2 ≤ nx) (hj : 1 ≤ j ∧ j + 2 < ny)
    (hk : 1 ≤ k ∧ k + 2 < nz) :
    smooth true py pz nx ny nz q (nx - 1) j k = average q (nx - 2) (nx - 1) 0 (j - 1) j (j + 1) (k - 1) k (k + 1)
    ∧ smooth true py pz nx ny nz q 0 j k = average q (nx - 1) 0 1 (j - 1) j (j + 1) (k - 1) k (k + 1) := by
  have hX : bounds true nx = (0, nx) := rfl
  have hY : (bounds py ny).1 ≤ j ∧ j + 1 < (bounds py ny).2 := by unfold bounds; split_ifs <;> simp only <;> omega
  have hZ : (boundsZ pz nz).1 ≤ k ∧ k + 1 < (boundsZ pz nz).2 := by unfold boundsZ; split_ifs <;> simp only <;> omega
  unfold smooth average
  dsimp only
  rw [hX]
  dsimp only
  constructor
  · rw [if_pos (by omega), before_pos (by omega : 1 ≤ nx - 1) (by omega), before_pos hj.1 (by omega), before_pos hk.1 (by omega),
      after_last (by omega : nx - 1 + 1 = nx), after_lt hY.2, after_lt hZ.2, show nx - 1 - 1 = nx - 2 by omega]
    norm_num
    ring
  · rw [if_pos (by omega), before_zero (by omega), before_pos hj.1 (by omega), before_pos hk.1 (by omega),
      after_lt (by omega : 0 + 1 < nx), after_lt hY.2, after_lt hZ.2]
    norm_num
    ring

/-- The same along z: with periodicity the first and the last plane are neighbours. -/
theorem c148_smooth_wraps_z (px py : Bool) {nx ny nz i j : ℕ} (q : ℕ → ℕ → ℕ → ℝ) (hz : 2 ≤ nz) (hi : 1 ≤ i ∧ i + 2 < nx) (hj : 1 ≤ j ∧ j + 2 < ny) :
    smooth px py true nx ny nz q i j (nz - 1) = average q (i - 1) i (i + 1) (j - 1) j (j + 1) (nz - 2) (nz - 1) 0
    ∧ smooth px py true nx ny nz q i j 0 = average q (i - 1) i (i + 1) (j - 1) j (j + 1) (nz - 1) 0 1 := by
  have hX : (bounds px nx).1 ≤ i ∧ i + 1 < (bounds px nx).2 := by unfold bounds; split_ifs <;> simp only <;> omega
  have hY : (bounds py ny).1 ≤ j ∧ j + 1 < (bounds py ny).2 := by unfold bounds; split_ifs <;> simp only <;> omega
  have hZ : boundsZ true nz = (0, nz) := by simp [boundsZ]
  unfold smooth average
  dsimp only
  rw [hZ]
  dsimp only
  constructor
  · rw [if_pos (by omega), before_pos (by omega : 1 ≤ nz - 1) (by omega), before_pos hj.1 (by omega), before_pos hi.1 (by omega),
      after_last (by omega : nz - 1 + 1 = nz), after_lt hY.2, after_lt hX.2, show nz - 1 - 1 = nz - 2 by omega]
    norm_num
    ring
  · rw [if_pos (by omega), before_zero (by omega), before_pos hj.1 (by omega), before_pos hi.1 (by omega),
      after_lt (by omega : 0 + 1 < nz), after_lt hY.2, after_lt hX.2]
    norm_num
    ring

/-- One plane of cells (two dimensions): it is its own neighbour along z, whatever the periodicity. -/
theorem c148_smooth_flat (px py pz : Bool) {nx ny i j : ℕ} (q : ℕ → ℕ → ℕ → ℝ) (hi : 1 ≤ i ∧ i + 2 < nx) (hj : 1 ≤ j ∧ j + 2 < ny) :
    smooth px py pz nx ny 1 q i j 0 = average q (i - 1) i (i + 1) (j - 1) j (j + 1) 0 0 0 := by
  have hX : (bounds px nx).1 ≤ i ∧ i + 1 < (bounds px nx).2 := by unfold bounds; split_ifs <;> simp only <;> omega
  have hY : (bounds py ny).1 ≤ j ∧ j + 1 < (bounds py ny).2 := by unfold bounds; split_ifs <;> simp only <;> omega
  have hZ : boundsZ pz 1 = (0, 1) := by simp [boundsZ]
  unfold smooth average
  dsimp only
  rw [hZ]
  dsimp only
  rw [if_pos (by omega), before_zero (by omega), before_pos hj.1 (by omega), before_pos hi.1 (by omega),
    after_last (by omega : 0 + 1 = 1), after_lt hY.2, after_lt hX.2]
  norm_num
  ring

/-- A domain of 5³ cells whose last plane has orientation 1 and the rest 0: the last interior plane is not touched by it. -/
example : smooth false false false 5 5 5 (fun i _ _ => if i = 4 then 1 else 0) 3 1 1 = 0 := by
  rw [c148_violation_smooth false false _ (by norm_num) ⟨by norm_num, by norm_num⟩ ⟨by norm_num, by norm_num⟩]
  norm_num [average]

example : total 8 4 (sharp 8 4 1 (1 / 2)) = 16 := by
  rw [c148_fraction_partial (m := 2) (by norm_num) (by norm_num) (by norm_num)]; norm_num

example : total 8 4 (fun a b => composition 0.1 0.3 (sharp 8 4 1 (1 / 2) a b)) = 0.2 * (8 * 4) := by
  have := c148_mean_partial (n0 := 8) (n1 := 4) (m := 2) (c := 0.2) (ci := 0.1) (co := 0.3) (sf := 1 / 2) (given := none) (by norm_num)
    (by norm_num) (by norm_num) (by simp only [outside]; norm_num)
  exact_mod_cast this

end AMPE.BoundaryGrains.Props
