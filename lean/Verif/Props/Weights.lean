import Verif.Model.Weights
import Mathlib.Algebra.Order.BigOperators.Group.Finset
import Mathlib.Algebra.Order.BigOperators.GroupWithZero.Finset
import Mathlib.Algebra.BigOperators.Ring.Finset
import Mathlib.Algebra.BigOperators.Field
import Mathlib.Tactic.Linarith
import Mathlib.Tactic.Ring
import Mathlib.Tactic.FieldSimp
import Mathlib.Tactic.Positivity

/-! # C39: integration weights cover the domain exactly once -/

namespace AMPE.Weights.Props

open AMPE.Weights

variable {D : ℕ}

/-- All cells of a level. -/
def Level.cells (l : Level D) : Finset (Cell D) := l.boxes.foldr (fun b s => b.cells ∪ s) ∅

/-- Parent of a fine cell. -/
def parent (rho : Fin D → ℕ) (c : Cell D) : Cell D := fun d => c d / (rho d : ℤ)

theorem mem_levelCells (l : Level D) (c : Cell D) : c ∈ Level.cells l ↔ ∃ b ∈ l.boxes, c ∈ b.cells := by
  unfold Level.cells
  induction l.boxes with
  | nil => simp
  | cons b L ih => simp only [List.foldr_cons, Finset.mem_union, ih, List.mem_cons, exists_eq_or_imp]

/-- Specification: what makes a hierarchy legal. Level by level: patches do not overlap, ratios are positive and
nest, fine boxes consist of whole coarse cells and lie over the next coarser level. -/
def Nested : List (Level D) → Prop
  | [] => True
  | [l] => (∀ d, 0 < l.ratio d) ∧ l.boxes.Pairwise fun b b' => Disjoint b.cells b'.cells
  | l :: next :: rest =>
    ((∀ d, 0 < l.ratio d) ∧ l.boxes.Pairwise fun b b' => Disjoint b.cells b'.cells) ∧
    (∃ rho : Fin D → ℕ, (∀ d, 0 < rho d ∧ next.ratio d = l.ratio d * rho d) ∧
      (∀ b ∈ next.boxes, ∀ d, b.lo d ≤ b.hi d ∧ (rho d : ℤ) ∣ b.lo d ∧ (rho d : ℤ) ∣ b.hi d + 1) ∧
      ∀ c ∈ Level.cells next, parent rho c ∈ Level.cells l) ∧
    Nested (next :: rest)

theorem levelSum_eq (boxes : List (Box D)) (h : boxes.Pairwise fun b b' => Disjoint b.cells b'.cells)
    (f : Cell D → ℝ) (w : Box D → Cell D → ℝ) (hw : ∀ b ∈ boxes, ∀ c ∈ b.cells, w b c = f c) (r : Fin D → ℕ) :
    levelSum ⟨r, boxes⟩ w = ∑ c ∈ Level.cells ⟨r, boxes⟩, f c := by
  unfold levelSum Level.cells
  simp only
  induction boxes with
  | nil => simp
  | cons b L ih =>
    rw [List.pairwise_cons] at h
    simp only [List.map_cons, List.sum_cons, List.foldr_cons]
    rw [Finset.sum_union, ih h.2 fun b' hb' => hw b' (by simp [hb'])]
    · congr 1
      exact Finset.sum_congr rfl fun c hc => hw b (by simp) c hc
    · rw [Finset.disjoint_left]
      intro c hc hc'
      have := (mem_levelCells ⟨r, L⟩ c).mp hc'
      obtain ⟨b', hb', hcb'⟩ := this
      exact Finset.disjoint_left.mp (h.1 b' hb') hc hcb'

theorem zeroOut_eq (finer : List (Box D)) (pbox : Box D) (w : Cell D → ℝ) (c : Cell D) (hc : c ∈ pbox.cells) :
    zeroOut finer pbox w c = if ∃ b ∈ finer, c ∈ b.cells then 0 else w c := by
  unfold zeroOut
  induction finer generalizing w with
  | nil => simp
  | cons b L ih =>
    rw [List.foldl_cons, ih]
    simp only [Finset.mem_inter, hc, and_true, List.mem_cons, exists_eq_or_imp]
    by_cases h1 : ∃ b ∈ L, c ∈ b.cells <;> by_cases h2 : c ∈ b.cells <;> simp [h1, h2]

theorem mem_cells (b : Box D) (c : Cell D) : c ∈ b.cells ↔ ∀ d, b.lo d ≤ c d ∧ c d ≤ b.hi d := by
  unfold Box.cells
  rw [Finset.mem_Icc, Pi.le_def, Pi.le_def]
  exact ⟨fun h d => ⟨h.1 d, h.2 d⟩, fun h => ⟨fun d => (h d).1, fun d => (h d).2⟩⟩

/-- A coarse cell lies in the coarsened box exactly when some fine cell of the box lies over it. -/
theorem mem_coarsen (rho : Fin D → ℕ) (hr : ∀ d, 0 < rho d) (b : Box D) (hb : ∀ d, b.lo d ≤ b.hi d) (c : Cell D) :
    c ∈ (coarsenBox rho b).cells ↔ ∃ x ∈ b.cells, parent rho x = c := by
  rw [mem_cells]
  constructor
  · intro h
    refine ⟨fun d => max (b.lo d) (c d * rho d), ?_, ?_⟩
    · rw [mem_cells]
      intro d
      have hp : (0 : ℤ) < rho d := by exact_mod_cast hr d
      refine ⟨le_max_left _ _, max_le (hb d) ?_⟩
      have := (h d).2
      simp only [coarsenBox] at this
      exact (Int.le_ediv_iff_mul_le hp).mp this
    · funext d
      have hp : (0 : ℤ) < rho d := by exact_mod_cast hr d
      simp only [parent]
      have h1 := (h d).1
      simp only [coarsenBox] at h1
      rcases le_total (b.lo d) (c d * rho d) with h' | h'
      · rw [max_eq_right h', Int.mul_ediv_cancel _ hp.ne']
      · rw [max_eq_left h']
        refine le_antisymm h1 ?_
        exact (Int.le_ediv_iff_mul_le hp).mpr h'
  · rintro ⟨x, hx, rfl⟩ d
    have hp : (0 : ℤ) < rho d := by exact_mod_cast hr d
    have := (mem_cells b x).mp hx d
    exact ⟨Int.ediv_le_ediv hp this.1, Int.ediv_le_ediv hp this.2⟩

/-- Sum over fine cells of a function of their parents, when whole coarse cells are covered. -/
theorem sum_fine (rho : Fin D → ℕ) (hr : ∀ d, 0 < rho d) (F : Finset (Cell D))
    (sat : ∀ x ∈ F, ∀ y, parent rho y = parent rho x → y ∈ F) (h : Cell D → ℝ) :
    ∑ x ∈ F, h (parent rho x) = ((∏ d, rho d : ℕ) : ℝ) * ∑ c ∈ F.image (parent rho), h c := by
  rw [Finset.sum_comp h (parent rho), Finset.mul_sum]
  refine Finset.sum_congr rfl fun c hc => ?_
  rw [nsmul_eq_mul]
  congr 2
  revert c
  intro c hc
  obtain ⟨x, hx, rfl⟩ := Finset.mem_image.mp hc
  have : F.filter (fun y => parent rho y = parent rho x) =
      Finset.Icc (fun d => (parent rho x d) * rho d) (fun d => (parent rho x d) * rho d + rho d - 1) := by
    ext y
    rw [Finset.mem_filter, Finset.mem_Icc, Pi.le_def, Pi.le_def]
    constructor
    · rintro ⟨_, hy⟩
      constructor
      · intro d
        have hp : (0 : ℤ) < rho d := by exact_mod_cast hr d
        have := congrFun hy d
        rw [← this]
        exact Int.ediv_mul_le _ hp.ne'
      · intro d
        have hp : (0 : ℤ) < rho d := by exact_mod_cast hr d
        have := congrFun hy d
        rw [← this]
        have := Int.lt_ediv_add_one_mul_self (y d) hp
        simp only [parent]
        linarith
    · rintro ⟨h1, h2⟩
      have : parent rho y = parent rho x := by
        funext d
        have hp : (0 : ℤ) < rho d := by exact_mod_cast hr d
        have a := h1 d
        have b := h2 d
        refine le_antisymm ?_ ((Int.le_ediv_iff_mul_le hp).mpr a)
        have : parent rho y d < parent rho x d + 1 := (Int.ediv_lt_iff_lt_mul hp).mpr (by linarith)
        linarith
      exact ⟨sat x hx y this, this⟩
  rw [this, Pi.card_Icc]
  refine Finset.prod_congr rfl fun d _ => ?_
  rw [Int.card_Icc]
  simp

theorem cellVol_refine (dx0 : Fin D → ℝ) (l next : Level D) (hl : ∀ d, 0 < l.ratio d) (rho : Fin D → ℕ)
    (h : ∀ d, 0 < rho d ∧ next.ratio d = l.ratio d * rho d) :
    ((∏ d, rho d : ℕ) : ℝ) * cellVol dx0 next = cellVol dx0 l := by
  unfold cellVol
  rw [Nat.cast_prod, ← Finset.prod_mul_distrib]
  refine Finset.prod_congr rfl fun d _ => ?_
  have h1 : (l.ratio d : ℝ) ≠ 0 := by exact_mod_cast (hl d).ne'
  have h2 : (rho d : ℝ) ≠ 0 := by exact_mod_cast (h d).1.ne'
  rw [(h d).2]
  push_cast
  field_simp

theorem coarsenRatio_eq (l next : Level D) (hl : ∀ d, 0 < l.ratio d) (rho : Fin D → ℕ)
    (h : ∀ d, 0 < rho d ∧ next.ratio d = l.ratio d * rho d) : coarsenRatio l next = rho := by
  funext d
  unfold coarsenRatio
  rw [(h d).2]
  exact Nat.mul_div_cancel_left _ (hl d)

/-- Cells of a coarse level under the next finer one. -/
def covered (rho : Fin D → ℕ) (next : Level D) : Finset (Cell D) := (Level.cells next).image (parent rho)

theorem covered_iff (rho : Fin D → ℕ) (hr : ∀ d, 0 < rho d) (next : Level D)
    (hb : ∀ b ∈ next.boxes, ∀ d, b.lo d ≤ b.hi d) (c : Cell D) :
    (∃ b ∈ next.boxes.map (coarsenBox rho), c ∈ b.cells) ↔ c ∈ covered rho next := by
  unfold covered
  rw [Finset.mem_image]
  constructor
  · rintro ⟨b, hbm, hc⟩
    obtain ⟨b0, hb0, rfl⟩ := List.mem_map.mp hbm
    obtain ⟨x, hx, hxc⟩ := (mem_coarsen rho hr b0 (hb b0 hb0) c).mp hc
    exact ⟨x, (mem_levelCells next x).mpr ⟨b0, hb0, hx⟩, hxc⟩
  · rintro ⟨x, hx, hxc⟩
    obtain ⟨b0, hb0, hxb⟩ := (mem_levelCells next x).mp hx
    exact ⟨coarsenBox rho b0, List.mem_map.mpr ⟨b0, hb0, rfl⟩, (mem_coarsen rho hr b0 (hb b0 hb0) c).mpr ⟨x, hxb, hxc⟩⟩

theorem level_saturated (rho : Fin D → ℕ) (hr : ∀ d, 0 < rho d) (next : Level D)
    (hb : ∀ b ∈ next.boxes, ∀ d, b.lo d ≤ b.hi d ∧ (rho d : ℤ) ∣ b.lo d ∧ (rho d : ℤ) ∣ b.hi d + 1) :
    ∀ x ∈ Level.cells next, ∀ y, parent rho y = parent rho x → y ∈ Level.cells next := by
  intro x hx y hy
  obtain ⟨b, hbm, hxb⟩ := (mem_levelCells next x).mp hx
  refine (mem_levelCells next y).mpr ⟨b, hbm, ?_⟩
  rw [mem_cells] at hxb ⊢
  intro d
  have hp : (0 : ℤ) < rho d := by exact_mod_cast hr d
  obtain ⟨h1, ⟨k, hk⟩, ⟨m, hm⟩⟩ := hb b hbm d
  have hyd : y d / (rho d : ℤ) = x d / (rho d : ℤ) := congrFun hy d
  have hxd := hxb d
  constructor
  · have : k ≤ y d / (rho d : ℤ) := by
      rw [hyd]; exact (Int.le_ediv_iff_mul_le hp).mpr (by rw [mul_comm, ← hk]; exact hxd.1)
    have := (Int.le_ediv_iff_mul_le hp).mp this
    rw [hk, mul_comm]; exact this
  · have : y d / (rho d : ℤ) < m := by
      rw [hyd]; exact (Int.ediv_lt_iff_lt_mul hp).mpr (by rw [mul_comm, ← hm]; linarith)
    have := (Int.ediv_lt_iff_lt_mul hp).mp this
    rw [mul_comm, ← hm] at this
    linarith

theorem parent_parent (l next : Level D) (rho : Fin D → ℕ) (h : ∀ d, 0 < rho d ∧ next.ratio d = l.ratio d * rho d)
    (x : Cell D) : parent next.ratio x = parent l.ratio (parent rho x) := by
  funext d
  simp only [parent]
  rw [(h d).2]
  push_cast
  rw [mul_comm, Int.ediv_ediv_of_nonneg (by positivity)]

theorem covered_level (dx0 : Fin D → ℝ) (l next : Level D) (hl : ∀ d, 0 < l.ratio d) (rho : Fin D → ℕ)
    (h1 : ∀ d, 0 < rho d ∧ next.ratio d = l.ratio d * rho d)
    (h2 : ∀ b ∈ next.boxes, ∀ d, b.lo d ≤ b.hi d ∧ (rho d : ℤ) ∣ b.lo d ∧ (rho d : ℤ) ∣ b.hi d + 1) (g : Cell D → ℝ) :
    ∑ x ∈ Level.cells next, cellVol dx0 next * g (parent next.ratio x) =
      ∑ c ∈ covered rho next, cellVol dx0 l * g (parent l.ratio c) := by
  simp only [parent_parent l next rho h1]
  rw [← Finset.mul_sum, sum_fine rho (fun d => (h1 d).1) (Level.cells next)
    (level_saturated rho (fun d => (h1 d).1) next h2) (fun c => g (parent l.ratio c)),
    ← Finset.mul_sum, ← cellVol_refine dx0 l next hl rho h1]
  unfold covered
  ring

/-- **C39**: on every legal hierarchy (any number of levels, patches, dimensions) the weighted sum of any function
of position resolved on level zero is its integral: every coarse cell is counted exactly once, whatever is refined. -/
theorem c39_integral (dx0 : Fin D → ℝ) (g : Cell D → ℝ) (l : Level D) (rest : List (Level D)) (h : Nested (l :: rest)) :
    integral dx0 (fun l c => g (parent l.ratio c)) (l :: rest) =
      ∑ c ∈ Level.cells l, cellVol dx0 l * g (parent l.ratio c) := by
  induction rest generalizing l with
  | nil =>
    unfold integral
    obtain ⟨_, hp⟩ := h
    exact levelSum_eq l.boxes hp (fun c => cellVol dx0 l * g (parent l.ratio c)) _ (fun _ _ _ _ => rfl) l.ratio
  | cons next rest ih =>
    obtain ⟨⟨hl, hp⟩, ⟨rho, h1, h2, h3⟩, hn⟩ := h
    unfold integral
    rw [ih next hn, covered_level dx0 l next hl rho h1 h2 g, coarsenRatio_eq l next hl rho h1]
    have hw : ∀ b ∈ l.boxes, ∀ c ∈ b.cells,
        zeroOut (next.boxes.map (coarsenBox rho)) b (fun _ => cellVol dx0 l) c * g (parent l.ratio c) =
          if c ∈ covered rho next then 0 else cellVol dx0 l * g (parent l.ratio c) := by
      intro b _ c hc
      rw [zeroOut_eq _ _ _ _ hc]
      simp only [covered_iff rho (fun d => (h1 d).1) next (fun b hb d => (h2 b hb d).1) c]
      split_ifs <;> ring
    have e : levelSum l (fun b c => zeroOut (next.boxes.map (coarsenBox rho)) b (fun _ => cellVol dx0 l) c
          * g (parent l.ratio c)) =
        ∑ c ∈ Level.cells l, if c ∈ covered rho next then 0 else cellVol dx0 l * g (parent l.ratio c) := by
      exact levelSum_eq l.boxes hp (fun c => if c ∈ covered rho next then 0 else cellVol dx0 l * g (parent l.ratio c))
        (fun b c => zeroOut (next.boxes.map (coarsenBox rho)) b (fun _ => cellVol dx0 l) c * g (parent l.ratio c)) hw l.ratio
    rw [e]
    have sub : covered rho next ⊆ Level.cells l := by
      intro c hc
      obtain ⟨x, hx, rfl⟩ := Finset.mem_image.mp hc
      exact h3 x hx
    rw [Finset.sum_ite, Finset.sum_const_zero, zero_add]
    have : (Level.cells l).filter (fun c => ¬c ∈ covered rho next) = Level.cells l \ covered rho next := by
      ext c; simp
    rw [this, Finset.sum_sdiff sub]

theorem levelSum_congr (l : Level D) (w w' : Box D → Cell D → ℝ) (h : ∀ b c, w b c = w' b c) : levelSum l w = levelSum l w' := by
  unfold levelSum
  simp only [h]

theorem total_eq_integral (dx0 : Fin D → ℝ) (L : List (Level D)) :
    totalWeight dx0 L = integral dx0 (fun _ _ => 1) L := by
  induction L with
  | nil => rfl
  | cons l rest ih =>
    cases rest with
    | nil => unfold totalWeight integral; exact levelSum_congr _ _ _ fun _ _ => (mul_one _).symm
    | cons next rest =>
      unfold totalWeight integral
      rw [ih]
      congr 1
      exact levelSum_congr _ _ _ fun _ _ => (mul_one _).symm

/-- **C39**: the weights add up to the volume of the domain. -/
theorem c39_total (dx0 : Fin D → ℝ) (N : Fin D → ℕ) (l : Level D) (rest : List (Level D)) (h : Nested (l :: rest))
    (hr : ∀ d, l.ratio d = 1) (hdom : Level.cells l = Finset.Icc 0 fun d => (N d : ℤ) - 1) :
    totalWeight dx0 (l :: rest) = ∏ d, (N d : ℝ) * dx0 d := by
  rw [total_eq_integral, c39_integral dx0 (fun _ => 1) l rest h, hdom]
  rw [Finset.sum_const, nsmul_eq_mul, Pi.card_Icc]
  simp only [Int.card_Icc, Pi.zero_apply, sub_add_cancel, sub_zero, Int.toNat_natCast, mul_one]
  unfold cellVol
  rw [Nat.cast_prod, ← Finset.prod_mul_distrib]
  refine Finset.prod_congr rfl fun d _ => ?_
  rw [hr d]; simp

/-- **C39**: locally: the weights lying over one cell of level zero add up to the volume of that cell. -/
theorem c39_each_cell_once (dx0 : Fin D → ℝ) (l : Level D) (rest : List (Level D)) (h : Nested (l :: rest))
    (hr : ∀ d, l.ratio d = 1) (c0 : Cell D) (hc : c0 ∈ Level.cells l) :
    integral dx0 (fun l c => if parent l.ratio c = c0 then 1 else 0) (l :: rest) = ∏ d, dx0 d := by
  have e := c39_integral dx0 (fun c => if c = c0 then 1 else 0) l rest h
  rw [e]
  have hp : ∀ c, parent l.ratio c = c := fun c => by funext d; simp [parent, hr]
  simp only [hp, mul_ite, mul_one, mul_zero]
  rw [Finset.sum_ite_eq' (Level.cells l) c0, if_pos hc]
  unfold cellVol
  exact Finset.prod_congr rfl fun d _ => by rw [hr d]; simp

/-- A legal hierarchy with a refined patch exists: 1D, four cells, the middle two refined by two. -/
example : Nested [(⟨fun _ => 1, [⟨fun _ => 0, fun _ => 3⟩]⟩ : Level 1), ⟨fun _ => 2, [⟨fun _ => 2, fun _ => 5⟩]⟩] := by
  refine ⟨⟨by simp, by simp⟩, ⟨fun _ => 2, by simp, ?_, ?_⟩, by simp, by simp⟩
  · intro b hb d
    simp only [List.mem_singleton] at hb
    subst hb
    norm_num
  · intro c hc
    rw [mem_levelCells] at hc ⊢
    obtain ⟨b, hb, hcb⟩ := hc
    simp only [List.mem_singleton] at hb
    subst hb
    refine ⟨_, List.mem_singleton.mpr rfl, ?_⟩
    rw [mem_cells] at hcb ⊢
    intro d
    have := hcb d
    simp only [parent] at this ⊢
    push_cast
    lia

/-! ### Diagnostics weights -/

theorem diag_fold (l : List (Fin D)) (a b : Fin D → Prop) [∀ d, Decidable (a d)] [∀ d, Decidable (b d)] (v : ℝ) :
    l.foldl (fun w d => let w := if a d then 0 else w; if b d then 0 else w) v =
      if ∃ d ∈ l, a d ∨ b d then 0 else v := by
  induction l generalizing v with
  | nil => simp
  | cons d l ih =>
    rw [List.foldl_cons, ih]
    simp only [List.mem_cons, exists_eq_or_imp]
    by_cases h1 : ∃ d ∈ l, a d ∨ b d <;> by_cases h2 : a d <;> by_cases h3 : b d <;> simp [h1, h2, h3]

/-- The diagnostics weight of a cell: its volume when its lower corner lies in the closed subdomain. -/
theorem diagWeight_eq (dx0 low dlow dup : Fin D → ℝ) (l : Level D) (c : Cell D) :
    diagWeight dx0 low dlow dup l c = if ∀ d, dlow d ≤ low d + (c d : ℝ) * (dx0 d / l.ratio d) ∧
      low d + (c d : ℝ) * (dx0 d / l.ratio d) ≤ dup d then cellVol dx0 l else 0 := by
  unfold diagWeight
  rw [diag_fold (List.finRange D) (fun d => low d + (c d : ℝ) * (dx0 d / l.ratio d) < dlow d)
    (fun d => low d + (c d : ℝ) * (dx0 d / l.ratio d) > dup d)]
  by_cases h : ∀ d, dlow d ≤ low d + (c d : ℝ) * (dx0 d / l.ratio d) ∧ low d + (c d : ℝ) * (dx0 d / l.ratio d) ≤ dup d
  · rw [if_pos h, if_neg]
    rintro ⟨d, _, h' | h'⟩
    · exact absurd (h d).1 (not_le.mpr h')
    · exact absurd (h d).2 (not_le.mpr h')
  · rw [if_neg h, if_pos]
    push Not at h
    obtain ⟨d, hd⟩ := h
    refine ⟨d, List.mem_finRange d, ?_⟩
    by_cases h' : low d + (c d : ℝ) * (dx0 d / l.ratio d) < dlow d
    · exact Or.inl h'
    · exact Or.inr (hd (not_lt.mp h'))

/-- **C39** (violation, diagnostics): covered cells keep their diagnostics weight. With the whole domain as
subdomain the weights add up to the sum of the volumes of *all* levels, so every refined region is counted once per
level instead of once. -/
theorem c39_violation_diagnostics (dx0 low dlow dup : Fin D → ℝ) (levels : List (Level D))
    (hdis : ∀ l ∈ levels, l.boxes.Pairwise fun b b' => Disjoint b.cells b'.cells)
    (hin : ∀ l ∈ levels, ∀ c ∈ Level.cells l, ∀ d, dlow d ≤ low d + (c d : ℝ) * (dx0 d / l.ratio d) ∧
      low d + (c d : ℝ) * (dx0 d / l.ratio d) ≤ dup d) :
    totalDiag dx0 low dlow dup levels = (levels.map fun l => ((Level.cells l).card : ℝ) * cellVol dx0 l).sum := by
  unfold totalDiag
  congr 1
  refine List.map_congr_left fun l hl => ?_
  have := levelSum_eq l.boxes (hdis l hl) (fun c => diagWeight dx0 low dlow dup l c)
    (fun _ c => diagWeight dx0 low dlow dup l c) (fun _ _ _ _ => rfl) l.ratio
  refine this.trans ?_
  rw [Finset.sum_congr rfl (g := fun _ => cellVol dx0 l), Finset.sum_const, nsmul_eq_mul]
  intro c hc
  rw [diagWeight_eq, if_pos (hin l hl c hc)]

/-- **C39** (violation, diagnostics): hence strictly too large as soon as a second level has a cell. -/
theorem c39_violation_overcount (dx0 low dlow dup : Fin D → ℝ) (hdx : ∀ d, 0 < dx0 d) (l next : Level D)
    (rest : List (Level D)) (hpos : ∀ l' ∈ l :: next :: rest, ∀ d, 0 < l'.ratio d) (hne : (Level.cells next).Nonempty)
    (hdis : ∀ l' ∈ l :: next :: rest, l'.boxes.Pairwise fun b b' => Disjoint b.cells b'.cells)
    (hin : ∀ l' ∈ l :: next :: rest, ∀ c ∈ Level.cells l', ∀ d, dlow d ≤ low d + (c d : ℝ) * (dx0 d / l'.ratio d) ∧
      low d + (c d : ℝ) * (dx0 d / l'.ratio d) ≤ dup d) (h : Nested (l :: next :: rest)) :
    totalWeight dx0 (l :: next :: rest) < totalDiag dx0 low dlow dup (l :: next :: rest) := by
  rw [c39_violation_diagnostics dx0 low dlow dup _ hdis hin, total_eq_integral, c39_integral dx0 (fun _ => 1) l _ h]
  simp only [mul_one, Finset.sum_const, nsmul_eq_mul, List.map_cons, List.sum_cons]
  have v : ∀ l' ∈ l :: next :: rest, 0 < cellVol dx0 l' := fun l' hl' => by
    unfold cellVol
    refine Finset.prod_pos fun d _ => div_pos (hdx d) ?_
    exact_mod_cast hpos l' hl' d
  have h1 : 0 < ((Level.cells next).card : ℝ) * cellVol dx0 next :=
    mul_pos (by exact_mod_cast Finset.card_pos.mpr hne) (v next (by simp))
  have h2 : 0 ≤ (rest.map fun l => ((Level.cells l).card : ℝ) * cellVol dx0 l).sum := by
    refine List.sum_nonneg fun x hx => ?_
    obtain ⟨l', hl', rfl⟩ := List.mem_map.mp hx
    exact mul_nonneg (Nat.cast_nonneg _) (v l' (by simp [hl'])).le
  linarith

/-- **C39** (violation, diagnostics): one dimension, subdomain from the lower face of cell `a` to the upper face of
cell `b - 1`, strictly inside: cells `a..b` are kept, one too many, because lower corners are compared with a closed
interval. -/
theorem c39_violation_subdomain (dx : ℝ) (hdx : 0 < dx) (a b : ℤ) (c : ℤ) :
    diagWeight (D := 1) (fun _ => dx) (fun _ => 0) (fun _ => a * dx) (fun _ => b * dx) ⟨fun _ => 1, []⟩ (fun _ => c) =
      if a ≤ c ∧ c ≤ b then dx else 0 := by
  rw [diagWeight_eq]
  simp only [Nat.cast_one, div_one, zero_add, forall_const, cellVol, Finset.univ_unique, Finset.prod_singleton]
  have h1 : (a : ℝ) * dx ≤ c * dx ↔ a ≤ c := by
    rw [mul_le_mul_iff_left₀ hdx]; exact_mod_cast Iff.rfl
  have h2 : (c : ℝ) * dx ≤ b * dx ↔ c ≤ b := by
    rw [mul_le_mul_iff_left₀ hdx]; exact_mod_cast Iff.rfl
  simp only [h1, h2]

/-- The subdomain is centred and has the requested size. -/
theorem c39_subdomain_bounds (low up frac : ℝ) :
    (subdomain low up frac).2 - (subdomain low up frac).1 = frac * (up - low) ∧
      (subdomain low up frac).1 + (subdomain low up frac).2 = low + up := by
  unfold subdomain
  constructor <;> ring

end AMPE.Weights.Props
