import Verif.Model.ScalarDiag
import Verif.Props.Weights
import Mathlib.Algebra.BigOperators.Group.List.Basic
import Mathlib.Tactic.NormNum
import Mathlib.Tactic.FinCases

/-! # C84: printed volume fractions and density are those of the fields -/

namespace AMPE.ScalarDiag.Props

open AMPE.Weights AMPE.Weights.Props AMPE.ScalarDiag

variable {D : ℕ}

/-! ## The weighted integral is linear and monotone -/

theorem zeroOut_nonneg (finer : List (Box D)) (b : Box D) (w : Cell D → ℝ) (hw : ∀ c, 0 ≤ w c) (c : Cell D) :
    0 ≤ zeroOut finer b w c := by
  unfold zeroOut
  induction finer generalizing w with
  | nil => exact hw c
  | cons x L ih =>
    rw [List.foldl_cons]
    exact ih _ fun c => by beta_reduce; split_ifs <;> [exact le_rfl; exact hw c]

theorem levelSum_mono (l : Level D) (w w' : Box D → Cell D → ℝ) (h : ∀ b ∈ l.boxes, ∀ c ∈ b.cells, w b c ≤ w' b c) :
    levelSum l w ≤ levelSum l w' := by
  unfold levelSum
  exact List.sum_le_sum fun b hb => Finset.sum_le_sum fun c hc => h b hb c hc

theorem levelSum_lin (l : Level D) (w w' : Box D → Cell D → ℝ) (a b : ℝ) :
    levelSum l (fun x c => a * w x c + b * w' x c) = a * levelSum l w + b * levelSum l w' := by
  unfold levelSum
  induction l.boxes with
  | nil => simp
  | cons x L ih =>
    rw [List.map_cons, List.sum_cons, ih, List.map_cons, List.sum_cons, List.map_cons, List.sum_cons]
    simp only [Finset.sum_add_distrib, ← Finset.mul_sum]
    ring

theorem cellVol_nonneg (dx0 : Fin D → ℝ) (hdx : ∀ d, 0 < dx0 d) (l : Level D) : 0 ≤ cellVol dx0 l :=
  Finset.prod_nonneg fun d _ => div_nonneg (hdx d).le (Nat.cast_nonneg _)

theorem integral_lin (dx0 : Fin D → ℝ) (f g : Comp D) (a b : ℝ) (levels : List (Level D)) :
    integral dx0 (fun l c => a * f l c + b * g l c) levels = a * integral dx0 f levels + b * integral dx0 g levels := by
  induction levels with
  | nil => simp [integral]
  | cons l rest ih =>
    cases rest with
    | nil =>
      unfold integral
      rw [← levelSum_lin]
      exact levelSum_congr _ _ _ fun _ _ => by ring
    | cons next rest =>
      unfold integral
      rw [ih]
      have : ∀ (W : Box D → Cell D → ℝ), levelSum l (fun x c => W x c * (a * f l c + b * g l c)) =
          a * levelSum l (fun x c => W x c * f l c) + b * levelSum l (fun x c => W x c * g l c) := by
        intro W
        rw [← levelSum_lin]
        exact levelSum_congr _ _ _ fun _ _ => by ring
      rw [this]
      ring

theorem integral_mono (dx0 : Fin D → ℝ) (hdx : ∀ d, 0 < dx0 d) (f g : Comp D) (levels : List (Level D))
    (h : ∀ l ∈ levels, ∀ c ∈ Level.cells l, f l c ≤ g l c) : integral dx0 f levels ≤ integral dx0 g levels := by
  induction levels with
  | nil => exact le_rfl
  | cons l rest ih =>
    have hl : ∀ b ∈ l.boxes, ∀ c ∈ b.cells, f l c ≤ g l c := fun b hb c hc =>
      h l (by simp) c ((mem_levelCells l c).2 ⟨b, hb, hc⟩)
    have hr : ∀ l' ∈ rest, ∀ c ∈ Level.cells l', f l' c ≤ g l' c := fun l' hl' => h l' (by simp [hl'])
    cases rest with
    | nil =>
      unfold integral
      exact levelSum_mono _ _ _ fun b hb c hc => mul_le_mul_of_nonneg_left (hl b hb c hc) (cellVol_nonneg dx0 hdx l)
    | cons next rest =>
      unfold integral
      exact add_le_add (levelSum_mono _ _ _ fun b hb c hc => mul_le_mul_of_nonneg_left (hl b hb c hc)
        (zeroOut_nonneg _ _ _ (fun _ => cellVol_nonneg dx0 hdx l) c)) (ih hr)

theorem integral_congr (dx0 : Fin D → ℝ) (hdx : ∀ d, 0 < dx0 d) (f g : Comp D) (levels : List (Level D))
    (h : ∀ l ∈ levels, ∀ c ∈ Level.cells l, f l c = g l c) : integral dx0 f levels = integral dx0 g levels :=
  le_antisymm (integral_mono dx0 hdx f g levels fun l hl c hc => (h l hl c hc).le)
    (integral_mono dx0 hdx g f levels fun l hl c hc => (h l hl c hc).ge)

theorem integral_const (dx0 : Fin D → ℝ) (a : ℝ) (levels : List (Level D)) :
    integral dx0 (fun _ _ => a) levels = a * totalWeight dx0 levels := by
  rw [total_eq_integral]
  have := integral_lin dx0 (fun _ _ => 1) (fun _ _ => 0) a 0 levels
  simp only [mul_one, mul_zero, add_zero, zero_mul] at this
  exact this

/-! ## Specification -/

/-- A hierarchy over a domain of `N` level-zero cells per direction. -/
structure Covers (dx0 low up : Fin D → ℝ) (levels : List (Level D)) : Prop where
  dx_pos : ∀ d, 0 < dx0 d
  side_pos : ∀ d, low d < up d
  total : totalWeight dx0 levels = volume low up

/-- Every legal hierarchy over the domain is such (C39). -/
theorem covers_nested (dx0 low up : Fin D → ℝ) (N : Fin D → ℕ) (hN : ∀ d, 0 < N d) (hdx : ∀ d, 0 < dx0 d)
    (hup : ∀ d, up d = low d + N d * dx0 d) (l : Level D) (rest : List (Level D)) (h : Nested (l :: rest))
    (hr : ∀ d, l.ratio d = 1) (hdom : Level.cells l = Finset.Icc 0 fun d => (N d : ℤ) - 1) :
    Covers dx0 low up (l :: rest) := by
  refine ⟨hdx, fun d => ?_, ?_⟩
  · rw [hup]
    have : (0:ℝ) < N d := by exact_mod_cast hN d
    nlinarith [hdx d, mul_pos this (hdx d)]
  · rw [c39_total dx0 N l rest h hr hdom]
    unfold volume
    exact Finset.prod_congr rfl fun d _ => by rw [hup]; ring

/-- Average of a component over the domain. -/
noncomputable def average (dx0 low up : Fin D → ℝ) (f : Comp D) (levels : List (Level D)) : ℝ :=
  integral dx0 f levels / volume low up

theorem volume_pos (dx0 low up : Fin D → ℝ) (levels : List (Level D)) (h : Covers dx0 low up levels) :
    0 < volume low up := Finset.prod_pos fun d _ => by have := h.side_pos d; linarith

/-! ## Volume fractions -/

/-- **C84**: with one order parameter the solid fraction printed is the average of the order parameter when that is
nowhere negative, and then lies between 0 and 1 if the order parameter does. -/
theorem c84_solid_fraction (dx0 low up : Fin D → ℝ) (levels : List (Level D)) (h : Covers dx0 low up levels) (c : Counts)
    (h3 : c.threePhases = false) (h1 : c.norderp ≤ 1) (phi : ℤ → Comp D)
    (hp : ∀ l ∈ levels, ∀ x ∈ Level.cells l, 0 ≤ phi 0 l x) :
    fractions dx0 low up c phi levels = some [average dx0 low up (phi 0) levels] ∧
      ((∀ l ∈ levels, ∀ x ∈ Level.cells l, phi 0 l x ≤ 1) →
        0 ≤ average dx0 low up (phi 0) levels ∧ average dx0 low up (phi 0) levels ≤ 1) := by
  have hv := volume_pos dx0 low up levels h
  constructor
  · unfold fractions
    have : ¬ 1 < c.depth := by unfold Counts.depth; rw [h3]; simpa using h1
    rw [if_neg (by simp [h3]), if_neg this]
    unfold volumeSolid average
    rw [integral_congr dx0 h.dx_pos (fun l c => |phi 0 l c|) (phi 0) levels fun l hl x hx => abs_of_nonneg (hp l hl x hx)]
  · intro h1
    unfold average
    constructor
    · apply div_nonneg _ hv.le
      have := integral_mono dx0 h.dx_pos (fun _ _ => 0) (phi 0) levels hp
      rw [integral_const, zero_mul] at this
      exact this
    · rw [div_le_one hv]
      have := integral_mono dx0 h.dx_pos (phi 0) (fun _ _ => 1) levels h1
      rw [integral_const, one_mul, h.total] at this
      exact this

/-- **C84** (the failure): the value printed exceeds the average by twice the average of the negative part. -/
theorem c84_violation_negative (dx0 low up : Fin D → ℝ) (levels : List (Level D)) (h : Covers dx0 low up levels)
    (c : Counts) (h3 : c.threePhases = false) (h1 : c.norderp ≤ 1) (phi : ℤ → Comp D) :
    fractions dx0 low up c phi levels = some [average dx0 low up (phi 0) levels +
      2 * average dx0 low up (fun l x => max 0 (-phi 0 l x)) levels] := by
  unfold fractions
  have : ¬ 1 < c.depth := by unfold Counts.depth; rw [h3]; simpa using h1
  rw [if_neg (by simp [h3]), if_neg this]
  unfold volumeSolid average
  have e := integral_lin dx0 (phi 0) (fun l x => max 0 (-phi 0 l x)) 1 2 levels
  rw [one_mul] at e
  congr 2
  rw [← mul_div_assoc, ← add_div, ← e]
  congr 1
  refine integral_congr dx0 h.dx_pos _ _ levels fun l _ x _ => ?_
  rcases le_total 0 (phi 0 l x) with q | q
  · rw [abs_of_nonneg q, max_eq_left (by linarith)]; ring
  · rw [abs_of_nonpos q, max_eq_right (by linarith)]; ring

/-- On one level: equal to the average exactly when the order parameter is nowhere negative. -/
theorem c84_violation_negative_iff (dx0 low up : Fin D → ℝ) (l : Level D) (hr : ∀ d, 0 < l.ratio d)
    (h : Covers dx0 low up [l]) (c : Counts) (h3 : c.threePhases = false) (h1 : c.norderp ≤ 1) (phi : ℤ → Comp D) :
    fractions dx0 low up c phi [l] = some [average dx0 low up (phi 0) [l]] ↔ ∀ x ∈ Level.cells l, 0 ≤ phi 0 l x := by
  have hv := volume_pos dx0 low up [l] h
  constructor
  · intro q x hx
    rw [c84_violation_negative dx0 low up [l] h c h3 h1 phi] at q
    simp only [Option.some.injEq, List.cons.injEq, and_true] at q
    have hz : integral dx0 (fun l x => max 0 (-phi 0 l x)) [l] = 0 := by
      have : average dx0 low up (fun l x => max 0 (-phi 0 l x)) [l] = 0 := by linarith
      unfold average at this
      rcases div_eq_zero_iff.1 this with r | r
      · exact r
      · exact absurd r hv.ne'
    obtain ⟨b, hb, hxb⟩ := (mem_levelCells l x).1 hx
    by_contra hneg
    rw [not_le] at hneg
    have hcv : 0 < cellVol dx0 l := Finset.prod_pos fun d _ => div_pos (h.dx_pos d) (by exact_mod_cast hr d)
    have nn : ∀ (b : Box D) (x : Cell D), 0 ≤ cellVol dx0 l * max 0 (-phi 0 l x) := fun b x =>
      mul_nonneg hcv.le (le_max_left _ _)
    have p : 0 < ∑ y ∈ b.cells, cellVol dx0 l * max 0 (-phi 0 l y) :=
      Finset.sum_pos' (fun y _ => nn b y) ⟨x, hxb, mul_pos hcv (lt_max_of_lt_right (by linarith))⟩
    have : 0 < levelSum l fun _ y => cellVol dx0 l * max 0 (-phi 0 l y) := by
      unfold levelSum
      refine lt_of_lt_of_le p (List.single_le_sum ?_ _ (List.mem_map.2 ⟨b, hb, rfl⟩))
      intro v hv
      obtain ⟨b', _, rfl⟩ := List.mem_map.1 hv
      exact Finset.sum_nonneg fun y _ => nn b' y
    unfold integral at hz
    linarith
  · intro q
    exact (c84_solid_fraction dx0 low up [l] h c h3 h1 phi (by intro l' hl'; rw [List.mem_singleton] at hl'; subst hl'; exact q)).1

theorem mapM_some {α β : Type} (f : α → Option β) (g : α → β) (L : List α) (h : ∀ a ∈ L, f a = some (g a)) :
    L.mapM f = some (L.map g) := by
  induction L with
  | nil => rfl
  | cons a L ih =>
    rw [List.mapM_cons, h a (by simp), ih fun b hb => h b (by simp [hb])]
    rfl

/-- **C84**: with several order parameters, or three phases, there is one printed fraction per component, equal to its
average over the domain. -/
theorem c84_fractions (dx0 low up : Fin D → ℝ) (levels : List (Level D)) (c : Counts)
    (hm : c.threePhases = true ∨ 1 < c.norderp) (phi : ℤ → Comp D) :
    fractions dx0 low up c phi levels =
      some ((List.range c.depth.toNat).map fun i : ℕ => average dx0 low up (phi (i : ℤ)) levels) := by
  unfold fractions
  by_cases h3 : c.threePhases = true
  · rw [if_pos h3]
    have hd : c.depth = 3 := by unfold Counts.depth; rw [if_pos h3]
    rw [hd]
    refine mapM_some _ _ _ fun i hi => ?_
    rw [List.mem_range] at hi
    unfold phaseVolume component
    rw [if_pos ⟨by omega, by omega⟩]
    rfl
  · have hn : 1 < c.norderp := hm.resolve_left h3
    have hd : c.depth = c.norderp := by unfold Counts.depth; rw [if_neg h3]
    rw [if_neg h3, if_pos (by rw [hd]; exact hn)]
    refine mapM_some _ _ _ fun i hi => ?_
    rw [List.mem_range] at hi
    unfold phaseVolume component
    rw [if_pos ⟨by omega, by omega⟩]
    rfl

theorem integral_list (dx0 : Fin D → ℝ) (levels : List (Level D)) (phi : ℤ → Comp D) (L : List ℕ) :
    (L.map fun i : ℕ => integral dx0 (phi (i : ℤ)) levels).sum =
      integral dx0 (fun l x => (L.map fun i : ℕ => phi (i : ℤ) l x).sum) levels := by
  induction L with
  | nil =>
    have := integral_const dx0 0 levels
    rw [zero_mul] at this
    simpa using this.symm
  | cons a L ih =>
    rw [List.map_cons, List.sum_cons, ih]
    have := integral_lin dx0 (phi (a : ℤ)) (fun l x => (L.map fun i : ℕ => phi (i : ℤ) l x).sum) 1 1 levels
    simp only [one_mul] at this
    rw [← this]
    simp only [List.map_cons, List.sum_cons]

/-- **C84**: if the components add up to one everywhere, so do the printed fractions. -/
theorem c84_fractions_sum (dx0 low up : Fin D → ℝ) (levels : List (Level D)) (h : Covers dx0 low up levels) (c : Counts)
    (hm : c.threePhases = true ∨ 1 < c.norderp) (phi : ℤ → Comp D)
    (hp : ∀ l ∈ levels, ∀ x ∈ Level.cells l, ((List.range c.depth.toNat).map fun i : ℕ => phi (i : ℤ) l x).sum = 1) :
    ∃ fs, fractions dx0 low up c phi levels = some fs ∧ fs.length = c.depth.toNat ∧ fs.sum = 1 := by
  refine ⟨_, c84_fractions dx0 low up levels c hm phi, by simp, ?_⟩
  have hv := volume_pos dx0 low up levels h
  have e : ((List.range c.depth.toNat).map fun i : ℕ => average dx0 low up (phi (i : ℤ)) levels).sum =
      ((List.range c.depth.toNat).map fun i : ℕ => integral dx0 (phi (i : ℤ)) levels).sum / volume low up := by
    generalize List.range c.depth.toNat = L
    induction L with
    | nil => simp
    | cons a L ih => rw [List.map_cons, List.sum_cons, ih, List.map_cons, List.sum_cons, add_div]; rfl
  rw [e, integral_list, integral_congr dx0 h.dx_pos _ (fun _ _ => 1) levels hp, integral_const, one_mul, h.total,
    div_self hv.ne']

/-- **C84**: the printed integral of a composition within bounds lies within the bounds times the volume. -/
theorem c84_integral_bounds (dx0 low up : Fin D → ℝ) (levels : List (Level D)) (h : Covers dx0 low up levels) (f : Comp D)
    (a b : ℝ) (hab : ∀ l ∈ levels, ∀ x ∈ Level.cells l, a ≤ f l x ∧ f l x ≤ b) :
    a * volume low up ≤ integral dx0 f levels ∧ integral dx0 f levels ≤ b * volume low up := by
  rw [← h.total, ← integral_const, ← integral_const]
  exact ⟨integral_mono dx0 h.dx_pos _ _ levels fun l hl x hx => (hab l hl x hx).1,
    integral_mono dx0 h.dx_pos _ _ levels fun l hl x hx => (hab l hl x hx).2⟩

/-- **C84** (dead output): the solute excess "Cex (HBSM)" is printed for no input with at least one order parameter. -/
theorem c84_violation_cex (three : Bool) (norderp nA : Option ℤ) (oldB : ℤ) (h : ∀ n, norderp = some n → 1 ≤ n) :
    ¬ printsCex (readCounts three norderp nA oldB) := by
  unfold printsCex Counts.depth readCounts
  simp only [not_lt]
  split_ifs
  · norm_num
  · cases norderp with
    | none => simp
    | some n => exact h n rfl

/-! ## Density -/

/-- **C84**: with the default split of the order parameters, or a given number of A particles leaving one for the void,
the component taken for the void is the last one. -/
theorem c84_void_last (n : ℤ) (hn : 1 < n) (nA : Option ℤ) (hA : ∀ a, nA = some a → 0 < a ∧ a < n) (oldB : ℤ) :
    (readCounts false (some n) nA oldB).depthVoid = n - 1 ∧ (readCounts false (some n) nA oldB).depth = n := by
  unfold Counts.depthVoid Counts.depth readCounts
  simp only [Option.getD_some]
  constructor
  · cases nA with
    | none =>
      simp only [Option.getD_none]
      rw [if_neg (by omega : ¬ n = 1), if_pos (by omega), if_neg (by omega)]; ring
    | some a =>
      obtain ⟨h1, h2⟩ := hA a rfl
      simp only [Option.getD_some]
      rw [if_pos h1, if_neg (by omega)]; ring
  · rfl

/-- **C84**: the density then is one minus the mean of the void component over the subdomain weights, and lies between
0 and 1 when that component does. -/
theorem c84_density (dx0 low dlow dup : Fin D → ℝ) (n : ℤ) (hn : 1 < n) (nA : Option ℤ)
    (hA : ∀ a, nA = some a → 0 < a ∧ a < n) (oldB : ℤ) (phi : ℤ → Comp D) (levels : List (Level D))
    (hpos : 0 < totalDiag dx0 low dlow dup levels) :
    density dx0 low dlow dup (readCounts false (some n) nA oldB) phi levels =
      some (1 - diagIntegral dx0 low dlow dup (phi (n - 1)) levels / totalDiag dx0 low dlow dup levels) := by
  obtain ⟨h1, h2⟩ := c84_void_last n hn nA hA oldB
  unfold density component
  rw [h1, h2, if_pos ⟨by omega, by omega⟩, Option.bind_some, if_pos hpos]

theorem diagWeight_nonneg (dx0 low dlow dup : Fin D → ℝ) (hdx : ∀ d, 0 < dx0 d) (l : Level D) (c : Cell D) :
    0 ≤ diagWeight dx0 low dlow dup l c := by
  unfold diagWeight
  generalize List.finRange D = L
  have : ∀ w : ℝ, 0 ≤ w → 0 ≤ L.foldl (fun w d =>
      let x := low d + (c d : ℝ) * (dx0 d / l.ratio d)
      let w := if x < dlow d then 0 else w
      if x > dup d then 0 else w) w := by
    induction L with
    | nil => intro w hw; exact hw
    | cons d L ih =>
      intro w hw
      rw [List.foldl_cons]
      apply ih
      simp only
      split_ifs <;> first | exact le_rfl | exact hw
  exact this _ (cellVol_nonneg dx0 hdx l)

theorem c84_density_bounds (dx0 low dlow dup : Fin D → ℝ) (hdx : ∀ d, 0 < dx0 d) (c : Counts) (phi : ℤ → Comp D)
    (levels : List (Level D)) (rho : ℝ) (hrho : density dx0 low dlow dup c phi levels = some rho)
    (hp : ∀ l ∈ levels, ∀ x ∈ Level.cells l, 0 ≤ phi c.depthVoid l x ∧ phi c.depthVoid l x ≤ 1) : 0 ≤ rho ∧ rho ≤ 1 := by
  unfold density component at hrho
  by_cases h1 : 0 ≤ c.depthVoid ∧ c.depthVoid < c.depth
  · rw [if_pos h1, Option.bind_some] at hrho
    split_ifs at hrho with h2
    rw [Option.some.injEq] at hrho
    rw [← hrho]
    have lo : 0 ≤ diagIntegral dx0 low dlow dup (phi c.depthVoid) levels := by
      unfold diagIntegral
      refine List.sum_nonneg fun v hv => ?_
      obtain ⟨l, hl, rfl⟩ := List.mem_map.1 hv
      have := levelSum_mono l (fun _ _ => 0) (fun _ c' => diagWeight dx0 low dlow dup l c' * phi c.depthVoid l c')
        fun b hb x hx => mul_nonneg (diagWeight_nonneg dx0 low dlow dup hdx l x)
          (hp l hl x ((mem_levelCells l x).2 ⟨b, hb, hx⟩)).1
      have z : levelSum l (fun _ _ => (0:ℝ)) = 0 := by unfold levelSum; simp
      rw [z] at this
      exact this
    have hi : diagIntegral dx0 low dlow dup (phi c.depthVoid) levels ≤ totalDiag dx0 low dlow dup levels := by
      unfold diagIntegral totalDiag
      refine List.sum_le_sum fun l hl => levelSum_mono _ _ _ fun b hb x hx => ?_
      exact mul_le_of_le_one_right (diagWeight_nonneg dx0 low dlow dup hdx l x)
        (hp l hl x ((mem_levelCells l x).2 ⟨b, hb, hx⟩)).2
    constructor
    · have := (div_le_one h2).2 hi
      linarith
    · have := div_nonneg lo h2.le
      linarith
  · rw [if_neg h1] at hrho
    cases hrho

/-- **C84** (the failure with three phases): component 1, the first solid, is taken for the void, whatever the input
says about the number of order parameters. -/
theorem c84_violation_three_phases (nA : Option ℤ) (hA : nA = none ∨ nA = some 1) (oldB : ℤ) :
    (readCounts true none nA oldB).depthVoid = 1 ∧ (readCounts true none nA oldB).depth = 3 := by
  unfold Counts.depthVoid Counts.depth readCounts
  rcases hA with rfl | rfl <;> simp

/-- **C84** (the failure when all order parameters are particles, as the sintering model has it): the component taken
for the void does not exist. -/
theorem c84_violation_out_of_range (dx0 low dlow dup : Fin D → ℝ) (n a : ℤ) (hn : 0 < n) (ha : n ≤ a) (oldB : ℤ)
    (phi : ℤ → Comp D) (levels : List (Level D)) :
    density dx0 low dlow dup (readCounts false (some n) (some a) oldB) phi levels = none := by
  unfold density component Counts.depthVoid Counts.depth readCounts
  simp only [Option.getD_some]
  rw [if_pos (by omega : 0 < a), if_pos (by omega : n - a - 1 < 0), if_neg]
  · rfl
  · intro h; simp at h; omega

/-- The counts of the sintering examples: `norderp = norderp_A = 2`. -/
example (dx0 low dlow dup : Fin 2 → ℝ) (phi : ℤ → Comp 2) (levels : List (Level 2)) :
    density dx0 low dlow dup (readCounts false (some 2) (some 2) 0) phi levels = none :=
  c84_violation_out_of_range dx0 low dlow dup 2 2 (by norm_num) le_rfl 0 phi levels

/-- Porosity example: four order parameters, three particles: the void is component 3. -/
example : (readCounts false (some 4) (some 3) 0).depthVoid = 3 :=
  (c84_void_last 4 (by norm_num) (some 3) (by intro a h; cases h; norm_num) 0).1

/-- A hierarchy meeting `Covers`: one patch of `3 × 2` cells of size one half. -/
example : Covers (D := 2) (fun _ => 1 / 2) (fun _ => 0) (fun d => if d = 0 then 3 / 2 else 1)
    [⟨fun _ => 1, [⟨0, fun d => if d = 0 then 2 else 1⟩]⟩] := by
  refine covers_nested (fun _ => 1 / 2) _ _ (fun d => if d = 0 then 3 else 2) ?_ ?_ ?_ _ [] ?_ ?_ ?_
  · intro d; fin_cases d <;> simp
  · intro d; norm_num
  · intro d; fin_cases d <;> norm_num
  · exact ⟨fun _ => Nat.one_pos, List.pairwise_singleton _ _⟩
  · intro d; rfl
  · unfold Level.cells Box.cells
    simp only [List.foldr_cons, List.foldr_nil, Finset.union_empty]
    congr 1
    funext d
    fin_cases d <;> simp

end AMPE.ScalarDiag.Props
