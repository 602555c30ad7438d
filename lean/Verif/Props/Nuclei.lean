import Verif.Model.Nuclei
import Mathlib.Tactic.Linarith
import Mathlib.Tactic.FieldSimp
import Mathlib.Tactic.Ring
import Mathlib.Tactic.NormNum
import Mathlib.Analysis.SpecialFunctions.Trigonometric.DerivHyp
import Mathlib.Algebra.BigOperators.Ring.Finset
import Mathlib.Algebra.Order.BigOperators.Group.Finset
import Mathlib.Algebra.Order.Floor.Ring

/-!
# C142: generated nuclei are what was asked for
-/

namespace AMPE.Nuclei.Props

open AMPE.Nuclei

/-! ## Specification -/

/-- Square of the distance of two points. -/
def sq (p q : Pt) : ℝ := (p.x - q.x) ^ 2 + (p.y - q.y) ^ 2 + (p.z - q.z) ^ 2

/-- Square of the distance to an image of `q` in a box of sides `a b c`. -/
def sqImage (a b c : ℝ) (p q : Pt) (i j k : ℤ) : ℝ := (p.x - q.x + i * a) ^ 2 + (p.y - q.y + j * b) ^ 2 + (p.z - q.z + k * c) ^ 2

/-- Amount of solid in the file. -/
noncomputable def solid (J : Job) : ℝ := ∑ c ∈ cells J, phase J c

/-- Nuclei that set a cell. -/
noncomputable def painters (J : Job) (c : ℕ × ℕ × ℕ) : Finset ℕ := (Finset.range J.n).filter fun g => (paint J g c).isSome

/-- No cell is set twice. -/
def Apart (J : Job) : Prop := ∀ c ∈ cells J, ∀ g < J.n, ∀ h < J.n, (paint J g c).isSome → (paint J h c).isSome → g = h

/-- All nuclei keep a distance `d`. -/
def Spaced (n : ℕ) (c : ℕ → Pt) (d : ℝ) : Prop := ∀ i < n, ∀ j < n, i ≠ j → d ≤ Real.sqrt (sq (c i) (c j))

/-! ## Distances -/

theorem sq_nonneg' (p q : Pt) : 0 ≤ sq p q := by unfold sq; positivity

theorem sq_comm (p q : Pt) : sq p q = sq q p := by unfold sq; ring

theorem tri (p m q : Pt) : Real.sqrt (sq p q) ≤ Real.sqrt (sq p m) + Real.sqrt (sq m q) := by
  have a := sq_nonneg' p m
  have b := sq_nonneg' m q
  refine Real.sqrt_le_iff.2 ⟨by positivity, ?_⟩
  have cs : |(p.x - m.x) * (m.x - q.x) + (p.y - m.y) * (m.y - q.y) + (p.z - m.z) * (m.z - q.z)| ≤ Real.sqrt (sq p m * sq m q) := by
    refine Real.abs_le_sqrt ?_
    unfold sq
    nlinarith [sq_nonneg ((p.x - m.x) * (m.y - q.y) - (p.y - m.y) * (m.x - q.x)), sq_nonneg ((p.x - m.x) * (m.z - q.z) - (p.z - m.z) * (m.x - q.x)),
      sq_nonneg ((p.y - m.y) * (m.z - q.z) - (p.z - m.z) * (m.y - q.y))]
  rw [Real.sqrt_mul a] at cs
  have h := (le_abs_self _).trans cs
  have e1 := Real.sq_sqrt a
  have e2 := Real.sq_sqrt b
  have : sq p q = sq p m + sq m q + 2 * ((p.x - m.x) * (m.x - q.x) + (p.y - m.y) * (m.y - q.y) + (p.z - m.z) * (m.z - q.z)) := by
    unfold sq; ring
  rw [this]
  nlinarith

theorem fold_le {α : Type} {f : ℝ → α → ℝ} (h : ∀ d i, f d i ≤ d) (l : List α) (d : ℝ) : l.foldl f d ≤ d := by
  induction l generalizing d with
  | nil => exact le_rfl
  | cons a l ih => exact (ih _).trans (h _ _)

theorem fold_bound {α : Type} {f : ℝ → α → ℝ} (h : ∀ d i, f d i ≤ d) {v : ℝ} {l : List α} {i : α} (hi : i ∈ l) (hv : ∀ d, f d i ≤ v) (d : ℝ) :
    l.foldl f d ≤ v := by
  induction l generalizing d with
  | nil => cases hi
  | cons a l ih =>
    rcases List.mem_cons.1 hi with rfl | hi
    · exact (fold_le h l _).trans (hv d)
    · exact ih hi _

theorem fold_attain {α : Type} {f : ℝ → α → ℝ} {P : ℝ → Prop} {l : List α} (h : ∀ d, ∀ i ∈ l, f d i = d ∨ P (f d i)) (d : ℝ) :
    l.foldl f d = d ∨ P (l.foldl f d) := by
  induction l generalizing d with
  | nil => exact Or.inl rfl
  | cons a l ih =>
    rw [List.foldl_cons]
    rcases ih (fun d i hi => h d i (List.mem_cons_of_mem _ hi)) (f d a) with e | e
    · rw [e]; exact h d a List.mem_cons_self
    · exact Or.inr e

/-- **C142**: the distance function returns the least distance over the images listed, the direct one included, in spite of the two
short cuts in its loops. -/
theorem c142_distance (rx ry rz : List ℤ) (nx ny nz : ℝ) (p q : Pt) :
    distance2 rx ry rz nx ny nz p q ≤ sq p q ∧
    (∀ i ∈ rx, ∀ j ∈ ry, ∀ k ∈ rz, distance2 rx ry rz nx ny nz p q ≤ sqImage nx ny nz p q i j k) ∧
    (distance2 rx ry rz nx ny nz p q = sq p q ∨ ∃ i ∈ rx, ∃ j ∈ ry, ∃ k ∈ rz, distance2 rx ry rz nx ny nz p q = sqImage nx ny nz p q i j k) := by
  have z1 : ∀ a : ℝ, ∀ d : ℝ, ∀ k : ℤ, (if a + (p.z - q.z + k * nz) ^ 2 < d then a + (p.z - q.z + k * nz) ^ 2 else d) ≤ d := fun a d k => by
    split_ifs with h
    · exact h.le
    · exact le_rfl
  have z2 : ∀ a : ℝ, ∀ k : ℤ, ∀ d : ℝ, (if a + (p.z - q.z + k * nz) ^ 2 < d then a + (p.z - q.z + k * nz) ^ 2 else d) ≤ a + (p.z - q.z + k * nz) ^ 2 :=
    fun a k d => by
      split_ifs with h
      · exact le_rfl
      · exact not_lt.1 h
  have y1 : ∀ a : ℝ, ∀ d : ℝ, ∀ j : ℤ, (if (p.y - q.y + j * ny) ^ 2 ≤ d then
      rz.foldl (fun d2 (kr : ℤ) => if a + (p.y - q.y + j * ny) ^ 2 + (p.z - q.z + kr * nz) ^ 2 < d2 then a + (p.y - q.y + j * ny) ^ 2 + (p.z - q.z + kr * nz) ^ 2
        else d2) d else d) ≤ d := fun a d j => by
    split_ifs with h
    · exact fold_le (z1 _) _ _
    · exact le_rfl
  have x1 : ∀ d : ℝ, ∀ i : ℤ, (if (p.x - q.x + i * nx) ^ 2 ≤ d then ry.foldl (fun d (j : ℤ) => if (p.y - q.y + j * ny) ^ 2 ≤ d then
      rz.foldl (fun d2 (kr : ℤ) => if (p.x - q.x + i * nx) ^ 2 + (p.y - q.y + j * ny) ^ 2 + (p.z - q.z + kr * nz) ^ 2 < d2 then
        (p.x - q.x + i * nx) ^ 2 + (p.y - q.y + j * ny) ^ 2 + (p.z - q.z + kr * nz) ^ 2 else d2) d else d) d else d) ≤ d := fun d i => by
    split_ifs with h
    · exact fold_le (y1 _) _ _
    · exact le_rfl
  refine ⟨fold_le x1 _ _, fun i hi j hj k hk => ?_, ?_⟩
  · refine fold_bound x1 hi (fun d => ?_) _
    split_ifs with h
    · refine fold_bound (y1 _) hj (fun d => ?_) _
      split_ifs with h'
      · exact fold_bound (z1 _) hk (z2 _ k) _
      · unfold sqImage
        nlinarith [sq_nonneg (p.x - q.x + i * nx), sq_nonneg (p.z - q.z + k * nz)]
    · unfold sqImage
      nlinarith [sq_nonneg (p.y - q.y + j * ny), sq_nonneg (p.z - q.z + k * nz)]
  · refine fold_attain (P := fun v => ∃ i ∈ rx, ∃ j ∈ ry, ∃ k ∈ rz, v = sqImage nx ny nz p q i j k) (fun d i hi => ?_) _
    simp only
    split_ifs with h
    · refine fold_attain (P := fun v => ∃ i ∈ rx, ∃ j ∈ ry, ∃ k ∈ rz, v = sqImage nx ny nz p q i j k) (fun d j hj => ?_) _
      split_ifs with h'
      · refine fold_attain (P := fun v => ∃ i ∈ rx, ∃ j ∈ ry, ∃ k ∈ rz, v = sqImage nx ny nz p q i j k) (fun d k hk => ?_) _
        split_ifs with h''
        · exact Or.inr ⟨i, hi, j, hj, k, hk, rfl⟩
        · exact Or.inl rfl
      · exact Or.inl rfl
    · exact Or.inl rfl

theorem images_eq (s : String) : images s = [0] := rfl

theorem dist_eq (J : Job) (p q : Pt) : J.dist p q = sq p q := by
  obtain ⟨h1, _, h3⟩ := c142_distance (images J.periodic.1) (images J.periodic.2.1) (images J.periodic.2.2) J.nx J.ny J.nz p q
  rcases h3 with h | ⟨i, hi, j, hj, k, hk, h⟩
  · exact h
  · rw [images_eq, List.mem_singleton] at hi hj hk
    subst hi hj hk
    unfold Job.dist
    rw [h]
    unfold sqImage sq
    simp

theorem distance1_eq (s : String) (n x y : ℝ) : distance1 (images s) n x y = (x - y) ^ 2 := by
  simp [distance1, images_eq]

/-- **C142** violated: the option `--periodic` has no effect (a string is compared with a number); nuclei are never continued across a
periodic boundary. -/
theorem c142_violation_periodic (J : Job) (s : String × String × String) :
    (∀ p q, J.dist p q = sq p q) ∧ (∀ c, phase { J with periodic := s } c = phase J c) ∧ vs { J with periodic := s } = vs J := by
  have hp : ∀ g c, paint { J with periodic := s } g c = paint J g c := fun g c => by
    unfold paint
    simp only [distance1_eq, dist_eq]
  refine ⟨dist_eq J, fun c => ?_, ?_⟩
  · unfold phase
    simp only [hp]
  · unfold vs cells
    simp only [hp]

/-! ## Phase -/

theorem paint_sharp (J : Job) (hw : J.width = 0) (g : ℕ) (hr : 0 ≤ J.r g) (c : ℕ × ℕ × ℕ) :
    paint J g c = if sq (mid c) (J.centre g) < (J.r g) ^ 2 then some J.phaseIn else none := by
  have hd : Real.sqrt (sq (mid c) (J.centre g)) - J.r g < 0 ↔ sq (mid c) (J.centre g) < (J.r g) ^ 2 := by
    rw [sub_neg]
    constructor
    · intro h
      have := Real.sq_sqrt (sq_nonneg' (mid c) (J.centre g))
      have h0 := Real.sqrt_nonneg (sq (mid c) (J.centre g))
      nlinarith
    · intro h
      have := Real.sqrt_lt_sqrt (sq_nonneg' _ _) h
      rwa [Real.sqrt_sq hr] at this
  unfold paint
  simp only [distance1_eq, dist_eq, hw, Real.sqrt_sq hr, mul_zero, add_zero, gt_iff_lt, lt_irrefl, if_false]
  by_cases h : sq (mid c) (J.centre g) < (J.r g) ^ 2
  · have hz : ((mid c).z - (J.centre g).z) ^ 2 < (J.r g) ^ 2 := by
      unfold sq at h; nlinarith [sq_nonneg ((mid c).x - (J.centre g).x), sq_nonneg ((mid c).y - (J.centre g).y)]
    have hy : ((mid c).y - (J.centre g).y) ^ 2 < (J.r g) ^ 2 := by
      unfold sq at h; nlinarith [sq_nonneg ((mid c).x - (J.centre g).x), sq_nonneg ((mid c).z - (J.centre g).z)]
    rw [if_pos hz, if_pos hy, if_pos (hd.2 h), if_pos h]
  · have : ¬Real.sqrt (sq (mid c) (J.centre g)) - J.r g < 0 := fun g => h (hd.1 g)
    rw [if_neg this, if_neg h]
    split_ifs <;> rfl

theorem fold_getD {α : Type} (f : α → Option ℝ) (l : List α) (d : ℝ) :
    ((∀ a ∈ l, f a = none) → l.foldl (fun old g => (f g).getD old) d = d) ∧
    ((∃ a ∈ l, (f a).isSome) → ∃ a ∈ l, some (l.foldl (fun old g => (f g).getD old) d) = f a) := by
  induction l generalizing d with
  | nil => simp
  | cons b l ih =>
    obtain ⟨i1, i2⟩ := ih ((f b).getD d)
    rw [List.foldl_cons]
    constructor
    · intro h
      rw [i1 fun a ha => h a (List.mem_cons_of_mem _ ha), h b List.mem_cons_self]
      rfl
    · rintro ⟨a, ha, hs⟩
      by_cases hl : ∃ a ∈ l, (f a).isSome
      · obtain ⟨a, ha, e⟩ := i2 hl
        exact ⟨a, List.mem_cons_of_mem _ ha, e⟩
      · push Not at hl
        have hn : ∀ a ∈ l, f a = none := fun a ha => by
          have := hl a ha
          cases h : f a with
          | none => rfl
          | some v => rw [h] at this; exact absurd rfl this
        rcases List.mem_cons.1 ha with rfl | ha
        · refine ⟨a, List.mem_cons_self, ?_⟩
          rw [i1 hn]
          cases h : f a with
          | none => rw [h] at hs; cases hs
          | some v => rfl
        · rw [hn a ha] at hs; cases hs

/-- **C142**: without an interface width a cell has the inner value exactly if it lies within the radius of some nucleus. -/
theorem c142_phase_sharp (J : Job) (hw : J.width = 0) (hr : ∀ g < J.n, 0 ≤ J.r g) (c : ℕ × ℕ × ℕ) :
    ((∃ g < J.n, Real.sqrt (sq (mid c) (J.centre g)) < J.r g) → phase J c = J.phaseIn) ∧
    ((∀ g < J.n, J.r g ≤ Real.sqrt (sq (mid c) (J.centre g))) → phase J c = J.phaseOut) := by
  have hd : ∀ g < J.n, (sq (mid c) (J.centre g) < (J.r g) ^ 2 ↔ Real.sqrt (sq (mid c) (J.centre g)) < J.r g) := fun g hg => by
    rw [Real.sqrt_lt (sq_nonneg' _ _) (hr g hg)]
  obtain ⟨f1, f2⟩ := fold_getD (fun g => paint J g c) (List.range J.n) J.phaseOut
  constructor
  · rintro ⟨g, hg, h⟩
    obtain ⟨a, ha, e⟩ := f2 ⟨g, List.mem_range.2 hg, by rw [paint_sharp J hw g (hr g hg), if_pos ((hd g hg).2 h)]; rfl⟩
    have ha' := List.mem_range.1 ha
    rw [paint_sharp J hw a (hr a ha')] at e
    split_ifs at e
    · exact Option.some.inj e
  · intro h
    refine f1 fun g hg => ?_
    have hg' := List.mem_range.1 hg
    rw [paint_sharp J hw g (hr g hg'), if_neg]
    rw [hd g hg']
    exact not_lt.2 (h g hg')

/-- **C142** violated in two dimensions: the centre of a nucleus is put at height 1 while the cells are at height 1/2, so a disc asked to
have the radius `r` gets `√(r² - 1/4)`. -/
theorem c142_violation_disc (J : Job) (hw : J.width = 0) (hn : J.n = 1) (hr : 0 ≤ J.r 0) (hz : (J.centre 0).z = 1) (i j : ℕ) :
    (phase J (i, j, 0) = if ((i : ℝ) + 1 / 2 - (J.centre 0).x) ^ 2 + ((j : ℝ) + 1 / 2 - (J.centre 0).y) ^ 2 < (J.r 0) ^ 2 - 1 / 4 then J.phaseIn else J.phaseOut) := by
  unfold phase
  rw [hn]
  simp only [List.range_succ, List.range_zero, List.nil_append, List.foldl_cons, List.foldl_nil]
  rw [paint_sharp J hw 0 hr]
  have : sq (mid (i, j, 0)) (J.centre 0) < (J.r 0) ^ 2 ↔
      ((i : ℝ) + 1 / 2 - (J.centre 0).x) ^ 2 + ((j : ℝ) + 1 / 2 - (J.centre 0).y) ^ 2 < (J.r 0) ^ 2 - 1 / 4 := by
    unfold sq mid
    rw [hz]
    simp only
    norm_num
    constructor <;> intro h <;> linarith
  by_cases h : sq (mid (i, j, 0)) (J.centre 0) < (J.r 0) ^ 2
  · rw [if_pos h, if_pos (this.1 h)]; rfl
  · rw [if_neg h, if_neg (fun g => h (this.2 g))]; rfl

/-! ## Volumes and nominal composition -/

theorem paint_near (J : Job) (g : ℕ) (hr : 0 ≤ J.r g) (hw : 0 ≤ J.width) (c : ℕ × ℕ × ℕ) (h : (paint J g c).isSome) :
    Real.sqrt (sq (mid c) (J.centre g)) < J.r g + 8 * J.width := by
  unfold paint at h
  simp only [dist_eq, Real.sqrt_sq hr] at h
  split_ifs at h with h1 h2 h3 h4 h5
  · linarith
  · cases h
  · linarith
  all_goals cases h

/-- **C142**: nuclei of one radius that keep the distance of four radii imposed by the script do not overlap, if the radius is eight
interface widths or more. -/
theorem c142_apart (J : Job) (R : ℝ) (hR : 0 ≤ R) (hr : ∀ g < J.n, J.r g = R) (hw : 0 ≤ J.width) (hw' : 8 * J.width ≤ R) (hs : Spaced J.n J.centre (4 * R)) :
    Apart J := by
  intro c _ g hg h hh pg ph
  by_contra hne
  have a := paint_near J g (by rw [hr g hg]; exact hR) hw c pg
  have b := paint_near J h (by rw [hr h hh]; exact hR) hw c ph
  rw [hr g hg] at a
  rw [hr h hh] at b
  have t := tri (J.centre g) (mid c) (J.centre h)
  rw [sq_comm (J.centre g) (mid c)] at t
  have := hs g hg h hh hne
  linarith

theorem phase_of_painters (J : Job) (c : ℕ × ℕ × ℕ) : (painters J c = ∅ → phase J c = J.phaseOut) ∧
    (painters J c ≠ ∅ → ∃ g ∈ painters J c, paint J g c = some (phase J c)) := by
  obtain ⟨f1, f2⟩ := fold_getD (fun g => paint J g c) (List.range J.n) J.phaseOut
  constructor
  · intro h
    refine f1 fun g hg => ?_
    by_contra hn
    have : g ∈ painters J c := by
      unfold painters
      rw [Finset.mem_filter, Finset.mem_range]
      exact ⟨List.mem_range.1 hg, Option.isSome_iff_ne_none.2 hn⟩
    rw [h] at this
    exact absurd this (Finset.notMem_empty g)
  · intro h
    obtain ⟨g, hg⟩ := Finset.nonempty_iff_ne_empty.2 h
    unfold painters at hg
    rw [Finset.mem_filter, Finset.mem_range] at hg
    obtain ⟨a, ha, e⟩ := f2 ⟨g, List.mem_range.2 hg.1, hg.2⟩
    refine ⟨a, ?_, e.symm⟩
    unfold painters
    rw [Finset.mem_filter, Finset.mem_range]
    refine ⟨List.mem_range.1 ha, ?_⟩
    rw [← e]; rfl

theorem vs_by_cell (J : Job) : vs J = ∑ c ∈ cells J, ∑ g ∈ painters J c, (paint J g c).getD 0 := by
  unfold vs
  rw [Finset.sum_comm]
  refine Finset.sum_congr rfl fun c _ => ?_
  unfold painters
  rw [Finset.sum_filter]
  refine Finset.sum_congr rfl fun g _ => ?_
  split_ifs with h
  · rfl
  · rw [Option.not_isSome_iff_eq_none.1 h]; rfl

theorem sum_cells_one (J : Job) : ∑ _c ∈ cells J, (1 : ℝ) = vol J := by
  unfold cells vol
  simp [Finset.card_product]
  ring

/-- **C142**: if no cell is set twice and the surroundings have phase 0, the volume of solid used for the composition is that in the file. -/
theorem c142_solid_volume_partial (J : Job) (ha : Apart J) (h0 : J.phaseOut = 0) : vs J = solid J := by
  rw [vs_by_cell]
  unfold solid
  refine Finset.sum_congr rfl fun c hc => ?_
  obtain ⟨p1, p2⟩ := phase_of_painters J c
  by_cases h : painters J c = ∅
  · rw [h, p1 h, h0]; simp
  · obtain ⟨g, hg, e⟩ := p2 h
    have : painters J c = {g} := by
      refine Finset.eq_singleton_iff_unique_mem.2 ⟨hg, fun k hk => ?_⟩
      unfold painters at hg hk
      rw [Finset.mem_filter, Finset.mem_range] at hg hk
      exact ha c hc k hk.1 g hg.1 hk.2 hg.2
    rw [this, Finset.sum_singleton, e]
    rfl

theorem paint_pos (J : Job) (hin : 0 < J.phaseIn) (g : ℕ) (c : ℕ × ℕ × ℕ) (v : ℝ) (h : paint J g c = some v) : 0 < v := by
  unfold paint at h
  simp only at h
  split_ifs at h with h1 h2 h3 h4 h5
  · rw [Option.some.injEq] at h
    rw [← h]
    have := Real.neg_one_lt_tanh (-1 * (Real.sqrt (J.dist (mid c) (J.centre g)) - Real.sqrt (J.r g ^ 2)) / (2 * J.width))
    refine mul_pos (by positivity) (by linarith)
  · rw [Option.some.injEq] at h
    rw [← h]; exact hin

/-- **C142** violated where nuclei overlap: the volume used for the composition counts a cell once for every nucleus that sets it; with
phase 0 outside it is too large exactly if some cell is set twice. -/
theorem c142_violation_overlap (J : Job) (hin : 0 < J.phaseIn) (h0 : J.phaseOut = 0) : solid J ≤ vs J ∧ (solid J = vs J ↔ Apart J) := by
  have hcell : ∀ c, phase J c ≤ ∑ g ∈ painters J c, (paint J g c).getD 0 ∧
      (2 ≤ (painters J c).card → phase J c < ∑ g ∈ painters J c, (paint J g c).getD 0) := fun c => by
    have hpos : ∀ g ∈ painters J c, 0 < (paint J g c).getD 0 := fun g hg => by
      unfold painters at hg
      rw [Finset.mem_filter] at hg
      obtain ⟨v, hv⟩ := Option.isSome_iff_exists.1 hg.2
      rw [hv]
      exact paint_pos J hin g c v hv
    obtain ⟨p1, p2⟩ := phase_of_painters J c
    by_cases h : painters J c = ∅
    · rw [p1 h, h, h0]; simp
    · obtain ⟨g, hg, e⟩ := p2 h
      have e' : (paint J g c).getD 0 = phase J c := by rw [e]; rfl
      have hsplit := Finset.add_sum_erase (painters J c) (fun g => (paint J g c).getD 0) hg
      rw [e'] at hsplit
      have hrest : 0 ≤ ∑ g ∈ (painters J c).erase g, (paint J g c).getD 0 :=
        Finset.sum_nonneg fun k hk => (hpos k (Finset.mem_of_mem_erase hk)).le
      refine ⟨by linarith, fun h2 => ?_⟩
      have : 0 < ∑ g ∈ (painters J c).erase g, (paint J g c).getD 0 := by
        refine Finset.sum_pos (fun k hk => hpos k (Finset.mem_of_mem_erase hk)) ?_
        rw [← Finset.card_pos, Finset.card_erase_of_mem hg]
        omega
      linarith
  have hle : solid J ≤ vs J := by
    rw [vs_by_cell]
    exact Finset.sum_le_sum fun c _ => (hcell c).1
  refine ⟨hle, fun h => ?_, fun h => (c142_solid_volume_partial J h h0).symm⟩
  by_contra hn
  unfold Apart at hn
  push Not at hn
  obtain ⟨c, hc, g, hg, k, hk, pg, pk, hne⟩ := hn
  have : solid J < vs J := by
    rw [vs_by_cell]
    refine Finset.sum_lt_sum (fun c _ => (hcell c).1) ⟨c, hc, (hcell c).2 ?_⟩
    have hg' : g ∈ painters J c := by unfold painters; rw [Finset.mem_filter, Finset.mem_range]; exact ⟨hg, pg⟩
    have hk' : k ∈ painters J c := by unfold painters; rw [Finset.mem_filter, Finset.mem_range]; exact ⟨hk, pk⟩
    exact Finset.one_lt_card.2 ⟨g, hg', k, hk', hne⟩
  linarith

theorem getD_get (l : List ℝ) {s : ℕ} (hs : s < l.length) : l.getD s 0 = l[s] := by simp [hs]

/-- What the script writes for a nominal composition and a composition inside, all entries different. -/
theorem composition_eq (J : Job) (c ci : List ℝ) (hl : ci.length = c.length) (hne : c ≠ []) (hd : c.Nodup) (hv : 0 < vl J) :
    composition J ⟨some c, some ci, none⟩ = some ((List.range c.length).map fun s => fun p =>
      ci.getD s 0 * phase J p + (c.getD s 0 * vol J - ci.getD s 0 * vs J) / vl J * (1 - phase J p)) := by
  have hlen : c.length ≠ 0 := fun h => hne (List.length_eq_zero_iff.1 h)
  unfold composition readComps outsideComp
  simp only [Option.isSome_some, Bool.or_self, if_true, hd.dedup, if_neg hlen, Option.map_some, gt_iff_lt, hv, List.length_replicate, le_refl,
    hl, and_self, List.length_append, List.length_map, List.length_range, List.drop_replicate, Nat.sub_self, List.replicate_zero, List.append_nil]
  congr 1
  refine List.map_congr_left fun s hs => ?_
  have hs' := List.mem_range.1 hs
  funext p
  have : ((List.range c.length).map (fun s => (c.getD s 0 * vol J - ci.getD s 0 * vs J) / vl J)).getD s 0
      = (c.getD s 0 * vol J - ci.getD s 0 * vs J) / vl J := by
    rw [getD_get _ (by simpa using hs')]
    simp
  rw [this]

theorem total_composition (J : Job) (a b : ℝ) : ∑ p ∈ cells J, (a * phase J p + b * (1 - phase J p)) = a * solid J + b * (vol J - solid J) := by
  have : ∀ p, a * phase J p + b * (1 - phase J p) = (a - b) * phase J p + b * 1 := fun p => by ring
  simp only [this]
  rw [Finset.sum_add_distrib, ← Finset.mul_sum, ← Finset.mul_sum, sum_cells_one]
  unfold solid
  ring

/-- **C142**: for nuclei that do not overlap in surroundings of phase 0 the mean of each species in the file is the nominal one. -/
theorem c142_nominal_partial (J : Job) (c ci : List ℝ) (hl : ci.length = c.length) (hne : c ≠ []) (hd : c.Nodup) (hv : 0 < vl J)
    (ha : Apart J) (h0 : J.phaseOut = 0) :
    ∃ fs, composition J ⟨some c, some ci, none⟩ = some fs ∧ fs.length = c.length ∧
      ∀ s, ∀ hs : s < c.length, ∀ f, fs[s]? = some f → ∑ p ∈ cells J, f p = c[s] * vol J := by
  refine ⟨_, composition_eq J c ci hl hne hd hv, by simp, fun s hs f hf => ?_⟩
  simp only [List.getElem?_map, List.getElem?_range hs, Option.map_some, Option.some.injEq] at hf
  rw [← hf, total_composition, ← c142_solid_volume_partial J ha h0, getD_get _ hs]
  have : vol J - vs J = vl J := rfl
  rw [this]
  field_simp
  ring

/-- **C142** violated otherwise: the mean of a species misses the nominal one by the difference of the two compositions times the error
of the volume of solid. -/
theorem c142_violation_nominal (J : Job) (c ci : List ℝ) (hl : ci.length = c.length) (hne : c ≠ []) (hd : c.Nodup) (hv : 0 < vl J) :
    ∃ fs, composition J ⟨some c, some ci, none⟩ = some fs ∧
      ∀ s, ∀ hs : s < c.length, ∀ f, fs[s]? = some f →
        (∑ p ∈ cells J, f p - c[s] * vol J = (ci.getD s 0 - (c[s] * vol J - ci.getD s 0 * vs J) / vl J) * (solid J - vs J)) ∧
        ((∑ p ∈ cells J, f p = c[s] * vol J) ↔ solid J = vs J ∨ ci.getD s 0 = c[s] ∨ vol J = 0) := by
  refine ⟨_, composition_eq J c ci hl hne hd hv, fun s hs f hf => ?_⟩
  simp only [List.getElem?_map, List.getElem?_range hs, Option.map_some, Option.some.injEq] at hf
  have key : ∑ p ∈ cells J, f p - c[s] * vol J = (ci.getD s 0 - (c[s] * vol J - ci.getD s 0 * vs J) / vl J) * (solid J - vs J) := by
    rw [← hf, total_composition, getD_get c hs]
    have : vol J = vl J + vs J := by unfold vl; ring
    rw [this]
    field_simp
    ring
  refine ⟨key, ?_⟩
  rw [← sub_eq_zero, key, mul_eq_zero, sub_eq_zero (b := vs J)]
  have : ci.getD s 0 - (c[s] * vol J - ci.getD s 0 * vs J) / vl J = (ci.getD s 0 - c[s]) * vol J / vl J := by
    have : vl J = vol J - vs J := rfl
    field_simp
    rw [this]
    ring
  rw [this, div_eq_zero_iff, mul_eq_zero, sub_eq_zero]
  constructor
  · rintro (((h | h) | h) | h)
    · exact Or.inr (Or.inl h)
    · exact Or.inr (Or.inr h)
    · exact absurd h hv.ne'
    · exact Or.inl h
  · rintro (h | h | h)
    · exact Or.inr h
    · exact Or.inl (Or.inl (Or.inl h))
    · exact Or.inl (Or.inl (Or.inr h))

/-- **C142** violated: nothing keeps the composition outside between 0 and 1; a cell outside is given a negative amount of a species as
soon as the nuclei hold more of it than the whole should. -/
theorem c142_violation_negative (J : Job) (c ci : List ℝ) (hl : ci.length = c.length) (hne : c ≠ []) (hd : c.Nodup) (hv : 0 < vl J)
    (s : ℕ) (hs : s < c.length) (p : ℕ × ℕ × ℕ) (hp : phase J p = 0) :
    ∃ fs f, composition J ⟨some c, some ci, none⟩ = some fs ∧ fs[s]? = some f ∧ (f p < 0 ↔ c[s] * vol J < ci.getD s 0 * vs J) := by
  refine ⟨_, _, composition_eq J c ci hl hne hd hv, by simp only [List.getElem?_map, List.getElem?_range hs, Option.map_some]; rfl, ?_⟩
  simp only [hp, getD_get c hs, mul_zero, zero_add, sub_zero, mul_one]
  rw [div_lt_iff₀ hv, zero_mul]
  constructor <;> intro h <;> linarith

/-- **C142** violated by combinations of options: a nominal composition alone stops the script; with compositions for both regions as well
it stops if there is any solid; a composition of the surroundings alone is ignored (the file has no composition); species with equal
nominal compositions are taken for one, the others being left out. -/
theorem c142_violation_options (J : Job) (c ci co : List ℝ) (x a b : ℝ) :
    composition J ⟨some c, none, none⟩ = none ∧ composition J ⟨none, none, some co⟩ = some [] ∧
    (c ≠ [] → ci.length = c.length → 0 < vs J → composition J ⟨some c, some ci, some co⟩ = none) ∧
    (0 < vl J → ∃ f, composition J ⟨some [x, x], some [a, b], none⟩ = some [f]) := by
  classical
  refine ⟨rfl, rfl, fun hne hl hv => ?_, fun hv => ?_⟩
  · have hlen : c.dedup.length ≠ 0 := fun h => hne ((List.dedup_eq_nil _).1 (List.length_eq_zero_iff.1 h))
    unfold composition readComps outsideComp
    simp only [Option.isSome_some, Bool.or_self, if_true, Option.map_some, gt_iff_lt, hv]
    rw [if_neg hlen, if_neg hlen]
  · have hx : ([x, x] : List ℝ).dedup = [x] := by simp
    unfold composition readComps outsideComp
    simp only [Option.isSome_some, Bool.or_self, if_true, hx, List.length_singleton, one_ne_zero, if_false, Option.map_some, gt_iff_lt, hv]
    simp

/-! ## Distances between nuclei -/

theorem foldm_le {α σ : Type} (m : σ → ℝ) {f : σ → α → σ} (h : ∀ d i, m (f d i) ≤ m d) (l : List α) (d : σ) : m (l.foldl f d) ≤ m d := by
  induction l generalizing d with
  | nil => exact le_rfl
  | cons a l ih => exact (ih _).trans (h _ _)

theorem foldm_bound {α σ : Type} (m : σ → ℝ) {f : σ → α → σ} (h : ∀ d i, m (f d i) ≤ m d) {v : ℝ} {l : List α} {i : α} (hi : i ∈ l)
    (hv : ∀ d, m (f d i) ≤ v) (d : σ) : m (l.foldl f d) ≤ v := by
  induction l generalizing d with
  | nil => cases hi
  | cons a l ih =>
    rcases List.mem_cons.1 hi with rfl | hi
    · exact (foldm_le m h l _).trans (hv d)
    · exact ih hi _

theorem fold_inv {α σ : Type} (P : σ → Prop) {f : σ → α → σ} {l : List α} (h : ∀ d, ∀ i ∈ l, P d → P (f d i)) (d : σ) (h0 : P d) : P (l.foldl f d) := by
  induction l generalizing d with
  | nil => exact h0
  | cons a l ih => exact ih (fun d i hi => h d i (List.mem_cons_of_mem _ hi)) _ (h d a List.mem_cons_self h0)

/-- Vector from `p` to an image of `q`. -/
def toImage (nx ny nz : ℝ) (p q : Pt) (i j k : ℝ) : Pt := ⟨q.x - p.x + i * nx, q.y - p.y + j * ny, q.z - p.z + k * nz⟩

/-- Length of a vector. -/
noncomputable def len (v : Pt) : ℝ := Real.sqrt (v.x * v.x + v.y * v.y + v.z * v.z)

theorem len_ge_x (v : Pt) : v.x ≤ len v := by
  have : |v.x| ≤ len v := Real.abs_le_sqrt (by nlinarith [mul_self_nonneg v.y, mul_self_nonneg v.z])
  exact (le_abs_self _).trans this

theorem len_ge_y (v : Pt) : v.y ≤ len v := by
  have : |v.y| ≤ len v := Real.abs_le_sqrt (by nlinarith [mul_self_nonneg v.x, mul_self_nonneg v.z])
  exact (le_abs_self _).trans this

/-- The three image indices. -/
def Near (i : ℝ) : Prop := i = 0 ∨ i = -1 ∨ i = 1

theorem near_mem {i : ℝ} : Near i ↔ i ∈ ([0, -1, 1] : List ℝ) := by
  unfold Near
  simp

/-- A state of the search. -/
def Found (nx ny nz : ℝ) (p q : Pt) (b : Closest) : Prop := b = ⟨1000, nx, ny, nz⟩ ∨ ∃ i j k, Near i ∧ Near j ∧ Near k ∧
  b = ⟨len (toImage nx ny nz p q i j k), (toImage nx ny nz p q i j k).x, (toImage nx ny nz p q i j k).y, (toImage nx ny nz p q i j k).z⟩

theorem closest_spec (nx ny nz : ℝ) (p q : Pt) :
    (closest nx ny nz p q).dr ≤ 1000 ∧ (∀ i j k, Near i → Near j → Near k → (closest nx ny nz p q).dr ≤ len (toImage nx ny nz p q i j k)) ∧
    (closest nx ny nz p q = ⟨1000, nx, ny, nz⟩ ∨ ∃ i j k, Near i ∧ Near j ∧ Near k ∧
      (closest nx ny nz p q) = ⟨len (toImage nx ny nz p q i j k), (toImage nx ny nz p q i j k).x, (toImage nx ny nz p q i j k).y, (toImage nx ny nz p q i j k).z⟩) := by
  have z1 : ∀ fi fj : ℝ, ∀ b : Closest, ∀ fk : ℝ, (if len (toImage nx ny nz p q fi fj fk) < b.dr then
      (⟨len (toImage nx ny nz p q fi fj fk), (toImage nx ny nz p q fi fj fk).x, (toImage nx ny nz p q fi fj fk).y, (toImage nx ny nz p q fi fj fk).z⟩ : Closest)
      else b).dr ≤ b.dr := fun fi fj b fk => by
    split_ifs with h
    · exact h.le
    · exact le_rfl
  have z2 : ∀ fi fj fk : ℝ, ∀ b : Closest, (if len (toImage nx ny nz p q fi fj fk) < b.dr then
      (⟨len (toImage nx ny nz p q fi fj fk), (toImage nx ny nz p q fi fj fk).x, (toImage nx ny nz p q fi fj fk).y, (toImage nx ny nz p q fi fj fk).z⟩ : Closest)
      else b).dr ≤ len (toImage nx ny nz p q fi fj fk) := fun fi fj fk b => by
    split_ifs with h
    · exact le_rfl
    · exact not_lt.1 h
  have y1 : ∀ fi : ℝ, ∀ b : Closest, ∀ fj : ℝ, (if (toImage nx ny nz p q fi fj 0).y < b.dr then
      ([0, -1, 1] : List ℝ).foldl (fun (b : Closest) (fk : ℝ) => if len (toImage nx ny nz p q fi fj fk) < b.dr then
      (⟨len (toImage nx ny nz p q fi fj fk), (toImage nx ny nz p q fi fj fk).x, (toImage nx ny nz p q fi fj fk).y, (toImage nx ny nz p q fi fj fk).z⟩ : Closest)
      else b) b else b).dr ≤ b.dr := fun fi b fj => by
    split_ifs with h
    · exact foldm_le Closest.dr (z1 fi fj) _ _
    · exact le_rfl
  have x1 : ∀ b : Closest, ∀ fi : ℝ, (if (toImage nx ny nz p q fi 0 0).x < b.dr then
      ([0, -1, 1] : List ℝ).foldl (fun (b : Closest) (fj : ℝ) => if (toImage nx ny nz p q fi fj 0).y < b.dr then
      ([0, -1, 1] : List ℝ).foldl (fun (b : Closest) (fk : ℝ) => if len (toImage nx ny nz p q fi fj fk) < b.dr then
      (⟨len (toImage nx ny nz p q fi fj fk), (toImage nx ny nz p q fi fj fk).x, (toImage nx ny nz p q fi fj fk).y, (toImage nx ny nz p q fi fj fk).z⟩ : Closest)
      else b) b else b) b else b).dr ≤ b.dr := fun b fi => by
    split_ifs with h
    · exact foldm_le Closest.dr (y1 fi) _ _
    · exact le_rfl
  refine ⟨foldm_le Closest.dr x1 _ _, fun i j k hi hj hk => ?_, ?_⟩
  · refine foldm_bound Closest.dr x1 (near_mem.1 hi) (fun b => ?_) _
    split_ifs with h
    · refine foldm_bound Closest.dr (y1 i) (near_mem.1 hj) (fun b => ?_) _
      split_ifs with h'
      · exact foldm_bound Closest.dr (z1 i j) (near_mem.1 hk) (z2 i j k) _
      · exact (not_lt.1 h').trans (len_ge_y (toImage nx ny nz p q i j k))
    · exact (not_lt.1 h).trans (len_ge_x (toImage nx ny nz p q i j k))
  · unfold closest
    refine fold_inv (Found nx ny nz p q) (fun b fi hfi hb => ?_) _ (Or.inl rfl)
    simp only
    split_ifs with h
    · refine fold_inv (Found nx ny nz p q) (fun b fj hfj hb => ?_) _ hb
      split_ifs with h'
      · refine fold_inv (Found nx ny nz p q) (fun b fk hfk hb => ?_) _ hb
        split_ifs with h''
        · exact Or.inr ⟨fi, fj, fk, near_mem.2 hfi, near_mem.2 hfj, near_mem.2 hfk, rfl⟩
        · exact hb
      · exact hb
    · exact hb

theorem pairs_zero {n : ℕ} {nx ny nz drmin : ℝ} {c : ℕ → Pt} (h : pairs n nx ny nz drmin c = 0) {i j : ℕ} (hi : i < j) (hj : j < n) :
    drmin ≤ (closest nx ny nz (c i) (c j)).dr := by
  unfold pairs at h
  rw [Finset.sum_eq_zero_iff] at h
  have h1 := h i (Finset.mem_range.2 (hi.trans hj))
  rw [Finset.sum_eq_zero_iff] at h1
  have h2 := h1 j (Finset.mem_range.2 hj)
  by_contra hn
  rw [if_pos ⟨hi, not_le.1 hn⟩] at h2
  exact absurd h2 one_ne_zero

theorem move_rest {n : ℕ} {nx ny nz drmin : ℝ} {rnd : ℕ → ℕ → Pt} {c : ℕ → Pt} (h : pairs n nx ny nz drmin c = 0) {k : ℕ} (hk : k < n) :
    move n nx ny nz drmin rnd c k = c k := by
  have hF : ∀ i j, i < j → j < n → push drmin (closest nx ny nz (c i) (c j)) (rnd i j) = ⟨0, 0, 0⟩ := fun i j hi hj => by
    unfold push
    rw [if_neg (not_lt.2 (pairs_zero h hi hj))]
  have key : ∀ proj : Pt → ℝ, proj ⟨0, 0, 0⟩ = 0 →
      ∑ j ∈ Finset.range n, (if k < j then -proj (push drmin (closest nx ny nz (c k) (c j)) (rnd k j)) else
        if j < k then proj (push drmin (closest nx ny nz (c j) (c k)) (rnd j k)) else 0) = 0 := fun proj hp => by
    refine Finset.sum_eq_zero fun j hj => ?_
    have hj' := Finset.mem_range.1 hj
    split_ifs with h1 h2
    · rw [hF k j h1 hj', hp, neg_zero]
    · rw [hF j k h2 hk, hp]
    · rfl
  unfold move
  simp only
  rw [key Pt.x rfl, key Pt.y rfl, key Pt.z rfl]
  simp

/-- **C142**: when the loop that moves the nuclei apart ends, all pairs, periodic images included, keep the distance. -/
theorem c142_separated (n : ℕ) (nx ny nz drmin : ℝ) (rnd : ℕ → ℕ → ℕ → Pt) (fuel : ℕ) (c c' : ℕ → Pt)
    (h : imposeMinDistance n nx ny nz drmin rnd fuel c = some c') :
    (∀ i < n, ∀ j < n, i < j → ∀ a b d, Near a → Near b → Near d → drmin ≤ len (toImage nx ny nz (c' i) (c' j) a b d)) ∧ Spaced n c' drmin := by
  have main : ∀ i < n, ∀ j < n, i < j → ∀ a b d, Near a → Near b → Near d → drmin ≤ len (toImage nx ny nz (c' i) (c' j) a b d) := by
    induction fuel generalizing c with
    | zero => cases h
    | succ fuel ih =>
      rw [imposeMinDistance] at h
      split_ifs at h with hp
      · exact ih _ h
      · have hz : pairs n nx ny nz drmin c = 0 := Nat.eq_zero_of_not_pos hp
        rw [Option.some.injEq] at h
        intro i hi j hj hij a b d ha hb hd
        rw [← h, move_rest hz hi, move_rest hz hj]
        exact (pairs_zero hz hij hj).trans ((closest_spec nx ny nz (c i) (c j)).2.1 a b d ha hb hd)
  refine ⟨main, fun i hi j hj hij => ?_⟩
  have e : ∀ p q : Pt, len (toImage nx ny nz p q 0 0 0) = Real.sqrt (sq p q) := fun p q => by
    unfold len toImage sq
    simp only [zero_mul, add_zero]
    congr 1
    ring
  rcases lt_or_gt_of_ne hij with g | g
  · have := main i hi j hj g 0 0 0 (Or.inl rfl) (Or.inl rfl) (Or.inl rfl)
    rwa [e] at this
  · have := main j hj i hi g 0 0 0 (Or.inl rfl) (Or.inl rfl) (Or.inl rfl)
    rwa [e, sq_comm] at this

/-- **C142** violated: for two or more nuclei and a distance above 1000 cells (a radius above 250) the loop never ends, however large the
domain, since the search for the closest image starts from 1000. -/
theorem c142_violation_never_ends (n : ℕ) (hn : 2 ≤ n) (nx ny nz drmin : ℝ) (hd : 1000 < drmin) (rnd : ℕ → ℕ → ℕ → Pt) (fuel : ℕ) (c : ℕ → Pt) :
    imposeMinDistance n nx ny nz drmin rnd fuel c = none := by
  induction fuel generalizing c with
  | zero => rfl
  | succ fuel ih =>
    rw [imposeMinDistance]
    rw [if_pos, ih]
    by_contra hp
    have := pairs_zero (Nat.eq_zero_of_not_pos hp) (i := 0) (j := 1) (by norm_num) (by omega)
    have h2 := (closest_spec nx ny nz (c 0) (c 1)).1
    linarith

/-- **C142**: two nuclei that are too close are moved apart, along the line joining them, to a little more than the distance asked for, in
one pass. -/
theorem c142_push (nx ny nz drmin : ℝ) (rnd : ℕ → ℕ → Pt) (c : ℕ → Pt) (h0 : (closest nx ny nz (c 0) (c 1)).dr < 1000)
    (h1 : 0.000001 < (closest nx ny nz (c 0) (c 1)).dr) (h2 : (closest nx ny nz (c 0) (c 1)).dr < drmin) :
    ∃ i j k s, Near i ∧ Near j ∧ Near k ∧ 1 < s ∧
      (toImage nx ny nz (move 2 nx ny nz drmin rnd c 0) (move 2 nx ny nz drmin rnd c 1) i j k)
        = ⟨s * (toImage nx ny nz (c 0) (c 1) i j k).x, s * (toImage nx ny nz (c 0) (c 1) i j k).y, s * (toImage nx ny nz (c 0) (c 1) i j k).z⟩ ∧
      len (toImage nx ny nz (move 2 nx ny nz drmin rnd c 0) (move 2 nx ny nz drmin rnd c 1) i j k) = drmin + 0.0001 := by
  obtain ⟨_, _, h3⟩ := closest_spec nx ny nz (c 0) (c 1)
  rcases h3 with h3 | ⟨i, j, k, hi, hj, hk, h3⟩
  · rw [h3] at h0
    exact absurd h0 (lt_irrefl _)
  · set v := toImage nx ny nz (c 0) (c 1) i j k with hv
    rw [h3] at h1 h2
    simp only at h1 h2
    have hL : 0 < len v := lt_trans (by norm_num) h1
    set L := len v with hLdef
    have hp : push drmin (closest nx ny nz (c 0) (c 1)) (rnd 0 1) =
        ⟨0.5 * (drmin - L + 0.0001) * v.x * (1 / L), 0.5 * (drmin - L + 0.0001) * v.y * (1 / L), 0.5 * (drmin - L + 0.0001) * v.z * (1 / L)⟩ := by
      unfold push
      rw [h3]
      simp only
      rw [if_pos h2, if_pos h1]
    have m0 : move 2 nx ny nz drmin rnd c 0 = ⟨(c 0).x - (push drmin (closest nx ny nz (c 0) (c 1)) (rnd 0 1)).x,
        (c 0).y - (push drmin (closest nx ny nz (c 0) (c 1)) (rnd 0 1)).y, (c 0).z - (push drmin (closest nx ny nz (c 0) (c 1)) (rnd 0 1)).z⟩ := by
      unfold move
      simp [Finset.sum_range_succ, sub_eq_add_neg]
    have m1 : move 2 nx ny nz drmin rnd c 1 = ⟨(c 1).x + (push drmin (closest nx ny nz (c 0) (c 1)) (rnd 0 1)).x,
        (c 1).y + (push drmin (closest nx ny nz (c 0) (c 1)) (rnd 0 1)).y, (c 1).z + (push drmin (closest nx ny nz (c 0) (c 1)) (rnd 0 1)).z⟩ := by
      unfold move
      simp [Finset.sum_range_succ]
    have hs : 1 < (drmin + 0.0001) / L := by
      rw [lt_div_iff₀ hL]
      have : (0 : ℝ) < 0.0001 := by norm_num
      linarith
    have hvec : toImage nx ny nz (move 2 nx ny nz drmin rnd c 0) (move 2 nx ny nz drmin rnd c 1) i j k
        = ⟨(drmin + 0.0001) / L * v.x, (drmin + 0.0001) / L * v.y, (drmin + 0.0001) / L * v.z⟩ := by
      rw [m0, m1, hp]
      unfold toImage
      simp only [Pt.mk.injEq]
      have ex : v.x = (c 1).x - (c 0).x + i * nx := rfl
      have ey : v.y = (c 1).y - (c 0).y + j * ny := rfl
      have ez : v.z = (c 1).z - (c 0).z + k * nz := rfl
      have aux : ∀ a b t w : ℝ, w = b - a + t → b + 0.5 * (drmin - L + 0.0001) * w * (1 / L) - (a - 0.5 * (drmin - L + 0.0001) * w * (1 / L)) + t
          = (drmin + 0.0001) / L * w := fun a b t w e => by
        have : b = w + a - t := by linarith
        rw [this]
        field_simp
        ring
      exact ⟨aux _ _ _ _ ex, aux _ _ _ _ ey, aux _ _ _ _ ez⟩
    refine ⟨i, j, k, (drmin + 0.0001) / L, hi, hj, hk, hs, hvec, ?_⟩
    rw [hvec]
    have hpos : 0 < (drmin + 0.0001) / L := lt_trans one_pos hs
    have : len ⟨(drmin + 0.0001) / L * v.x, (drmin + 0.0001) / L * v.y, (drmin + 0.0001) / L * v.z⟩ = (drmin + 0.0001) / L * L := by
      have e : ∀ s : ℝ, 0 ≤ s → len ⟨s * v.x, s * v.y, s * v.z⟩ = s * L := fun s hs => by
        rw [hLdef]
        unfold len
        simp only
        rw [show s * v.x * (s * v.x) + s * v.y * (s * v.y) + s * v.z * (s * v.z) = s ^ 2 * (v.x * v.x + v.y * v.y + v.z * v.z) by ring,
          Real.sqrt_mul (sq_nonneg s), Real.sqrt_sq hs]
      exact e _ hpos.le
    rw [this]
    field_simp

/-! ## Orientation -/

theorem search_spec (dist : ℕ → ℝ) (h2 : ℝ) (l : List ℕ) (d : ℝ) (gmin : ℕ) (hd : d = dist gmin) :
    (search dist h2 l d gmin = gmin ∨ search dist h2 l d gmin ∈ l) ∧
    (dist (search dist h2 l d gmin) < h2 ∨ (dist (search dist h2 l d gmin) ≤ dist gmin ∧ ∀ g ∈ l, dist (search dist h2 l d gmin) ≤ dist g)) := by
  induction l generalizing d gmin with
  | nil => exact ⟨Or.inl rfl, Or.inr ⟨le_rfl, fun g hg => by cases hg⟩⟩
  | cons a l ih =>
    rw [search]
    split_ifs with g1 g2
    · exact ⟨Or.inr List.mem_cons_self, Or.inl g2⟩
    · obtain ⟨i1, i2⟩ := ih (dist a) a rfl
      refine ⟨Or.inr ?_, ?_⟩
      · rcases i1 with e | e
        · rw [e]; exact List.mem_cons_self
        · exact List.mem_cons_of_mem _ e
      · rcases i2 with e | ⟨e1, e2⟩
        · exact Or.inl e
        · refine Or.inr ⟨e1.trans (hd ▸ g1.le), fun g hg => ?_⟩
          rcases List.mem_cons.1 hg with rfl | hg
          · exact e1
          · exact e2 g hg
    · obtain ⟨i1, i2⟩ := ih d gmin hd
      refine ⟨?_, ?_⟩
      · rcases i1 with e | e
        · exact Or.inl e
        · exact Or.inr (List.mem_cons_of_mem _ e)
      · rcases i2 with e | ⟨e1, e2⟩
        · exact Or.inl e
        · refine Or.inr ⟨e1, fun g hg => ?_⟩
          rcases List.mem_cons.1 hg with rfl | hg
          · exact e1.trans (hd ▸ not_lt.1 g1)
          · exact e2 g hg

theorem owner_nearest (n : ℕ) (R : ℝ) (hR : 0 ≤ R) (centre : ℕ → Pt) (hs : Spaced n centre (4 * R)) (p : Pt) (gmin : ℕ) (hg : gmin < n) :
    owner n R (fun g => sq p (centre g)) gmin < n ∧
    ∀ g < n, sq p (centre (owner n R (fun g => sq p (centre g)) gmin)) ≤ sq p (centre g) := by
  have half : (0.25 : ℝ) * (4 * R) * (4 * R) = (2 * R) ^ 2 := by ring
  have close : ∀ k < n, sq p (centre k) ≤ (2 * R) ^ 2 → ∀ g < n, sq p (centre k) ≤ sq p (centre g) := fun k hk h g hg => by
    by_cases e : k = g
    · rw [e]
    · have h1 : Real.sqrt (sq p (centre k)) ≤ 2 * R := by
        rw [Real.sqrt_le_iff]; exact ⟨by linarith, h⟩
      have t := tri (centre k) p (centre g)
      rw [sq_comm (centre k) p] at t
      have h2 := hs k hk g hg e
      have h3 : Real.sqrt (sq p (centre k)) ≤ Real.sqrt (sq p (centre g)) := by linarith
      exact (Real.sqrt_le_sqrt_iff (sq_nonneg' _ _)).1 h3
  unfold owner
  simp only
  rw [half]
  split_ifs with h
  · obtain ⟨s1, s2⟩ := search_spec (fun g => sq p (centre g)) ((2 * R) ^ 2) (List.range n) (sq p (centre gmin)) gmin rfl
    have hlt : search (fun g => sq p (centre g)) ((2 * R) ^ 2) (List.range n) (sq p (centre gmin)) gmin < n := by
      rcases s1 with e | e
      · rw [e]; exact hg
      · exact List.mem_range.1 e
    refine ⟨hlt, ?_⟩
    rcases s2 with e | ⟨_, e⟩
    · exact close _ hlt e.le
    · exact fun g hg => e g (List.mem_range.2 hg)
  · exact ⟨hg, close gmin hg (not_lt.1 h)⟩

/-- **C142**: if the nuclei keep the distance of four radii, every cell gets the orientation of a nucleus closest to it, although the
search starts from the nucleus of the cell before and stops early. -/
theorem c142_nearest_partial (n : ℕ) (R : ℝ) (hR : 0 ≤ R) (centre : ℕ → Pt) (hs : Spaced n centre (4 * R)) (cs : List (ℕ × ℕ × ℕ)) (gmin : ℕ) (hg : gmin < n) :
    ∀ e ∈ owners n R (fun c g => sq (mid c) (centre g)) cs gmin, e.2 < n ∧ ∀ g < n, sq (mid e.1) (centre e.2) ≤ sq (mid e.1) (centre g) := by
  induction cs generalizing gmin with
  | nil => intro e he; cases he
  | cons c l ih =>
    have h := owner_nearest n R hR centre hs (mid c) gmin hg
    intro e he
    rw [owners] at he
    rcases List.mem_cons.1 he with rfl | he
    · exact h
    · exact ih _ h.1 e he

/-- **C142** violated for two nuclei, whose distance is not checked: a cell within two radii of the nucleus of the cell before keeps it,
however close the other one is. -/
theorem c142_violation_two_nuclei (n : ℕ) (R : ℝ) (centre : ℕ → Pt) (p : Pt) (gmin : ℕ) (h : sq p (centre gmin) ≤ (2 * R) ^ 2) :
    owner n R (fun g => sq p (centre g)) gmin = gmin := by
  unfold owner
  simp only
  rw [if_neg]
  rw [not_lt, show (0.25 : ℝ) * (4 * R) * (4 * R) = (2 * R) ^ 2 by ring]
  exact h

/-- **C142** violated with an orientation given for the surroundings: only the first nucleus gets an orientation of its own, all others
have that of the surroundings. -/
theorem c142_violation_quat_out (R : ℝ) (dist : (ℕ × ℕ × ℕ) → ℕ → ℝ) (cs : List (ℕ × ℕ × ℕ)) (e : (ℕ × ℕ × ℕ) × Option ℕ) (he : e ∈ ownersOut R dist cs) :
    (e.2 = some 0 ↔ dist e.1 0 < R * R) ∧ (e.2 = none ↔ R * R ≤ dist e.1 0) ∧ ∀ g, 0 < g → e.2 ≠ some g := by
  unfold ownersOut at he
  simp only [List.mem_map] at he
  obtain ⟨c, _, rfl⟩ := he
  by_cases h : dist c 0 < R * R
  · simp only [h, if_true]
    refine ⟨by simp, by simp [h], fun g hg he => ?_⟩
    rw [Option.some.injEq] at he
    omega
  · simp only [h, if_false]
    refine ⟨by simp, by simpa using h, fun g _ he => by cases he⟩

/-- **C142**: random orientations have length one. -/
theorem c142_unit (u1 u2 u3 : ℝ) (h0 : 0 ≤ u1) (h1 : u1 ≤ 1) :
    (quatRandom u1 u2 u3).1 ^ 2 + (quatRandom u1 u2 u3).2.1 ^ 2 + (quatRandom u1 u2 u3).2.2.1 ^ 2 + (quatRandom u1 u2 u3).2.2.2 ^ 2 = 1 := by
  have a0 : (0 : ℝ) ≤ ⌊u1 / 0.1⌋ * 0.1 := by
    have : (0 : ℤ) ≤ ⌊u1 / 0.1⌋ := Int.floor_nonneg.2 (by positivity)
    have : (0 : ℝ) ≤ ⌊u1 / 0.1⌋ := by exact_mod_cast this
    positivity
  have a1 : (⌊u1 / 0.1⌋ : ℝ) * 0.1 ≤ 1 := by
    have := Int.floor_le (u1 / 0.1)
    have h : u1 / 0.1 = u1 * 10 := by norm_num; ring
    rw [h] at this ⊢
    linarith
  unfold quatRandom
  simp only
  have s1 := Real.sq_sqrt a0
  have s2 := Real.sq_sqrt (sub_nonneg.2 a1)
  simp only [mul_pow]
  rw [s1, s2]
  have t := fun x => Real.sin_sq_add_cos_sq x
  linear_combination (1 - (⌊u1 / 0.1⌋ : ℝ) * 0.1) * t (2 * Real.pi * (⌊u2 / (0.5 * 0.1)⌋ * (0.5 * 0.1)))
    + (⌊u1 / 0.1⌋ : ℝ) * 0.1 * t (2 * Real.pi * (⌊u3 / (0.5 * 0.1)⌋ * (0.5 * 0.1)))

/-- **C142** violated: for orientations given by an angle the reduction by the crystal symmetry asked for has no effect; an angle outside
of [0, π/2] stays there. -/
theorem c142_violation_angle (t : ℝ) : angle true t = angle false t := rfl

/-! ## Examples -/

/-- One nucleus of radius 3 at the corner of a periodic box of 10³ cells: the cell at the opposite corner, at distance less than 1 across
the boundary, is outside. -/
example : phase ⟨10, 10, 10, 1, fun _ => ⟨0, 0, 0⟩, fun _ => 3, 0, 1, 0, ("1", "1", "1")⟩ (9, 9, 9) = 0 ∧
    phase ⟨10, 10, 10, 1, fun _ => ⟨0, 0, 0⟩, fun _ => 3, 0, 1, 0, ("1", "1", "1")⟩ (0, 0, 0) = 1 ∧
    sqImage 10 10 10 (mid (9, 9, 9)) ⟨0, 0, 0⟩ (-1) (-1) (-1) < 1 := by
  have key := fun c => c142_phase_sharp ⟨10, 10, 10, 1, fun _ => ⟨0, 0, 0⟩, fun _ => 3, 0, 1, 0, ("1", "1", "1")⟩ rfl (fun _ _ => by norm_num) c
  refine ⟨(key (9, 9, 9)).2 fun g _ => ?_, (key (0, 0, 0)).1 ⟨0, by norm_num, ?_⟩, ?_⟩
  · refine Real.le_sqrt_of_sq_le ?_
    unfold sq mid
    norm_num
  · rw [Real.sqrt_lt (sq_nonneg' _ _) (by norm_num)]
    unfold sq mid
    norm_num
  · unfold sqImage mid
    norm_num

/-- Two nuclei at distance 2 with radius 2 (not moved apart): a cell at the second keeps the orientation of the first. -/
example : owner 2 2 (fun g => sq (mid (2, 0, 0)) (if g = 0 then ⟨0.5, 0.5, 0.5⟩ else ⟨2.5, 0.5, 0.5⟩)) 0 = 0 ∧
    sq (mid (2, 0, 0)) ⟨2.5, 0.5, 0.5⟩ < sq (mid (2, 0, 0)) ⟨0.5, 0.5, 0.5⟩ := by
  constructor
  · refine c142_violation_two_nuclei 2 2 (fun g => if g = 0 then ⟨0.5, 0.5, 0.5⟩ else ⟨2.5, 0.5, 0.5⟩) (mid (2, 0, 0)) 0 ?_
    unfold sq mid
    norm_num
  · unfold sq mid
    norm_num

/-- Two nuclei far apart do not overlap. -/
example : Apart ⟨20, 4, 4, 2, fun g => if g = 0 then ⟨2, 2, 2⟩ else ⟨12, 2, 2⟩, fun _ => 2, 0.1, 1, 0, ("0", "0", "0")⟩ := by
  refine c142_apart _ 2 (by norm_num) (fun _ _ => rfl) (by norm_num) (by norm_num) fun i hi j hj hij => Real.le_sqrt_of_sq_le ?_
  have hi' : i = 0 ∨ i = 1 := by simp only at hi; omega
  have hj' : j = 0 ∨ j = 1 := by simp only at hj; omega
  rcases hi' with rfl | rfl <;> rcases hj' with rfl | rfl
  · exact absurd rfl hij
  · unfold sq; norm_num
  · unfold sq; norm_num
  · exact absurd rfl hij

/-- Two cells, one of them solid with composition 1/10, nominal composition 3/10. -/
example : ∃ f, composition ⟨2, 1, 1, 1, fun _ => ⟨0.5, 0.5, 0.5⟩, fun _ => 0.75, 0, 1, 0, ("1", "1", "1")⟩ ⟨some [0.3], some [0.1], none⟩ = some [f] ∧
    f (0, 0, 0) + f (1, 0, 0) = 0.6 := by
  let J : Job := ⟨2, 1, 1, 1, fun _ => ⟨0.5, 0.5, 0.5⟩, fun _ => 0.75, 0, 1, 0, ("1", "1", "1")⟩
  have hc : cells J = {(0, 0, 0), (1, 0, 0)} := rfl
  have p0 : paint J 0 (0, 0, 0) = some 1 := by
    rw [paint_sharp J rfl 0 (by norm_num [J])]
    rw [if_pos (by unfold sq mid; norm_num [J])]
  have p1 : paint J 0 (1, 0, 0) = none := by
    rw [paint_sharp J rfl 0 (by norm_num [J])]
    rw [if_neg (by unfold sq mid; norm_num [J])]
  have hvs : vs J = 1 := by
    unfold vs
    rw [hc, show J.n = 1 from rfl, Finset.sum_range_one, Finset.sum_insert (by simp), Finset.sum_singleton, p0, p1]
    simp
  have hvl : 0 < vl J := by
    unfold vl
    rw [hvs]
    unfold vol
    norm_num [J]
  obtain ⟨fs, e, hl, h⟩ := c142_nominal_partial J [0.3] [0.1] rfl (by simp) (by simp) hvl
    (fun c _ g hg k hk _ _ => by have : J.n = 1 := rfl; omega) rfl
  match fs, hl with
  | [f], _ =>
    refine ⟨f, e, ?_⟩
    have := h 0 (by simp) f (by simp)
    rw [hc, Finset.sum_insert (by simp), Finset.sum_singleton] at this
    rw [this]
    unfold vol
    norm_num [J]

end AMPE.Nuclei.Props
