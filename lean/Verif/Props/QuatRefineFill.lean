import Verif.Model.QuatRefineFill
import Verif.Props.QuatTransfer

/-!
C127: refining orientations fills every requested cell.

Specification: after the refinement of a list of boxes, every cell of every box of the list holds
the interpolated orientation, and no other cell has changed (`Filled`). Nothing in the
specification refers to the loops or the shrunk boxes of the model.
-/

namespace AMPE.QuatRefineFill.Props

open AMPE AMPE.DrivingForce AMPE.QuatTransfer AMPE.QuatRefineFill AMPE.Quat

/-- Specification: `v` on the boxes, the old content elsewhere. -/
def Filled (boxes : List Box) (v old new : Cell → Q4) : Prop :=
  (∀ b ∈ boxes, ∀ c, b.Has c → new c = v c) ∧
    ∀ c, (∀ b ∈ boxes, ¬ b.Has c) → new c = old c

/-- Cells of a box which have a neighbour in the box on the upper side in every space direction. -/
def Inner (three : Bool) (b : Box) (c : Cell) : Prop :=
  b.Has c ∧ c.1 < b.hi0 ∧ c.2.1 < b.hi1 ∧ (three = true → c.2.2 < b.hi2)

theorem shrink_has (three : Bool) (b : Box) (c : Cell) :
    (shrink three b).Has c ↔ Inner three b c := by
  unfold shrink Inner Box.Has
  cases three <;> simp <;> omega

theorem foldl_update (interp : Cell → Option Q4) (v : Cell → Q4) (l : List Cell) :
    ∀ q : Cell → Q4, (∀ c ∈ l, interp c = some (v c)) →
    ∃ a, l.foldlM (fun a c => (interp c).map (fun w => Function.update a c w)) q = some a ∧
      (∀ c ∈ l, a c = v c) ∧ ∀ c, c ∉ l → a c = q c := by
  induction l with
  | nil => intro q _; exact ⟨q, rfl, by simp, fun _ _ => rfl⟩
  | cons d l ih =>
    intro q h
    obtain ⟨a, ha, hin, hout⟩ := ih (Function.update q d (v d)) (fun c hc => h c (List.mem_cons_of_mem _ hc))
    refine ⟨a, ?_, ?_, ?_⟩
    · rw [List.foldlM_cons, h d List.mem_cons_self]; exact ha
    · intro c hc
      by_cases hl : c ∈ l
      · exact hin c hl
      · rcases List.mem_cons.1 hc with rfl | hc
        · rw [hout _ hl, Function.update_self]
        · exact absurd hc hl
    · intro c hc
      rw [List.mem_cons, not_or] at hc
      rw [hout c hc.2, Function.update_of_ne hc.1]

theorem refine_total (three : Bool) (interp : Cell → Option Q4) (v : Cell → Q4) (boxes : List Box) :
    ∀ q : Cell → Q4, (∀ b ∈ boxes, ∀ c, Inner three b c → interp c = some (v c)) →
    ∃ a, refine three interp boxes q = some a ∧
      (∀ b ∈ boxes, ∀ c, Inner three b c → a c = v c) ∧
      ∀ c, (∀ b ∈ boxes, ¬ Inner three b c) → a c = q c := by
  induction boxes with
  | nil => intro q _; exact ⟨q, rfl, by simp, fun _ _ => rfl⟩
  | cons b bs ih =>
    intro q h
    obtain ⟨a1, h1, hin1, hout1⟩ := foldl_update interp v (shrink three b).list q
      (fun c hc => h b List.mem_cons_self c ((shrink_has three b c).1 ((Box.mem_list _ c).1 hc)))
    obtain ⟨a, ha, hin, hout⟩ := ih a1 (fun b' hb' => h b' (List.mem_cons_of_mem _ hb'))
    refine ⟨a, ?_, ?_, ?_⟩
    · unfold refine refineBox
      rw [List.foldlM_cons, h1]; exact ha
    · intro b' hb' c hc
      by_cases hl : ∃ b2 ∈ bs, Inner three b2 c
      · obtain ⟨b2, hb2, hc2⟩ := hl
        exact hin b2 hb2 c hc2
      · rw [hout c (fun b2 hb2 hc2 => hl ⟨b2, hb2, hc2⟩)]
        rcases List.mem_cons.1 hb' with rfl | hb'
        · exact hin1 c ((Box.mem_list _ c).2 ((shrink_has three b' c).2 hc))
        · exact absurd ⟨b', hb', hc⟩ hl
    · intro c hc
      rw [hout c (fun b2 hb2 => hc b2 (List.mem_cons_of_mem _ hb2)),
        hout1 c (fun hl => hc b List.mem_cons_self ((shrink_has three b c).1 ((Box.mem_list _ c).1 hl)))]

/-- **C127** (partial): wherever the interpolation is defined, the operator completes; it stores
the interpolated orientation in the cells which have an upper neighbour in a box in every
direction, and leaves every other cell as it was. -/
theorem c127_fill_partial (three : Bool) (interp : Cell → Option Q4) (v : Cell → Q4)
    (boxes : List Box) (q : Cell → Q4)
    (h : ∀ b ∈ boxes, ∀ c, b.Has c → interp c = some (v c)) :
    ∃ a, refine three interp boxes q = some a ∧
      (∀ b ∈ boxes, ∀ c, Inner three b c → a c = v c) ∧
      ∀ c, (∀ b ∈ boxes, ¬ Inner three b c) → a c = q c :=
  refine_total three interp v boxes q (fun b hb c hc => h b hb c hc.1)

/-- A nonempty list of nonempty boxes has a cell with no upper neighbour in any box. -/
theorem exists_uncovered (three : Bool) (boxes : List Box) (hne : boxes ≠ [])
    (hb : ∀ b ∈ boxes, b.lo0 ≤ b.hi0 ∧ b.lo1 ≤ b.hi1 ∧ b.lo2 ≤ b.hi2) :
    ∃ b ∈ boxes, ∃ c, b.Has c ∧ ∀ b' ∈ boxes, ¬ Inner three b' c := by
  have key : ∀ l : List Box, l ≠ [] → ∃ b ∈ l, ∀ b' ∈ l, b'.hi0 ≤ b.hi0 := by
    intro l
    induction l with
    | nil => intro h; exact absurd rfl h
    | cons x xs ih =>
      intro _
      by_cases hx : xs = []
      · subst hx; exact ⟨x, by simp, by simp⟩
      · obtain ⟨m, hm, hmax⟩ := ih hx
        by_cases hle : m.hi0 ≤ x.hi0
        · exact ⟨x, List.mem_cons_self, fun b' hb' => by
            rcases List.mem_cons.1 hb' with rfl | hb'
            · exact le_refl _
            · exact (hmax b' hb').trans hle⟩
        · exact ⟨m, List.mem_cons_of_mem _ hm, fun b' hb' => by
            rcases List.mem_cons.1 hb' with rfl | hb'
            · omega
            · exact hmax b' hb'⟩
  obtain ⟨b, hbm, hmax⟩ := key boxes hne
  obtain ⟨h0, h1, h2⟩ := hb b hbm
  refine ⟨b, hbm, (b.hi0, b.lo1, b.lo2), ?_, ?_⟩
  · unfold Box.Has; exact ⟨h0, le_refl _, le_refl _, h1, le_refl _, h2⟩
  · intro b' hb' hi
    have := hmax b' hb'
    have := hi.2.1
    simp only at this
    omega

/-- **C127** (violation): whatever boxes are requested, some requested cell keeps its old content,
whatever the interpolated values are. -/
theorem c127_violation_gap (three : Bool) (interp : Cell → Option Q4) (v : Cell → Q4)
    (boxes : List Box) (hne : boxes ≠ [])
    (hb : ∀ b ∈ boxes, b.lo0 ≤ b.hi0 ∧ b.lo1 ≤ b.hi1 ∧ b.lo2 ≤ b.hi2)
    (h : ∀ b ∈ boxes, ∀ c, b.Has c → interp c = some (v c)) :
    ∃ b ∈ boxes, ∃ c, b.Has c ∧
      ∀ q : Cell → Q4, ∃ a, refine three interp boxes q = some a ∧ a c = q c := by
  obtain ⟨b, hbm, c, hc, hno⟩ := exists_uncovered three boxes hne hb
  refine ⟨b, hbm, c, hc, fun q => ?_⟩
  obtain ⟨a, ha, -, hout⟩ := c127_fill_partial three interp v boxes q h
  exact ⟨a, ha, hout c hno⟩

/-- **C127** (violation): hence no request is ever met for every old content. -/
theorem c127_violation (three : Bool) (interp : Cell → Option Q4) (v : Cell → Q4)
    (boxes : List Box) (hne : boxes ≠ [])
    (hb : ∀ b ∈ boxes, b.lo0 ≤ b.hi0 ∧ b.lo1 ≤ b.hi1 ∧ b.lo2 ≤ b.hi2)
    (h : ∀ b ∈ boxes, ∀ c, b.Has c → interp c = some (v c)) :
    ∃ q : Cell → Q4, ∀ a, refine three interp boxes q = some a → ¬ Filled boxes v q a := by
  obtain ⟨b, hbm, c, hc, hkeep⟩ := c127_violation_gap three interp v boxes hne hb h
  refine ⟨fun d => ⟨(v d).q1 + 1, (v d).q2, (v d).q3, (v d).q4⟩, fun a ha hf => ?_⟩
  obtain ⟨a', ha', hac⟩ := hkeep (fun d => ⟨(v d).q1 + 1, (v d).q2, (v d).q3, (v d).q4⟩)
  rw [ha] at ha'
  obtain rfl := Option.some.inj ha'
  have := hf.1 b hbm c hc
  rw [this] at hac
  have := congrArg Q4.q1 hac
  simp at this

/-- **C127** (violation): boxes one cell thick in some direction, such as ghost layers of width
one, are left entirely as they were. -/
theorem c127_violation_thin (three : Bool) (interp : Cell → Option Q4) (boxes : List Box)
    (q : Cell → Q4)
    (hthin : ∀ b ∈ boxes, b.hi0 ≤ b.lo0 ∨ b.hi1 ≤ b.lo1 ∨ (three = true ∧ b.hi2 ≤ b.lo2)) :
    refine three interp boxes q = some q := by
  have hno : ∀ b ∈ boxes, ∀ c, ¬ Inner three b c := by
    intro b hb c hi
    obtain ⟨hh, h0, h1, h2⟩ := hi
    unfold Box.Has at hh
    rcases hthin b hb with h | h | ⟨h3, h⟩
    · omega
    · omega
    · have := h2 h3; omega
  obtain ⟨a, ha, -, hout⟩ := refine_total three interp q boxes q (fun b hb c hc => absurd hc (hno b hb c))
  rw [ha]
  congr 1
  funext c
  exact hout c (fun b hb => hno b hb c)

/-- **C127** (violation): the operator as called by the program in two dimensions never stores a
single orientation: either no box is at least two cells wide in both directions and every requested
cell keeps its old content, or the program stops (it asks for rotation index 0, C17). -/
theorem c127_violation_outcome_2d (r0 r1 : ℤ) (dxf0 dxf1 dxc0 dxc1 : ℝ) (arrayc : ℤ → ℤ → Q4)
    (boxes : List Box) (q : Cell → Q4) :
    refine2d r0 r1 dxf0 dxf1 dxc0 dxc1 arrayc boxes q = some q ∧ (∀ b ∈ boxes, ∀ c, ¬ Inner false b c) ∨
    refine2d r0 r1 dxf0 dxf1 dxc0 dxc1 arrayc boxes q = none ∧ ∃ b ∈ boxes, ∃ c, Inner false b c := by
  unfold refine2d
  have hn : (fun c : Cell => quatlinrefine2d r0 r1 dxf0 dxf1 dxc0 dxc1 arrayc c.1 c.2.1) = fun _ => none := by
    funext c
    exact AMPE.QuatTransfer.Props.c17_violation_refine_2d r0 r1 dxf0 dxf1 dxc0 dxc1 arrayc c.1 c.2.1
  rw [hn]
  induction boxes with
  | nil => left; exact ⟨rfl, by simp⟩
  | cons b bs ih =>
    by_cases hb : (shrink false b).list = []
    · have hstep : refine false (fun _ => none) (b :: bs) q = refine false (fun _ => none) bs q := by
        unfold refine refineBox
        rw [List.foldlM_cons, hb]
        rfl
      have hbn : ∀ c, ¬ Inner false b c := by
        intro c hc
        have := (Box.mem_list (shrink false b) c).2 ((shrink_has false b c).2 hc)
        rw [hb] at this
        simp at this
      rw [hstep]
      rcases ih with ⟨h1, h2⟩ | ⟨h1, b', hb', hc'⟩
      · left
        refine ⟨h1, fun b' hb' => ?_⟩
        rcases List.mem_cons.1 hb' with rfl | hb'
        · exact hbn
        · exact h2 b' hb'
      · right
        exact ⟨h1, b', List.mem_cons_of_mem _ hb', hc'⟩
    · right
      obtain ⟨d, l, hl⟩ := List.exists_cons_of_ne_nil hb
      refine ⟨?_, b, List.mem_cons_self, d, (shrink_has false b d).1 ((Box.mem_list _ d).1 (by rw [hl]; exact List.mem_cons_self))⟩
      unfold refine refineBox
      rw [List.foldlM_cons, hl]
      rfl

/-- **C127**: the interpolation at a fine cell reads coarse cells at most one cell away from the
coarse cell containing it, so the declared stencil width of one is enough. -/
theorem c127_stencil_2d (iq r0 r1 : ℤ) (h0 : 0 < r0) (h1 : 0 < r1) (dxf0 dxf1 dxc0 dxc1 : ℝ)
    (arrayc arrayc' : ℤ → ℤ → Q4) (i j : ℤ)
    (h : ∀ k l, i / r0 - 1 ≤ k → k ≤ i / r0 + 1 → j / r1 - 1 ≤ l → l ≤ j / r1 + 1 →
      arrayc k l = arrayc' k l) :
    refineCell2d iq r0 r1 dxf0 dxf1 dxc0 dxc1 arrayc i j =
      refineCell2d iq r0 r1 dxf0 dxf1 dxc0 dxc1 arrayc' i j := by
  have loc : ∀ (i r : ℤ) (hr : 0 < r) (dxf dxc : ℝ) (p : ℤ × ℤ × ℝ), locate i r dxf dxc = some p →
      p.2.1 = i / r ∨ p.2.1 = i / r - 1 := by
    intro i r hr dxf dxc p hp
    obtain ⟨hf, -, -⟩ := AMPE.QuatTransfer.Props.c18_floor i r hr
    unfold locate at hp
    simp only [Option.map_eq_some_iff] at hp
    obtain ⟨d, -, hd⟩ := hp
    split_ifs at hd
    · right; rw [← hd, hf]
    · left; rw [← hd, hf]
  unfold refineCell2d
  rcases hy : locate j r1 dxf1 dxc1 with _ | ly
  · rfl
  rcases hx : locate i r0 dxf0 dxc0 with _ | lx
  · rfl
  have hX := loc i r0 h0 dxf0 dxc0 lx hx
  have hY := loc j r1 h1 dxf1 dxc1 ly hy
  simp only [Option.bind_some]
  rw [h lx.2.1 ly.2.1 (by omega) (by omega) (by omega) (by omega),
    h lx.2.1 (ly.2.1 + 1) (by omega) (by omega) (by omega) (by omega),
    h (lx.2.1 + 1) ly.2.1 (by omega) (by omega) (by omega) (by omega),
    h (lx.2.1 + 1) (ly.2.1 + 1) (by omega) (by omega) (by omega) (by omega)]

/-- The hypotheses of `c127_violation_gap` hold for a box of two by two cells and everywhere
defined values: three of the four cells keep their old content. -/
example (q : Cell → Q4) :
    ∃ a, refine false (fun _ => some ⟨1, 0, 0, 0⟩) [⟨0, 1, 0, 1, 0, 0⟩] q = some a ∧
      a (0, 0, 0) = ⟨1, 0, 0, 0⟩ ∧ a (1, 0, 0) = q (1, 0, 0) ∧ a (0, 1, 0) = q (0, 1, 0) ∧ a (1, 1, 0) = q (1, 1, 0) := by
  obtain ⟨a, ha, hin, hout⟩ := c127_fill_partial false (fun _ => some ⟨1, 0, 0, 0⟩) (fun _ => ⟨1, 0, 0, 0⟩)
    [⟨0, 1, 0, 1, 0, 0⟩] q (fun _ _ _ _ => rfl)
  exact ⟨a, ha, hin _ (List.mem_singleton.2 rfl) _ (by simp [Inner, Box.Has]),
    hout _ (by simp [Inner, Box.Has]), hout _ (by simp [Inner, Box.Has]), hout _ (by simp [Inner, Box.Has])⟩

end AMPE.QuatRefineFill.Props
