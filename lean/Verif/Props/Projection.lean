import Verif.Model.Projection
import Verif.Props.OrientSolve
import Verif.Props.PhaseRHS
import Mathlib.Data.List.Nodup

/-! # C107: the projection reaches every cell of every level -/

namespace AMPE.Projection.Props

open AMPE.Tagging AMPE.OrientSolve.Props AMPE.OrientSolve AMPE.PhaseRHS AMPE.Projection

variable {Cell : Type} [DecidableEq Cell] {n : ℕ}

/-- Specification: `c` is a cell of level `ln`. -/
def Owns (H : Hier Cell) (ln : ℕ) (c : Cell) : Prop := ln ≤ H.finest ∧ ∃ p ∈ H.patches ln, c ∈ p

/-- Specification: the patches of a level are disjoint. -/
def Disjoint (H : Hier Cell) : Prop := ∀ ln, (H.patches ln).flatten.Nodup

theorem mem_levelCells (H : Hier Cell) (ln : ℕ) (k : ℕ × Cell) : k ∈ levelCells H ln ↔ k.1 = ln ∧ ∃ p ∈ H.patches ln, k.2 ∈ p := by
  unfold levelCells
  simp only [List.mem_map, List.mem_flatten]
  constructor
  · rintro ⟨c, ⟨p, hp, hc⟩, rfl⟩
    exact ⟨rfl, p, hp, hc⟩
  · rintro ⟨rfl, p, hp, hc⟩
    exact ⟨k.2, ⟨p, hp, hc⟩, rfl⟩

theorem mem_quatCells (H : Hier Cell) (ln : ℕ) (c : Cell) : (ln, c) ∈ quatCells H ↔ Owns H ln c := by
  unfold quatCells Owns
  simp only [List.mem_flatMap, List.mem_reverse, List.mem_range, mem_levelCells]
  constructor
  · rintro ⟨a, ha, rfl, hp⟩
    exact ⟨by omega, hp⟩
  · rintro ⟨h1, hp⟩
    exact ⟨ln, by omega, rfl, hp⟩

theorem nodup_levelCells (H : Hier Cell) (hd : Disjoint H) (ln : ℕ) : (levelCells H ln).Nodup :=
  (hd ln).map fun a b h => (Prod.ext_iff.1 h).2

theorem nodup_quatCells (H : Hier Cell) (hd : Disjoint H) : (quatCells H).Nodup := by
  unfold quatCells
  rw [List.nodup_flatMap]
  refine ⟨fun ln _ => nodup_levelCells H hd ln, ?_⟩
  refine List.Pairwise.imp_of_mem (R := fun a b => a ≠ b) ?_ (List.nodup_reverse.2 List.nodup_range)
  intro a b _ _ hab k h1 h2
  rw [mem_levelCells] at h1 h2
  exact hab (h1.1.symm.trans h2.1)

/-! ## The loops -/

theorem set2_self {α : Type} (u : ℕ → Cell → α) (ln : ℕ) (c : Cell) (v : α) : set2 u (ln, c) v ln c = v := if_pos rfl

theorem set2_other {α : Type} (u : ℕ → Cell → α) {k : ℕ × Cell} {ln : ℕ} {c : Cell} (h : (ln, c) ≠ k) (v : α) : set2 u k v ln c = u ln c :=
  if_neg h

/-- The orientation loop: fails exactly at a vanishing quaternion, otherwise the cells of the list hold the projected values and all
else is unchanged. -/
theorem quat_loop (y : Vec Cell n) : ∀ (l : List (ℕ × Cell)) (w : Work Cell n), l.Nodup →
    ((∃ k ∈ l, y.quat k.1 k.2 = 0) → l.foldlM (quatStep y) w = none)
    ∧ ((∀ k ∈ l, y.quat k.1 k.2 ≠ 0) → ∃ w', l.foldlM (quatStep y) w = some w'
        ∧ w'.corr.phase = w.corr.phase ∧ w'.err.phase = w.err.phase ∧ w'.corr.other = w.corr.other ∧ w'.err.other = w.err.other
        ∧ (∀ ln c, (ln, c) ∉ l → w'.corr.quat ln c = w.corr.quat ln c ∧ w'.err.quat ln c = w.err.quat ln c)
        ∧ (∀ ln c, (ln, c) ∈ l → project (y.quat ln c) (w.err.quat ln c) = some (w'.err.quat ln c, w'.corr.quat ln c))) := by
  intro l
  induction l with
  | nil =>
    intro w _
    refine ⟨fun ⟨k, hk, _⟩ => absurd hk (by simp), fun _ => ⟨w, rfl, rfl, rfl, rfl, rfl, fun _ _ _ => ⟨rfl, rfl⟩, fun _ _ h => absurd h (by simp)⟩⟩
  | cons k l ih =>
    intro w hnd
    obtain ⟨hk, hl⟩ := List.nodup_cons.1 hnd
    rw [List.foldlM_cons]
    by_cases hz : y.quat k.1 k.2 = 0
    · have hs : quatStep y w k = none := by
        unfold quatStep
        rw [(OrientSolve.Props.c42_projection_defined_iff _ _).2 hz]
        rfl
      refine ⟨fun _ => by rw [hs]; rfl, fun h => absurd hz (h k (by simp))⟩
    · obtain ⟨e, c, hp, _⟩ := OrientSolve.Props.c42_projection (y.quat k.1 k.2) (w.err.quat k.1 k.2) hz
      obtain ⟨w1, hw1⟩ : ∃ w1, quatStep y w k = some w1 := ⟨_, by unfold quatStep; rw [hp]; rfl⟩
      have hw1' : w1 = ⟨{ w.corr with quat := set2 w.corr.quat k c }, { w.err with quat := set2 w.err.quat k e }⟩ := by
        have : quatStep y w k
            = some ⟨{ w.corr with quat := set2 w.corr.quat k c }, { w.err with quat := set2 w.err.quat k e }⟩ := by
          unfold quatStep; rw [hp]; rfl
        rw [this] at hw1
        exact (Option.some.inj hw1).symm
      rw [hw1]
      show ((∃ k' ∈ k :: l, y.quat k'.1 k'.2 = 0) → l.foldlM (quatStep y) w1 = none) ∧ _
      obtain ⟨i1, i2⟩ := ih w1 hl
      refine ⟨?_, ?_⟩
      · rintro ⟨k', hk', h0⟩
        rcases List.mem_cons.1 hk' with rfl | hk'
        · exact absurd h0 hz
        · exact i1 ⟨k', hk', h0⟩
      · intro h
        obtain ⟨w', hw', a1, a2, a3, a4, a5, a6⟩ := i2 fun k' hk' => h k' (List.mem_cons_of_mem _ hk')
        refine ⟨w', hw', ?_, ?_, ?_, ?_, ?_, ?_⟩
        · rw [a1, hw1']
        · rw [a2, hw1']
        · rw [a3, hw1']
        · rw [a4, hw1']
        · intro ln c' hnot
          have hne : (ln, c') ≠ k := fun h => hnot (by rw [h]; simp)
          have hnl : (ln, c') ∉ l := fun h => hnot (List.mem_cons_of_mem _ h)
          obtain ⟨b1, b2⟩ := a5 ln c' hnl
          rw [b1, b2, hw1']
          exact ⟨set2_other _ hne _, set2_other _ hne _⟩
        · intro ln c' hin
          rcases List.mem_cons.1 hin with rfl | hin
          · obtain ⟨b1, b2⟩ := a5 ln c' hk
            rw [b1, b2, hw1']
            show project (y.quat ln c') (w.err.quat ln c') = some (set2 w.err.quat (ln, c') e ln c', set2 w.corr.quat (ln, c') c ln c')
            rw [set2_self, set2_self]
            exact hp
          · have hne : (ln, c') ≠ k := fun h => hk (by rw [← h]; exact hin)
            have h6 := a6 ln c' hin
            rw [hw1'] at h6
            have e1 : set2 w.err.quat k e ln c' = w.err.quat ln c' := set2_other _ hne _
            dsimp only at h6
            rw [e1] at h6
            exact h6

/-- The phase loop. -/
theorem phase_loop (y : Vec Cell n) : ∀ (l : List (ℕ × Cell)) (w : Work Cell n), l.Nodup →
    (l.foldl (phaseStep y) w).corr.quat = w.corr.quat ∧ (l.foldl (phaseStep y) w).err.quat = w.err.quat
      ∧ (l.foldl (phaseStep y) w).corr.other = w.corr.other ∧ (l.foldl (phaseStep y) w).err.other = w.err.other
      ∧ (∀ ln c, (ln, c) ∉ l → (l.foldl (phaseStep y) w).corr.phase ln c = w.corr.phase ln c
          ∧ (l.foldl (phaseStep y) w).err.phase ln c = w.err.phase ln c)
      ∧ (∀ ln c, (ln, c) ∈ l → (l.foldl (phaseStep y) w).corr.phase ln c = projectCorr 3 (y.phase ln c)
          ∧ (l.foldl (phaseStep y) w).err.phase ln c = projectErr 3 (w.err.phase ln c)) := by
  intro l
  induction l with
  | nil =>
    intro w _
    exact ⟨rfl, rfl, rfl, rfl, fun _ _ _ => ⟨rfl, rfl⟩, fun _ _ h => absurd h (by simp)⟩
  | cons k l ih =>
    intro w hnd
    obtain ⟨hk, hl⟩ := List.nodup_cons.1 hnd
    rw [List.foldl_cons]
    obtain ⟨a1, a2, a3, a4, a5, a6⟩ := ih (phaseStep y w k) hl
    refine ⟨a1, a2, a3, a4, ?_, ?_⟩
    · intro ln c hnot
      have hne : (ln, c) ≠ k := fun h => hnot (by rw [h]; simp)
      obtain ⟨b1, b2⟩ := a5 ln c fun h => hnot (List.mem_cons_of_mem _ h)
      rw [b1, b2]
      exact ⟨set2_other _ hne _, set2_other _ hne _⟩
    · intro ln c hin
      rcases List.mem_cons.1 hin with rfl | hin
      · obtain ⟨b1, b2⟩ := a5 ln c hk
        rw [b1, b2]
        exact ⟨set2_self _ _ _ _, set2_self _ _ _ _⟩
      · have hne : (ln, c) ≠ k := fun h => hk (by rw [← h]; exact hin)
        obtain ⟨b1, b2⟩ := a6 ln c hin
        rw [b1, b2]
        refine ⟨rfl, ?_⟩
        show projectErr 3 (set2 w.err.phase k _ ln c) = _
        rw [set2_other _ hne]

/-! ## The callback -/

/-- All that the callback does, in terms of cells. -/
theorem callback (ev tp : Bool) (H : Hier Cell) (hd : Disjoint H) (y err : Vec Cell n) (w : Work Cell n)
    (hw : applyProjection ev tp H y err = some w) :
    (w.corr.other = (fun _ _ => 0) ∧ w.err.other = err.other)
    ∧ (if 1 < n ∧ ev = true then
        (∀ ln c, Owns H ln c → project (y.quat ln c) (err.quat ln c) = some (w.err.quat ln c, w.corr.quat ln c))
        ∧ (∀ ln c, ¬ Owns H ln c → w.corr.quat ln c = (fun _ => 0) ∧ w.err.quat ln c = err.quat ln c)
       else w.corr.quat = (fun _ _ _ => 0) ∧ w.err.quat = err.quat)
    ∧ (if tp = true then
        (∀ c, Owns H 0 c → w.corr.phase 0 c = projectCorr 3 (y.phase 0 c) ∧ w.err.phase 0 c = projectErr 3 (err.phase 0 c))
        ∧ (∀ ln c, ¬ (ln = 0 ∧ Owns H 0 c) → w.corr.phase ln c = (fun _ => 0) ∧ w.err.phase ln c = err.phase ln c)
       else w.corr.phase = (fun _ _ _ => 0) ∧ w.err.phase = err.phase) := by
  obtain ⟨w1, h1, h2⟩ := Option.map_eq_some_iff.1 (show (quatPart ev H y ⟨zeroVec, err⟩).map (phasePart tp H y) = some w from hw)
  unfold quatPart at h1
  unfold phasePart at h2
  have hphase0 : ∀ c, (0, c) ∈ phaseCells H ↔ Owns H 0 c := by
    intro c
    unfold phaseCells Owns
    rw [mem_levelCells]
    simp
  have hphase : ∀ ln c, (ln, c) ∈ phaseCells H ↔ ln = 0 ∧ Owns H 0 c := by
    intro ln c
    constructor
    · intro h
      have h0 : ln = 0 := ((mem_levelCells H 0 (ln, c)).1 h).1
      subst h0
      exact ⟨rfl, (hphase0 c).1 h⟩
    · rintro ⟨rfl, h⟩
      exact (hphase0 c).2 h
  -- first part
  have q1 : w1.corr.phase = (fun _ _ _ => 0) ∧ w1.err.phase = err.phase ∧ w1.corr.other = (fun _ _ => 0) ∧ w1.err.other = err.other
      ∧ (if 1 < n ∧ ev = true then
        (∀ ln c, Owns H ln c → project (y.quat ln c) (err.quat ln c) = some (w1.err.quat ln c, w1.corr.quat ln c))
        ∧ (∀ ln c, ¬ Owns H ln c → w1.corr.quat ln c = (fun _ => 0) ∧ w1.err.quat ln c = err.quat ln c)
       else w1.corr.quat = (fun _ _ _ => 0) ∧ w1.err.quat = err.quat) := by
    by_cases hc : 1 < n ∧ ev = true
    · rw [if_pos hc] at h1 ⊢
      obtain ⟨i1, i2⟩ := quat_loop y (quatCells H) ⟨zeroVec, err⟩ (nodup_quatCells H hd)
      have hnz : ∀ k ∈ quatCells H, y.quat k.1 k.2 ≠ 0 := by
        intro k hk h0
        rw [i1 ⟨k, hk, h0⟩] at h1
        exact absurd h1 (by simp)
      obtain ⟨w', hw', a1, a2, a3, a4, a5, a6⟩ := i2 hnz
      rw [hw'] at h1
      have : w' = w1 := Option.some.inj h1
      subst this
      refine ⟨a1, a2, a3, a4, fun ln c ho => a6 ln c ((mem_quatCells H ln c).2 ho), fun ln c ho => ?_⟩
      exact a5 ln c fun hin => ho ((mem_quatCells H ln c).1 hin)
    · rw [if_neg hc] at h1 ⊢
      have : w1 = ⟨zeroVec, err⟩ := (Option.some.inj h1).symm
      subst this
      exact ⟨rfl, rfl, rfl, rfl, rfl, rfl⟩
  obtain ⟨p1, p2, p3, p4, p5⟩ := q1
  cases tp
  · simp only [Bool.false_eq_true, if_false] at h2 ⊢
    subst h2
    exact ⟨⟨p3, p4⟩, p5, p1, p2⟩
  · simp only [if_true] at h2 ⊢
    subst h2
    obtain ⟨a1, a2, a3, a4, a5, a6⟩ := phase_loop y (phaseCells H) w1 (nodup_levelCells H hd 0)
    refine ⟨⟨a3.trans p3, a4.trans p4⟩, ?_, ?_, ?_⟩
    · rw [a1, a2]; exact p5
    · intro c ho
      have := a6 0 c ((hphase0 c).2 ho)
      rw [p2] at this
      exact this
    · intro ln c hno
      have := a5 ln c fun h => hno ((hphase ln c).1 h)
      rw [p1, p2] at this
      exact this

/-- **C107, orientations.** After the projection every cell of every level has a unit quaternion, a positive multiple of the one
before, and the error kept for the step-size control is tangent to the sphere there. -/
theorem c107_orientation {ev tp : Bool} (hn : 1 < n) (hev : ev = true) (H : Hier Cell) (hd : Disjoint H) (y err : Vec Cell n) (w : Work Cell n)
    (hw : applyProjection ev tp H y err = some w) (ln : ℕ) (c : Cell) (ho : Owns H ln c) :
    dot ((corrected y w.corr).quat ln c) ((corrected y w.corr).quat ln c) = 1
      ∧ (∃ a : ℝ, 0 < a ∧ (corrected y w.corr).quat ln c = a • y.quat ln c)
      ∧ dot (y.quat ln c) (w.err.quat ln c) = 0 := by
  obtain ⟨_, h2, _⟩ := callback ev tp H hd y err w hw
  rw [if_pos ⟨hn, hev⟩] at h2
  have hp := h2.1 ln c ho
  have hq : y.quat ln c ≠ 0 := by
    intro h0
    rw [(OrientSolve.Props.c42_projection_defined_iff _ _).2 h0] at hp
    exact absurd hp (by simp)
  obtain ⟨e, co, h, a1, a2, a3, _⟩ := OrientSolve.Props.c42_projection (y.quat ln c) (err.quat ln c) hq
  rw [h] at hp
  have he : e = w.err.quat ln c := (Prod.ext_iff.1 (Option.some.inj hp)).1
  have hc : co = w.corr.quat ln c := (Prod.ext_iff.1 (Option.some.inj hp)).2
  have hs : (corrected y w.corr).quat ln c = y.quat ln c + co := by
    rw [hc]; rfl
  rw [hs, ← he]
  exact ⟨a1, a2, a3⟩

/-- **C107, failure.** The call breaks down exactly when orientations are evolved and some cell has a vanishing quaternion. -/
theorem c107_defined (ev tp : Bool) (H : Hier Cell) (hd : Disjoint H) (y err : Vec Cell n) :
    applyProjection ev tp H y err = none ↔ 1 < n ∧ ev = true ∧ ∃ ln c, Owns H ln c ∧ y.quat ln c = 0 := by
  obtain ⟨i1, i2⟩ := quat_loop y (quatCells H) ⟨zeroVec, err⟩ (nodup_quatCells H hd)
  unfold applyProjection quatPart
  rw [Option.map_eq_none_iff]
  by_cases hc : 1 < n ∧ ev = true
  · rw [if_pos hc]
    constructor
    · intro h
      refine ⟨hc.1, hc.2, ?_⟩
      by_contra hno
      push_neg at hno
      obtain ⟨w', hw', _⟩ := i2 fun k hk => hno k.1 k.2 ((mem_quatCells H k.1 k.2).1 hk)
      rw [hw'] at h
      exact absurd h (by simp)
    · rintro ⟨_, _, ln, c, ho, h0⟩
      exact i1 ⟨(ln, c), (mem_quatCells H ln c).2 ho, h0⟩
  · rw [if_neg hc]
    constructor
    · intro h
      exact absurd h (by simp)
    · rintro ⟨a, b, _⟩
      exact absurd ⟨a, b⟩ hc

/-- **C107, phases on the coarsest level.** There the three order parameters add up to one afterwards, by the smallest possible change, and
the errors add up to zero. -/
theorem c107_phases_partial {ev tp : Bool} (htp : tp = true) (H : Hier Cell) (hd : Disjoint H) (y err : Vec Cell n) (w : Work Cell n)
    (hw : applyProjection ev tp H y err = some w) (c : Cell) (ho : Owns H 0 c) :
    PhaseRHS.Props.OnPlane ((corrected y w.corr).phase 0 c)
      ∧ (∀ x, PhaseRHS.Props.OnPlane x → ∑ m, (w.corr.phase 0 c m) ^ 2 ≤ ∑ m, (x m - y.phase 0 c m) ^ 2)
      ∧ ∑ m, w.err.phase 0 c m = 0 := by
  obtain ⟨_, _, h3⟩ := callback ev tp H hd y err w hw
  rw [if_pos htp] at h3
  obtain ⟨b1, b2⟩ := h3.1 c ho
  refine ⟨?_, ?_, ?_⟩
  · have := PhaseRHS.Props.c34_project_lands 3 (by norm_num) (y.phase 0 c)
    show PhaseRHS.Props.OnPlane fun m => y.phase 0 c m + w.corr.phase 0 c m
    rw [b1]
    exact this
  · intro x hx
    rw [b1]
    exact PhaseRHS.Props.c34_project_nearest 3 (y.phase 0 c) x hx
  · rw [b2]
    unfold projectErr
    simp only [Finset.sum_sub_distrib, Finset.sum_const, Finset.card_univ, Fintype.card_fin, nsmul_eq_mul]
    push_cast
    ring

/-- **C107 is violated** on all refined levels: the loop visits level 0 only, the order parameters of the finer cells are not corrected, and
their sum is one afterwards exactly when it was one before. -/
theorem c107_violation_fine {ev tp : Bool} (H : Hier Cell) (hd : Disjoint H) (y err : Vec Cell n) (w : Work Cell n)
    (hw : applyProjection ev tp H y err = some w) (ln : ℕ) (hl : 0 < ln) (c : Cell) :
    (corrected y w.corr).phase ln c = y.phase ln c ∧ w.err.phase ln c = err.phase ln c
      ∧ (PhaseRHS.Props.OnPlane ((corrected y w.corr).phase ln c) ↔ PhaseRHS.Props.OnPlane (y.phase ln c)) := by
  obtain ⟨_, _, h3⟩ := callback ev tp H hd y err w hw
  have hz : w.corr.phase ln c = (fun _ => 0) ∧ w.err.phase ln c = err.phase ln c := by
    cases tp
    · simp only [Bool.false_eq_true, if_false] at h3
      rw [h3.1, h3.2]
      exact ⟨rfl, rfl⟩
    · simp only [if_true] at h3
      exact h3.2 ln c fun h => by omega
  have e : (corrected y w.corr).phase ln c = y.phase ln c := by
    funext m
    show y.phase ln c m + w.corr.phase ln c m = y.phase ln c m
    rw [hz.1]
    ring
  exact ⟨e, hz.2, by rw [e]⟩

/-- So the constraint holds everywhere afterwards exactly when it held on the refined levels before. -/
theorem c107_violation_everywhere {ev tp : Bool} (htp : tp = true) (H : Hier Cell) (hd : Disjoint H) (y err : Vec Cell n) (w : Work Cell n)
    (hw : applyProjection ev tp H y err = some w) :
    (∀ ln c, Owns H ln c → PhaseRHS.Props.OnPlane ((corrected y w.corr).phase ln c))
      ↔ ∀ ln c, 0 < ln → Owns H ln c → PhaseRHS.Props.OnPlane (y.phase ln c) := by
  constructor
  · intro h ln c hl ho
    exact (c107_violation_fine H hd y err w hw ln hl c).2.2.1 (h ln c ho)
  · intro h ln c ho
    rcases Nat.eq_zero_or_pos ln with rfl | hl
    · exact (c107_phases_partial htp H hd y err w hw c ho).1
    · exact (c107_violation_fine H hd y err w hw ln hl c).2.2.2 (h ln c hl ho)

/-- **C107, nothing else moves.** Temperature, composition and all cells outside the levels are left alone, and so are the phases of other
models and orientations given by an angle. -/
theorem c107_rest {ev tp : Bool} (H : Hier Cell) (hd : Disjoint H) (y err : Vec Cell n) (w : Work Cell n)
    (hw : applyProjection ev tp H y err = some w) :
    (corrected y w.corr).other = y.other ∧ w.err.other = err.other
      ∧ (tp = false → (corrected y w.corr).phase = y.phase ∧ w.err.phase = err.phase)
      ∧ (¬ (1 < n ∧ ev = true) → (corrected y w.corr).quat = y.quat ∧ w.err.quat = err.quat)
      ∧ ∀ ln c, ¬ Owns H ln c → (corrected y w.corr).quat ln c = y.quat ln c ∧ (corrected y w.corr).phase ln c = y.phase ln c := by
  obtain ⟨⟨h1, h1'⟩, h2, h3⟩ := callback ev tp H hd y err w hw
  have zq : ∀ ln c, w.corr.quat ln c = (fun _ => 0) → (corrected y w.corr).quat ln c = y.quat ln c := by
    intro ln c h
    funext m
    show y.quat ln c m + w.corr.quat ln c m = y.quat ln c m
    rw [h, add_zero]
  have zp : ∀ ln c, w.corr.phase ln c = (fun _ => 0) → (corrected y w.corr).phase ln c = y.phase ln c := by
    intro ln c h
    funext m
    show y.phase ln c m + w.corr.phase ln c m = y.phase ln c m
    rw [h, add_zero]
  refine ⟨?_, h1', ?_, ?_, ?_⟩
  · funext ln c
    show y.other ln c + w.corr.other ln c = y.other ln c
    rw [h1, add_zero]
  · intro h
    rw [if_neg (by rw [h]; simp)] at h3
    exact ⟨funext fun ln => funext fun c => zp ln c (by rw [h3.1]), h3.2⟩
  · intro h
    rw [if_neg h] at h2
    exact ⟨funext fun ln => funext fun c => zq ln c (by rw [h2.1]), h2.2⟩
  · intro ln c hno
    constructor
    · by_cases hc : 1 < n ∧ ev = true
      · rw [if_pos hc] at h2
        exact zq ln c (h2.2 ln c hno).1
      · rw [if_neg hc] at h2
        exact zq ln c (by rw [h2.1])
    · cases tp
      · simp only [Bool.false_eq_true, if_false] at h3
        exact zp ln c (by rw [h3.1])
      · simp only [if_true] at h3
        exact zp ln c (h3.2 ln c fun h => hno (by rw [h.1]; exact h.2)).1

/-- **C107, second call.** A state that satisfies the constraints is not changed at all. -/
theorem c107_fixed {ev tp : Bool} (H : Hier Cell) (hd : Disjoint H) (y err : Vec Cell n) (w : Work Cell n)
    (hw : applyProjection ev tp H y err = some w) (hq : ∀ ln c, Owns H ln c → dot (y.quat ln c) (y.quat ln c) = 1)
    (hp : ∀ c, Owns H 0 c → PhaseRHS.Props.OnPlane (y.phase 0 c)) : corrected y w.corr = y := by
  obtain ⟨r1, _, r3, r4, r5⟩ := c107_rest H hd y err w hw
  obtain ⟨_, h2, h3⟩ := callback ev tp H hd y err w hw
  have e1 : (corrected y w.corr).quat = y.quat := by
    by_cases hc : 1 < n ∧ ev = true
    · funext ln c
      by_cases ho : Owns H ln c
      · rw [if_pos hc] at h2
        obtain ⟨e, he, _⟩ := OrientSolve.Props.c42_projection_fixes (y.quat ln c) (err.quat ln c) (hq ln c ho)
        rw [h2.1 ln c ho] at he
        have hz : w.corr.quat ln c = 0 := (Prod.ext_iff.1 (Option.some.inj he)).2
        funext m
        show y.quat ln c m + w.corr.quat ln c m = y.quat ln c m
        rw [hz]
        simp
      · exact (r5 ln c ho).1
    · exact (r4 hc).1
  have e2 : (corrected y w.corr).phase = y.phase := by
    cases tp
    · exact (r3 rfl).1
    · funext ln c
      by_cases h0 : ln = 0 ∧ Owns H 0 c
      · obtain ⟨rfl, ho⟩ := h0
        simp only [if_true] at h3
        funext m
        show y.phase 0 c m + w.corr.phase 0 c m = y.phase 0 c m
        rw [(h3.1 c ho).1, PhaseRHS.Props.c34_project_fixed 3 _ (hp c ho), add_zero]
      · simp only [if_true] at h3
        funext m
        show y.phase ln c m + w.corr.phase ln c m = y.phase ln c m
        rw [(h3.2 ln c h0).1, add_zero]
  have : corrected y w.corr = ⟨(corrected y w.corr).phase, (corrected y w.corr).quat, (corrected y w.corr).other⟩ := rfl
  rw [this, e1, e2, r1]

/-! ## Example -/

/-- Two levels, one patch with one cell each. -/
def twoLevels : Hier ℕ := ⟨1, fun _ => [[0]]⟩

theorem twoLevels_disjoint : Disjoint twoLevels := fun _ => by simp [twoLevels]

/-- Phases adding up to 1.2 on both levels: corrected on level 0, kept on level 1. -/
noncomputable def drift : Vec ℕ 1 := ⟨fun _ _ => ![0.5, 0.4, 0.3], fun _ _ _ => 1, fun _ _ => 0⟩

example : ∃ w, applyProjection false true twoLevels drift zeroVec = some w
    ∧ PhaseRHS.Props.OnPlane ((corrected drift w.corr).phase 0 0) ∧ ¬ PhaseRHS.Props.OnPlane ((corrected drift w.corr).phase 1 0) := by
  have hd := twoLevels_disjoint
  cases hw : applyProjection false true twoLevels drift zeroVec with
  | none =>
    have := (c107_defined false true twoLevels hd drift zeroVec).1 hw
    exact absurd this.1 (by norm_num)
  | some w =>
    refine ⟨w, rfl, (c107_phases_partial rfl twoLevels hd drift zeroVec w hw 0 ⟨Nat.zero_le _, [0], by simp [twoLevels], by simp⟩).1, ?_⟩
    rw [(c107_violation_fine twoLevels hd drift zeroVec w hw 1 one_pos 0).2.2]
    unfold PhaseRHS.Props.OnPlane
    intro h
    simp [drift, Fin.sum_univ_three] at h
    norm_num at h

end AMPE.Projection.Props
