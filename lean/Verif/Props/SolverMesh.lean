import Verif.Model.SolverMesh
import Mathlib.Tactic.Linarith
import Mathlib.Data.List.Chain

/-!
# C123: the multigrid solvers work on the current mesh
-/

namespace AMPE.SolverMesh.Props

open AMPE.Remesh AMPE.SolverMesh

/-! ### Specification -/

/-- A solve works on the mesh: on the data it was given, on every level, with schedules between the levels in use. -/
def OnMesh (w : World) (u f : ℤ) (r : Solved) : Prop :=
  r.u = u ∧ r.f = f ∧ r.levels = (List.range w.n).map fun ln => (ln, w.level ln, w.level ln)

/-- What the gridding does: at least one level is left, and the application is told if there are several. -/
def Possible (es : List (ℕ × Bool)) : Prop := ∀ e ∈ es, 1 ≤ e.1 ∧ (2 ≤ e.1 → e.2 = true)

/-- The patch data of a solver: allocated indices of cell-centred variables. -/
def Good (isCell : ℤ → Bool) (sol rhs : ℤ) : Prop := 0 ≤ sol ∧ 0 ≤ rhs ∧ isCell sol = true ∧ isCell rhs = true

/-! ### Helpers -/

/-- The solver is set up for the mesh. -/
def Inv (w : World) (s : Solver) : Prop :=
  s.bc ≠ none ∧ 1 ≤ w.n ∧ (∀ ln < w.n, w.level ln < w.next) ∧ (∀ t, s.work t = true → t < w.next) ∧
    ∃ b, s.st = some b ∧ b.lo = 0 ∧ b.hi + 1 = w.n ∧ ∀ ln < w.n, b.objs ln = w.level ln ∧ s.work (w.level ln) = true

theorem wrappers {isCell : ℤ → Bool} {s : Solver} {u f : ℤ} (h : Good isCell u f) :
    createVectorWrappers isCell s u f = some { s with uv := some u, fv := some f } := by
  obtain ⟨_, _, h1, h2⟩ := h
  unfold createVectorWrappers
  rw [if_neg (by simp [h1]), if_neg (by simp [h2])]

theorem init_full {isCell : ℤ → Bool} {w : World} {s : Solver} {sol rhs c f : ℤ} (h : Good isCell sol rhs) (hb : s.bc ≠ none)
    (hst : s.st = none) (hn : 1 ≤ w.n) (hc : c = -1 ∨ c = 0) (hf : f = -1 ∨ f = (w.n : ℤ) - 1) :
    ∃ s', initState isCell w s sol rhs c f = some s' ∧ s'.bc = s.bc ∧ s'.st = some ⟨0, w.n - 1, w.level⟩ ∧
      ∀ t, s'.work t = (s.work t || (List.range w.n).any fun ln => decide (w.level ln = t)) := by
  have h0 : ¬ (sol < 0 ∨ rhs < 0) := by have := h.1; have := h.2.1; omega
  have hlo : (if c = -1 then 0 else c) = 0 := by split <;> omega
  have hhi : (if f = -1 then (w.n : ℤ) - 1 else f) = (w.n : ℤ) - 1 := by split <;> omega
  unfold initState
  rw [if_neg hb, if_neg (by simp [hst]), if_neg h0, hlo, hhi, wrappers h]
  simp only
  rw [if_neg (by omega), if_neg (by omega)]
  refine ⟨_, rfl, rfl, ?_, ?_⟩
  · simp only [Option.some.injEq, Bound.mk.injEq]
    refine ⟨rfl, by omega, trivial⟩
  · intro t
    have h' : w.n - 1 + 1 = w.n := by omega
    simp [h']

theorem init_inv {isCell : ℤ → Bool} {w : World} {s : Solver} {sol rhs c f : ℤ} (h : Good isCell sol rhs) (hb : s.bc ≠ none)
    (hst : s.st = none) (hn : 1 ≤ w.n) (hl : ∀ ln < w.n, w.level ln < w.next) (hw : ∀ t, s.work t = true → t < w.next)
    (hc : c = -1 ∨ c = 0) (hf : f = -1 ∨ f = (w.n : ℤ) - 1) : ∃ s', initState isCell w s sol rhs c f = some s' ∧ Inv w s' := by
  obtain ⟨s', e, e1, e2, e3⟩ := init_full (c := c) (f := f) h hb hst hn hc hf
  refine ⟨s', e, by rw [e1]; exact hb, hn, hl, ?_, _, e2, rfl, by simp only; omega, fun ln hln => ⟨rfl, ?_⟩⟩
  · intro t ht
    rw [e3, Bool.or_eq_true] at ht
    rcases ht with ht | ht
    · exact hw t ht
    · obtain ⟨ln, a, b⟩ := List.any_eq_true.1 ht
      rw [← of_decide_eq_true b]
      exact hl ln (List.mem_range.1 a)
  · rw [e3, Bool.or_eq_true]
    exact Or.inr (List.any_eq_true.2 ⟨ln, List.mem_range.2 hln, by simp⟩)

theorem filter_zero (n : ℕ) : ((List.range n).filter fun ln => decide (0 ≤ ln)) = List.range n :=
  List.filter_eq_self.2 (by simp)

theorem solve_inv {isCell : ℤ → Bool} {w : World} {s : Solver} {u f : ℤ} (h : Good isCell u f) (hs : Inv w s) :
    ∃ s' r, solve isCell w s u f = some (s', r) ∧ Inv w s' ∧ OnMesh w u f r := by
  obtain ⟨hb, hn, hl, hw, b, e, e0, e1, e2⟩ := hs
  have h0 : ¬ (u < 0 ∨ f < 0) := by have := h.1; have := h.2.1; omega
  unfold solve
  rw [e]
  simp only
  rw [if_neg h0, wrappers h, Option.bind_some]
  simp only
  rw [e0, e1, filter_zero, if_pos]
  · refine ⟨_, _, rfl, ⟨hb, hn, hl, hw, b, e, e0, e1, e2⟩, rfl, rfl, ?_⟩
    exact List.map_congr_left fun ln hln => by rw [(e2 ln (List.mem_range.1 hln)).1]
  · rw [List.all_eq_true]
    intro ln hln
    have hln := List.mem_range.1 hln
    simp [hln, (e2 ln hln).2]

theorem regrid_facts (warm : Bool) (w : World) (n' : ℕ) : (regrid warm w n').n = n' ∧ (regrid warm w n').next = w.next + n' + 1 ∧
    (regrid warm w n').level 0 = w.level 0 ∧ ∀ ln, ln ≠ 0 → (regrid warm w n').level ln = w.next + ln := by
  refine ⟨rfl, rfl, by simp [regrid, reconfigure, install], fun ln h => ?_⟩
  simp [regrid, reconfigure, install, h]

theorem regrid_levels {w : World} (warm : Bool) {n' : ℕ} (h1 : 1 ≤ w.n) (hl : ∀ ln < w.n, w.level ln < w.next) :
    ∀ ln < n', (regrid warm w n').level ln < (regrid warm w n').next := by
  obtain ⟨_, e2, e3, e4⟩ := regrid_facts warm w n'
  intro ln hln
  by_cases h : ln = 0
  · subst h; rw [e3, e2]; have := hl 0 (by omega); omega
  · rw [e4 ln h, e2]; omega

theorem reset_inv {isCell : ℤ → Bool} {w : World} {s : Solver} {sol rhs : ℤ} (warm : Bool) {n' : ℕ} (h : Good isCell sol rhs)
    (hs : Inv w s) (hn : w.n ≤ n') :
    ∃ s', reset isCell (regrid warm w n') s sol rhs = some s' ∧ Inv (regrid warm w n') s' := by
  obtain ⟨hb, h1, hl, hw, b, e, e0, e1, e2⟩ := hs
  have h0 : ¬ (sol < 0 ∨ rhs < 0) := by have := h.1; have := h.2.1; omega
  unfold reset
  rw [if_pos (by simp [e]), if_neg h0]
  unfold deallocate
  rw [e]
  simp only
  rw [if_neg (by rw [(regrid_facts warm w n').1]; omega), Option.bind_some]
  refine init_inv h hb rfl (by rw [(regrid_facts warm w n').1]; omega) (regrid_levels warm h1 hl) ?_ (Or.inl rfl) (Or.inl rfl)
  intro t ht
  have := hw t (Bool.and_eq_true _ _ ▸ ht).1
  rw [(regrid_facts warm w n').2.1]
  omega

theorem start_world (n : ℕ) : ∀ ln < (start n).n, (start n).level ln < (start n).next := fun _ h => h

theorem start_inv {isCell : ℤ → Bool} {n : ℕ} {sol rhs : ℤ} (periodic : Bool) (h : Good isCell sol rhs) (hn : 1 ≤ n) :
    ∃ s, startSolver isCell periodic (start n) sol rhs = some s ∧ Inv (start n) s := by
  have key : ∀ bc : Bc, ∃ s, initState isCell (start n) { create with bc := some bc } sol rhs 0 (((start n).n : ℤ) - 1) = some s ∧
      Inv (start n) s := fun bc =>
    init_inv h (by simp) rfl hn (start_world n) (by simp [create]) (Or.inr rfl) (Or.inr rfl)
  cases periodic
  · exact key .own
  · exact key .simple

theorem steady_inv {isCell : ℤ → Bool} {n : ℕ} {sol rhs : ℤ} (given : Bool) (h : Good isCell sol rhs) (hn : 1 ≤ n) :
    ∃ s, startSteady isCell given (start n) sol rhs = some s ∧ Inv (start n) s := by
  have key : ∀ bc : Bc, ∃ s, initState isCell (start n) { create with bc := some bc } sol rhs 0 (((start n).n : ℤ) - 1) = some s ∧
      Inv (start n) s := fun bc =>
    init_inv h (by simp) rfl hn (start_world n) (by simp [create]) (Or.inr rfl) (Or.inr rfl)
  cases given
  · exact key .simple
  · exact key .own

/-- A solve fails if a level of the range is missing. -/
theorem solve_missing {isCell : ℤ → Bool} {w : World} {s : Solver} {u f : ℤ} {b : Bound} (e : s.st = some b) (hb : b.lo ≤ b.hi)
    (h : w.n ≤ b.hi) : solve isCell w s u f = none := by
  unfold solve
  rw [e]
  simp only
  split
  · rfl
  · rcases hc : createVectorWrappers isCell s u f with _ | s'
    · rfl
    · rw [Option.bind_some]
      rw [if_neg]
      rw [List.all_eq_true]
      intro hh
      have := hh b.hi (by simp [hb])
      simp only [Bool.and_eq_true, decide_eq_true_eq] at this
      omega

/-- A solve fails if a level of the range does not carry the work arrays. -/
theorem solve_bare {isCell : ℤ → Bool} {w : World} {s : Solver} {u f : ℤ} {b : Bound} (e : s.st = some b) {ln : ℕ} (h1 : b.lo ≤ ln)
    (h2 : ln ≤ b.hi) (h : s.work (w.level ln) = false) : solve isCell w s u f = none := by
  unfold solve
  rw [e]
  simp only
  split
  · rfl
  · rcases hc : createVectorWrappers isCell s u f with _ | s'
    · rfl
    · have hs' : s'.work = s.work := by
        unfold createVectorWrappers at hc
        split at hc
        · cases hc
        · split at hc
          · cases hc
          · cases hc; rfl
      rw [Option.bind_some]
      rw [if_neg]
      rw [List.all_eq_true]
      intro hh
      have := hh ln (by simp [h1]; omega)
      simp only [Bool.and_eq_true, hs', h] at this
      exact absurd this.2 (by simp)

/-- One regridding and the next solve, for a solver that is renewed. -/
theorem cycle_renewed {isCell : ℤ → Bool} {sol rhs : ℤ} {w : World} {s : Solver} {e : ℕ × Bool} (h : Good isCell sol rhs)
    (hs : Inv w s) (he : 1 ≤ e.1 ∧ (2 ≤ e.1 → e.2 = true)) :
    (w.n ≤ e.1 → ∃ s' r, cycle (reset isCell) isCell false sol rhs (w, s) e = some ((regrid false w e.1, s'), r) ∧
      Inv (regrid false w e.1) s' ∧ OnMesh (regrid false w e.1) sol rhs r) ∧
    (e.1 < w.n → cycle (reset isCell) isCell false sol rhs (w, s) e = none) := by
  obtain ⟨n', c⟩ := e
  simp only at he ⊢
  constructor
  · intro hn
    have : ∃ s', (if (c && !false) = true then reset isCell (regrid false w n') s sol rhs else some s) = some s' ∧
        Inv (regrid false w n') s' := by
      cases c
      · refine ⟨s, by simp, ?_⟩
        have h1 : n' = 1 := by
          by_contra hh
          exact absurd (he.2 (by omega)) (by simp)
        obtain ⟨hb, h1', hl, hw, b, e, e0, e1, e2⟩ := hs
        have hw1 : w.n = 1 := by omega
        obtain ⟨f1, f2, f3, f4⟩ := regrid_facts false w n'
        refine ⟨hb, by rw [f1]; omega, regrid_levels false h1' hl, ?_, b, e, e0, by rw [f1]; omega, ?_⟩
        · intro t ht
          have := hw t ht
          rw [f2]; omega
        · intro ln hln
          rw [f1] at hln
          have : ln = 0 := by omega
          subst this
          rw [f3]
          exact e2 0 (by omega)
      · obtain ⟨s', a, b⟩ := reset_inv false h hs hn
        exact ⟨s', by simpa using a, b⟩
    obtain ⟨s', a, b⟩ := this
    obtain ⟨s'', r, c1, c2, c3⟩ := solve_inv h b
    refine ⟨s'', r, ?_, c2, c3⟩
    unfold cycle
    simp only
    rw [a, Option.bind_some, c1]
    rfl
  · intro hn
    obtain ⟨hb, h1', hl, hw, b, e, e0, e1, e2⟩ := hs
    unfold cycle
    simp only
    cases c
    · rw [if_neg (by simp), Option.bind_some, solve_missing e (by omega) (by rw [(regrid_facts false w n').1]; omega)]
      rfl
    · rw [if_pos (by simp)]
      unfold reset
      rw [if_pos (by simp [e])]
      split
      · rfl
      · unfold deallocate
        rw [e]
        simp only
        rw [if_pos (by rw [(regrid_facts false w n').1]; omega)]
        rfl

theorem cycles_renewed {isCell : ℤ → Bool} {sol rhs : ℤ} (h : Good isCell sol rhs) (es : List (ℕ × Bool)) :
    ∀ (w : World) (s : Solver), Inv w s → Possible es →
      (List.IsChain (· ≤ ·) (w.n :: es.map Prod.fst) → ∃ l, cycles (reset isCell) isCell false sol rhs (w, s) es = some l ∧
        l.map (fun p => p.1.n) = es.map Prod.fst ∧ ∀ p ∈ l, OnMesh p.1 sol rhs p.2) ∧
      (¬ List.IsChain (· ≤ ·) (w.n :: es.map Prod.fst) → cycles (reset isCell) isCell false sol rhs (w, s) es = none) := by
  induction es with
  | nil =>
    intro w s _ _
    exact ⟨fun _ => ⟨[], rfl, rfl, by simp⟩, fun hh => absurd (by simp) hh⟩
  | cons e es ih =>
    intro w s hs hp
    obtain ⟨up, down⟩ := cycle_renewed h hs (hp e (by simp))
    have hp' : Possible es := fun x hx => hp x (by simp [hx])
    by_cases hn : w.n ≤ e.1
    · obtain ⟨s', r, c1, c2, c3⟩ := up hn
      have hr : (regrid false w e.1).n = e.1 := (regrid_facts false w e.1).1
      obtain ⟨i1, i2⟩ := ih _ s' c2 hp'
      rw [hr] at i1 i2
      constructor
      · intro hc
        rw [List.map_cons, List.isChain_cons_cons] at hc
        obtain ⟨l, l1, l2, l3⟩ := i1 hc.2
        refine ⟨(regrid false w e.1, r) :: l, ?_, ?_, ?_⟩
        · rw [cycles, c1]
          simp [l1]
        · rw [List.map_cons, List.map_cons, l2, hr]
        · intro p hpm
          rcases List.mem_cons.1 hpm with rfl | hpm
          · exact c3
          · exact l3 p hpm
      · intro hc
        have : ¬ List.IsChain (· ≤ ·) (e.1 :: es.map Prod.fst) := fun hh => hc (by
          rw [List.map_cons, List.isChain_cons_cons]; exact ⟨hn, hh⟩)
        rw [cycles, c1]
        simp [i2 this]
    · constructor
      · intro hc
        rw [List.map_cons, List.isChain_cons_cons] at hc
        exact absurd hc.1 hn
      · intro _
        rw [cycles, down (by omega)]
        rfl

/-- A run with a solver that is never renewed. -/
theorem cycles_still {rst : World → Solver → ℤ → ℤ → Option Solver} {isCell : ℤ → Bool} {warm : Bool} {sol rhs : ℤ}
    (h : Good isCell sol rhs) (hr : warm = true ∨ ∀ w s, rst w s sol rhs = some s) (es : List (ℕ × Bool)) :
    ∀ (w : World) (s : Solver), s.bc ≠ none → 1 ≤ w.n → w.level 0 < w.next → (∀ t, s.work t = true → t < w.next) →
      s.work (w.level 0) = true → ∀ b, s.st = some b → b.lo = 0 → b.objs 0 = w.level 0 → Possible es →
      (b.hi = 0 → ∃ l, cycles rst isCell warm sol rhs (w, s) es = some l ∧ l.map (fun p => p.1.n) = es.map Prod.fst ∧
        ∀ p ∈ l, p.2 = ⟨sol, rhs, [(0, p.1.level 0, p.1.level 0)]⟩) ∧
      (0 < b.hi → es ≠ [] → cycles rst isCell warm sol rhs (w, s) es = none) := by
  induction es with
  | nil =>
    intro w s _ _ _ _ _ b _ _ _ _
    exact ⟨fun _ => ⟨[], rfl, rfl, by simp⟩, fun _ hh => absurd rfl hh⟩
  | cons e es ih =>
    intro w s hbc hn hl0 hw h0 b hst hlo ho hp
    have he := hp e (by simp)
    have hp' : Possible es := fun x hx => hp x (by simp [hx])
    obtain ⟨f1, f2, f3, f4⟩ := regrid_facts warm w e.1
    have hkeep : (if (e.2 && !warm) = true then rst (regrid warm w e.1) s sol rhs else some s) = some s := by
      rcases hr with hr | hr
      · rw [hr]; simp
      · rw [hr]; split <;> rfl
    constructor
    · intro hhi
      have hsolve : solve isCell (regrid warm w e.1) s sol rhs =
          some ({ s with uv := some sol, fv := some rhs }, ⟨sol, rhs, [(0, w.level 0, w.level 0)]⟩) := by
        unfold solve
        rw [hst]
        simp only
        rw [if_neg (by have := h.1; have := h.2.1; omega), wrappers h, Option.bind_some]
        simp only
        rw [hlo, hhi, filter_zero]
        rw [if_pos (by
          rw [List.all_eq_true]
          intro ln hln
          have : ln = 0 := by have := List.mem_range.1 hln; omega
          subst this
          rw [f1, f3]
          simp [h0]; omega)]
        simp [f3, ho, hst]
      have hc : cycle rst isCell warm sol rhs (w, s) e = some ((regrid warm w e.1, { s with uv := some sol, fv := some rhs }),
          ⟨sol, rhs, [(0, w.level 0, w.level 0)]⟩) := by
        unfold cycle
        simp only
        rw [hkeep, Option.bind_some, hsolve]
        rfl
      obtain ⟨l, l1, l2, l3⟩ := (ih (regrid warm w e.1) { s with uv := some sol, fv := some rhs } hbc (by rw [f1]; exact he.1)
        (by rw [f3, f2]; omega) (fun t ht => by rw [f2]; have := hw t ht; omega) (by rw [f3]; exact h0) b hst hlo
        (by rw [f3]; exact ho) hp').1 hhi
      refine ⟨(regrid warm w e.1, ⟨sol, rhs, [(0, w.level 0, w.level 0)]⟩) :: l, ?_, ?_, ?_⟩
      · rw [cycles, hc]
        simp [l1]
      · rw [List.map_cons, List.map_cons, l2, f1]
      · intro p hpm
        rcases List.mem_cons.1 hpm with rfl | hpm
        · simp only [f3]
        · exact l3 p hpm
    · intro hhi _
      have : solve isCell (regrid warm w e.1) s sol rhs = none := by
        refine solve_bare hst (ln := 1) (by omega) hhi ?_
        rw [f4 1 one_ne_zero, ← Bool.not_eq_true]
        intro hh
        have := hw _ hh
        omega
      rw [cycles]
      unfold cycle
      simp only
      rw [hkeep, Option.bind_some, this]
      rfl

/-! ### Theorems -/

/-- Before the first regridding every solver works on the mesh, whatever the boundary conditions. -/
theorem c123_start {isCell : ℤ → Bool} {n : ℕ} {sol rhs : ℤ} (flag : Bool) (h : Good isCell sol rhs) (hn : 1 ≤ n) :
    (∃ s s' r, startSolver isCell flag (start n) sol rhs = some s ∧ solve isCell (start n) s sol rhs = some (s', r) ∧
      OnMesh (start n) sol rhs r) ∧
    (∃ s s' r, startSteady isCell flag (start n) sol rhs = some s ∧ solve isCell (start n) s sol rhs = some (s', r) ∧
      OnMesh (start n) sol rhs r) := by
  constructor
  · obtain ⟨s, a, b⟩ := start_inv flag h hn
    obtain ⟨s', r, c, _, d⟩ := solve_inv h b
    exact ⟨s, s', r, a, c, d⟩
  · obtain ⟨s, a, b⟩ := steady_inv flag h hn
    obtain ⟨s', r, c, _, d⟩ := solve_inv h b
    exact ⟨s, s', r, a, c, d⟩

/-- The solvers of the preconditioner follow the mesh through any number of regriddings that do not lower the number of levels.
Missing: regriddings that do (next theorem), and the solver of the steady temperature. -/
theorem c123_follows_partial {isCell : ℤ → Bool} {n : ℕ} {sol rhs : ℤ} (periodic : Bool) (h : Good isCell sol rhs) (hn : 1 ≤ n)
    {es : List (ℕ × Bool)} (hp : Possible es) (hup : List.IsChain (· ≤ ·) (n :: es.map Prod.fst)) :
    ∃ s l, startSolver isCell periodic (start n) sol rhs = some s ∧
      cycles (resetOf isCell .precond) isCell false sol rhs (start n, s) es = some l ∧ l.map (fun p => p.1.n) = es.map Prod.fst ∧
      ∀ p ∈ l, OnMesh p.1 sol rhs p.2 := by
  obtain ⟨s, a, b⟩ := start_inv periodic h hn
  obtain ⟨l, c⟩ := (cycles_renewed h es (start n) s b hp).1 hup
  exact ⟨s, l, a, c⟩

/-- The first regridding that lowers the number of levels ends the run: the solver releases its work arrays on levels that are gone. -/
theorem c123_violation_fewer_levels {isCell : ℤ → Bool} {n : ℕ} {sol rhs : ℤ} (periodic : Bool) (h : Good isCell sol rhs)
    (hn : 1 ≤ n) {es : List (ℕ × Bool)} (hp : Possible es) {s : Solver} (hs : startSolver isCell periodic (start n) sol rhs = some s) :
    cycles (resetOf isCell .precond) isCell false sol rhs (start n, s) es = none ↔
      ¬ List.IsChain (· ≤ ·) (n :: es.map Prod.fst) := by
  obtain ⟨s', a, b⟩ := start_inv periodic h hn
  rw [a, Option.some.injEq] at hs
  subst hs
  obtain ⟨up, down⟩ := cycles_renewed h es (start n) s' b hp
  refine ⟨fun hh hc => ?_, down⟩
  obtain ⟨l, hl, _⟩ := up hc
  have : cycles (resetOf isCell .precond) isCell false sol rhs (start n, s') es = some l := hl
  rw [hh] at this
  cases this

/-- The solver of the steady temperature is never renewed.  If the run starts with several levels, it fails after the first regridding;
if it starts with one level, the temperature is solved on that level only, however many there are. -/
theorem c123_violation_steady {isCell : ℤ → Bool} {n : ℕ} {sol rhs : ℤ} (given : Bool) (h : Good isCell sol rhs) (hn : 1 ≤ n)
    {es : List (ℕ × Bool)} (hp : Possible es) :
    ∃ s, startSteady isCell given (start n) sol rhs = some s ∧
      (2 ≤ n → es ≠ [] → cycles (resetOf isCell .steady) isCell false sol rhs (start n, s) es = none) ∧
      (n = 1 → ∃ l, cycles (resetOf isCell .steady) isCell false sol rhs (start n, s) es = some l ∧
        l.map (fun p => p.1.n) = es.map Prod.fst ∧ ∀ p ∈ l, p.2.levels.map Prod.fst = [0] ∧
          (OnMesh p.1 sol rhs p.2 ↔ p.1.n = 1)) := by
  obtain ⟨s, a, hb, h1, hl, hw, b, e, e0, e1, e2⟩ := steady_inv (n := n) given h hn
  obtain ⟨k1, k2⟩ := cycles_still (rst := resetOf isCell .steady) (warm := false) h (Or.inr fun _ _ => rfl) es (start n) s hb h1
    (hl 0 (by omega)) hw (e2 0 (by omega)).2 b e e0 (e2 0 (by omega)).1 hp
  have hbn : b.hi + 1 = n := e1
  refine ⟨s, a, fun h2 => k2 (by omega), fun h2 => ?_⟩
  obtain ⟨l, l1, l2, l3⟩ := k1 (by omega)
  refine ⟨l, l1, l2, fun p hpm => ?_⟩
  rw [l3 p hpm]
  refine ⟨rfl, ⟨fun hm => ?_, fun hm => ⟨rfl, rfl, ?_⟩⟩⟩
  · have := congrArg List.length hm.2.2
    simpa using this.symm
  · rw [hm]; rfl

/-- If the function of one argument is called, the steady temperature follows the mesh like the other solvers. -/
theorem c123_repair_steady {isCell : ℤ → Bool} {n : ℕ} {sol rhs : ℤ} (given : Bool) (h : Good isCell sol rhs) (hn : 1 ≤ n)
    {es : List (ℕ × Bool)} (hp : Possible es) (hup : List.IsChain (· ≤ ·) (n :: es.map Prod.fst)) :
    ∃ s l, startSteady isCell given (start n) sol rhs = some s ∧
      cycles (resetFixed isCell .steady) isCell false sol rhs (start n, s) es = some l ∧ l.map (fun p => p.1.n) = es.map Prod.fst ∧
      ∀ p ∈ l, OnMesh p.1 sol rhs p.2 := by
  obtain ⟨s, a, b⟩ := steady_inv given h hn
  obtain ⟨l, c⟩ := (cycles_renewed h es (start n) s b hp).1 hup
  exact ⟨s, l, a, c⟩

/-- With `use_warm_start` in a build without CPODES no solver is renewed: a run with several levels fails after the first regridding. -/
theorem c123_violation_warm {isCell : ℤ → Bool} {n : ℕ} {sol rhs : ℤ} (periodic : Bool) (h : Good isCell sol rhs) (hn : 2 ≤ n)
    {es : List (ℕ × Bool)} (hp : Possible es) (hes : es ≠ []) :
    ∃ s, startSolver isCell periodic (start n) sol rhs = some s ∧
      cycles (resetOf isCell .precond) isCell true sol rhs (start n, s) es = none := by
  obtain ⟨s, a, hb, h1, hl, hw, b, e, e0, e1, e2⟩ := start_inv (n := n) periodic h (by omega)
  have hbn : b.hi + 1 = n := e1
  exact ⟨s, a, (cycles_still (rst := resetOf isCell .precond) (warm := true) h (Or.inl rfl) es (start n) s hb h1
    (hl 0 (by omega)) hw (e2 0 (by omega)).2 b e e0 (e2 0 (by omega)).1 hp).2 (by omega) hes⟩

/-- `initializeSolverState` of a solver that is initialised has no effect, whatever mesh, data and range are given. -/
theorem c123_violation_initialise_again (isCell : ℤ → Bool) (w : World) (s : Solver) (sol rhs c f : ℤ) (hb : s.bc ≠ none)
    (hs : s.st ≠ none) : initState isCell w s sol rhs c f = some s := by
  unfold initState
  rw [if_neg hb, if_pos (Option.isSome_iff_ne_none.2 hs)]

/-- `resetSolverState` gives the range of all levels, also to a solver that was initialised for a part of them. -/
theorem c123_violation_reset_range {isCell : ℤ → Bool} {w : World} {s s' : Solver} {sol rhs : ℤ} (hs : s.st ≠ none)
    (h : reset isCell w s sol rhs = some s') : ∃ b, s'.st = some b ∧ b.lo = 0 ∧ b.hi + 1 = w.n ∧ b.objs = w.level := by
  unfold reset at h
  rw [if_pos (Option.isSome_iff_ne_none.2 hs)] at h
  split at h
  · cases h
  · rename_i hid
    obtain ⟨s1, h1, h2⟩ := Option.bind_eq_some_iff.1 h
    have hst : s1.st = none := by
      unfold deallocate at h1
      split at h1
      · exact absurd ‹_› hs
      · split at h1
        · cases h1
        · cases h1; rfl
    unfold initState at h2
    split at h2
    · cases h2
    · simp only [hst, Option.isSome_none, Bool.false_eq_true, if_false, if_neg hid] at h2
      simp only [if_true] at h2
      by_cases hlo : (0 : ℤ) < 0 ∨ (w.n : ℤ) - 1 < 0 ∨ (0 : ℤ) > (w.n : ℤ) - 1
      · rw [if_pos hlo] at h2
        cases h2
      · rw [if_neg hlo, if_neg (by omega)] at h2
        obtain ⟨s2, _, h3⟩ := Option.map_eq_some_iff.1 h2
        subst h3
        exact ⟨_, rfl, rfl, by simp only; omega, rfl⟩

/-- The solve that brings its own mesh leaves the solver as it found it, uninitialised, and works on the levels asked for. -/
theorem c123_once {isCell : ℤ → Bool} {w : World} {s s' : Solver} {u f c d : ℤ} {r : Solved}
    (h : solveOnce isCell w s u f c d = some (s', r)) :
    s.st = none ∧ s'.st = none ∧ s'.bc = s.bc ∧ r.u = u ∧ r.f = f ∧
      ∀ ln : ℕ, ∀ p, (ln, p) ∈ r.levels ↔ (if c = -1 then 0 else c) ≤ (ln : ℤ) ∧
        (ln : ℤ) ≤ (if d = -1 then (w.n : ℤ) - 1 else d) ∧ p = (w.level ln, w.level ln) := by
  unfold solveOnce at h
  split at h
  · cases h
  · rename_i hst
    rw [Option.not_isSome_iff_eq_none] at hst
    obtain ⟨s1, h1, h2⟩ := Option.bind_eq_some_iff.1 h
    obtain ⟨⟨s2, r2⟩, h3, h4⟩ := Option.bind_eq_some_iff.1 h2
    obtain ⟨s3, h5, h6⟩ := Option.map_eq_some_iff.1 h4
    simp only [Prod.mk.injEq] at h6
    obtain ⟨rfl, rfl⟩ := h6
    unfold initState at h1
    split at h1
    · cases h1
    rw [if_neg (by simp [hst])] at h1
    split at h1
    · cases h1
    simp only at h1
    generalize hlo : (if c = -1 then 0 else c) = lo at h1 ⊢
    generalize hhi : (if d = -1 then (w.n : ℤ) - 1 else d) = hi at h1 ⊢
    split at h1
    · cases h1
    rename_i hr
    split at h1
    · cases h1
    obtain ⟨s0, h0, h7⟩ := Option.map_eq_some_iff.1 h1
    have hbc : s0.bc = s.bc := by
      unfold createVectorWrappers at h0
      split at h0
      · cases h0
      · split at h0
        · cases h0
        · cases h0; rfl
    have hst1 : s1.st = some ⟨lo.toNat, hi.toNat, w.level⟩ := by rw [← h7]
    have hbc1 : s1.bc = s.bc := by rw [← h7]; exact hbc
    unfold solve at h3
    rw [hst1] at h3
    simp only at h3
    split at h3
    · cases h3
    obtain ⟨s4, h8, h9⟩ := Option.bind_eq_some_iff.1 h3
    split at h9
    · rw [Option.some.injEq, Prod.mk.injEq] at h9
      obtain ⟨rfl, rfl⟩ := h9
      have hs4 : s4.bc = s1.bc ∧ s4.st = s1.st := by
        unfold createVectorWrappers at h8
        split at h8
        · cases h8
        · split at h8
          · cases h8
          · cases h8; exact ⟨rfl, rfl⟩
      have h5' : s3.st = none ∧ s3.bc = s4.bc := by
        unfold deallocate at h5
        rw [hs4.2, hst1] at h5
        simp only at h5
        split at h5
        · cases h5
        · cases h5; exact ⟨rfl, rfl⟩
      refine ⟨hst, h5'.1, by rw [h5'.2, hs4.1, hbc1], rfl, rfl, fun ln p => ?_⟩
      rw [List.mem_map]
      constructor
      · rintro ⟨k, hk, hkp⟩
        rw [List.mem_filter, List.mem_range, decide_eq_true_eq] at hk
        rw [Prod.mk.injEq] at hkp
        obtain ⟨rfl, rfl⟩ := hkp
        exact ⟨by omega, by omega, rfl⟩
      · rintro ⟨h1, h2, rfl⟩
        exact ⟨ln, by rw [List.mem_filter, List.mem_range, decide_eq_true_eq]; omega, rfl⟩
    · cases h9

/-- **C123**: releasing the state of a solver releases its work arrays on the present levels of its range and on no other level. -/
theorem c123_release {w : World} {s s' : Solver} {b : Bound} (hb : s.st = some b) (h : deallocate w s = some s') (t : ℕ) :
    s'.work t = true ↔ s.work t = true ∧ ∀ ln, b.lo ≤ ln → ln ≤ b.hi → w.level ln ≠ t := by
  unfold deallocate at h
  rw [hb] at h
  simp only at h
  split at h
  · cases h
  · cases h
    simp only [Bool.and_eq_true, Bool.not_eq_true', List.any_eq_false, List.mem_range, decide_eq_true_eq, not_and]
    refine and_congr_right fun _ => ⟨fun h ln h1 h2 => h ln (by omega) h1, fun h ln h1 h2 => h ln h2 (by omega)⟩

/-- The boundary condition object: a simple one can be replaced by a given one, not the other way round; without one the solver cannot be
initialised. -/
theorem c123_boundaries (isCell : ℤ → Bool) (w : World) (s : Solver) (sol rhs c f : ℤ) :
    (setBcObject s).bc = some .own ∧ setBoundaries (setBcObject s) = none ∧
      (s.bc = none → initState isCell w s sol rhs c f = none) := by
  refine ⟨rfl, by simp [setBoundaries, setBcObject], fun h => ?_⟩
  unfold initState
  rw [if_pos h]

/-! ### Examples -/

/-- Two levels, then three, then three: the preconditioner follows, the steady temperature fails. -/
example : Good (fun _ => true) 4 5 ∧ Possible [(3, true), (3, true)] ∧
    List.IsChain (· ≤ ·) (2 :: [((3 : ℕ), true), (3, true)].map Prod.fst) := by
  refine ⟨⟨by norm_num, by norm_num, rfl, rfl⟩, ?_, by simp⟩
  intro e he
  simp at he
  rw [he]; simp

/-- Two levels, then one. -/
example : Possible [(1, false)] ∧ ¬ List.IsChain (· ≤ ·) (2 :: [((1 : ℕ), false)].map Prod.fst) := by
  refine ⟨?_, by simp⟩
  intro e he
  simp at he
  rw [he]; simp

/-- A solver for the finer one of two levels; after a reset on the same mesh it works on both. -/
example : ∃ s, initState (fun _ => true) (start 2) (setBcObject create) 4 5 1 1 = some s ∧ s.st.map Bound.lo = some 1 ∧
    (reset (fun _ => true) (start 2) s 4 5).bind (fun s => s.st.map Bound.lo) = some 0 := ⟨_, rfl, rfl, rfl⟩

end AMPE.SolverMesh.Props
