import Verif.Model.Remesh
import Mathlib.Tactic.Linarith

/-!
# C102: rates are evaluated on the mesh in use

Specification: `Current w r` — flux matching goes through all pairs of successive levels in use, finest first.
-/

namespace AMPE.Remesh.Props

open AMPE.Remesh

/-- Pairs of successive levels in use, finest first. -/
def current (w : World) : List (ℕ × ℕ) := ((List.range (w.n - 1)).map fun ln => (w.level ln, w.level (ln + 1))).reverse

/-- Levels in use have their data, and their objects are among those created. -/
structure Sound (w : World) : Prop where
  data : ∀ ln, ln < w.n → w.data (w.level ln) = true
  old : ∀ ln, ln < w.n → w.level ln < w.next
  inj : ∀ a b, a < w.n → b < w.n → w.level a = w.level b → a = b

theorem sound_start (n : ℕ) : Sound (start n) :=
  ⟨fun ln h => by simpa [start] using h, fun ln h => by simpa [start] using h, fun a b _ _ h => by simpa [start] using h⟩

theorem sound_install (n' : ℕ) (w : World) (h : Sound w) (hn : 0 < w.n) : Sound (install n' w) := by
  have h0 := h.old 0 hn
  refine ⟨?_, ?_, ?_⟩
  · intro ln hl
    simp only [install] at hl ⊢
    by_cases hz : ln = 0
    · subst hz
      simp only [if_true]
      rw [if_neg (by omega), if_neg, h.data 0 hn]
      rintro ⟨k, hk, hk0, he⟩
      have hk' : k < w.n := by
        have := List.mem_range.1 hk
        omega
      have := h.inj k 0 hk' hn he
      omega
    · simp only [hz, if_false]
      rw [if_pos ⟨by omega, by omega⟩]
  · intro ln hl
    simp only [install] at hl ⊢
    by_cases hz : ln = 0
    · subst hz
      simp only [if_true]
      omega
    · simp only [hz, if_false]
      omega
  · intro a b ha hb he
    simp only [install] at ha hb he
    by_cases hza : a = 0 <;> by_cases hzb : b = 0 <;> simp only [hza, hzb, if_true, if_false] at he <;> omega

theorem sound_regrid (warm : Bool) (n' : ℕ) (w : World) (h : Sound w) (hn : 0 < w.n) : Sound (regrid warm w n') :=
  let g := sound_install n' w h hn
  ⟨g.data, g.old, g.inj⟩

theorem coarsen_current (w : World) (h : Sound w) (len : ℕ) (v : ℕ → Option (ℕ × ℕ))
    (hv : ∀ ln, ln + 1 < w.n → ln < len ∧ v ln = some (w.level ln, w.level (ln + 1))) (k : ℕ) (hk : k ≤ w.n - 1) :
    coarsen len v w.data k = some ((List.range k).map fun ln => (w.level ln, w.level (ln + 1))).reverse := by
  induction k with
  | zero => rfl
  | succ k ih =>
    have hl : k + 1 < w.n := by omega
    obtain ⟨h1, h2⟩ := hv k hl
    simp only [coarsen, if_pos h1, h2, h.data k (by omega), h.data (k + 1) hl, Bool.and_self, if_true, ih (by omega),
      Option.map_some, List.range_succ, List.map_append, List.map_cons, List.map_nil, List.reverse_append, List.reverse_cons,
      List.reverse_nil, List.nil_append, List.cons_append]

/-- What a run keeps: levels sound, schedules of the integrator current, strategy as set up at the start. -/
structure Inv (warm : Bool) (n : ℕ) (w : World) : Prop where
  sound : Sound w
  pos : 0 < w.n
  own : ∀ ln, ln + 1 < w.n → ln < w.ownLen ∧ w.own ln = some (w.level ln, w.level (ln + 1))
  strat : w.strat = pairs n fun ln => ln
  len : w.stratLen = n
  zero : w.level 0 = 0
  held : w.held = 0

theorem inv_start (warm : Bool) (n : ℕ) (hn : 0 < n) : Inv warm n (start n) :=
  ⟨sound_start n, hn, fun ln h => ⟨by simp only [start] at h ⊢; omega, by simp only [start] at h ⊢; simp [pairs, h]⟩, rfl, rfl, rfl, rfl⟩

theorem inv_regrid (warm : Bool) (n n' : ℕ) (hn : 0 < n') (w : World) (h : Inv warm n w) : Inv warm n (regrid warm w n') := by
  refine ⟨sound_regrid warm n' w h.sound h.pos, hn, ?_, h.strat, h.len, ?_, h.held⟩
  · intro ln hl
    simp only [regrid, reconfigure] at hl ⊢
    refine ⟨by omega, ?_⟩
    rw [if_pos hl]
  · simpa [regrid, reconfigure, install] using h.zero

theorem inv_foldl (warm : Bool) (n : ℕ) (ns : List ℕ) (hns : ∀ m ∈ ns, 0 < m) (w : World) (h : Inv warm n w) :
    Inv warm n (ns.foldl (regrid warm) w) := by
  induction ns generalizing w with
  | nil => exact h
  | cons m ns ih =>
    exact ih (fun k hk => hns k (List.mem_cons_of_mem _ hk)) _ (inv_regrid warm n m (hns m List.mem_cons_self) w h)

/-- **C102**: fluxes of the composition are matched on the mesh in use, after any number of regriddings with any numbers of levels. -/
theorem c102_composition (warm : Bool) (n : ℕ) (hn : 0 < n) (ns : List ℕ) (hns : ∀ m ∈ ns, 0 < m) :
    compositionRate (run warm n ns) = some (current (run warm n ns)) := by
  have h := inv_foldl warm n ns hns _ (inv_start warm n hn)
  exact coarsen_current _ h.sound _ _ h.own _ le_rfl

/-- **C102 (until the first regridding)**: the phase rate is evaluated on the mesh in use; a run with one level never gets
further than that. -/
theorem c102_phase_partial (warm : Bool) (n : ℕ) (hn : 0 < n) (due : List ℕ) (maxLevels : ℕ) (h : maxLevels ≤ 1 ∨ due = []) :
    phaseRate (run warm n (regrids maxLevels due)) = some (current (run warm n (regrids maxLevels due))) := by
  have hr : regrids maxLevels due = [] := by
    rcases h with h | h
    · simp [regrids, Nat.not_lt.2 h]
    · simp [regrids, h]
  rw [hr]
  have hi := inv_start warm n hn
  show phaseRate (start n) = some (current (start n))
  unfold phaseRate
  rw [if_pos (show (start n).held = (start n).solver from rfl)]
  refine coarsen_current _ hi.sound _ _ ?_ _ le_rfl
  intro ln hl
  simp only [start] at hl ⊢
  exact ⟨by omega, by simp [pairs, hl]⟩

theorem solver_foldl (ns : List ℕ) (w : World) : (ns.foldl (regrid false) w).solver = w.solver + ns.length := by
  induction ns generalizing w with
  | nil => rfl
  | cons m ns ih =>
    rw [List.foldl_cons, ih]
    simp only [regrid, reconfigure, install, List.length_cons, Bool.false_eq_true, if_false]
    omega

/-- **C102, violated**: without warm start (the default) every evaluation of the phase rate after a regridding uses a time integrator
object that has been deleted. -/
theorem c102_violation_deleted (n : ℕ) (hn : 0 < n) (ns : List ℕ) (hns : ∀ m ∈ ns, 0 < m) (h : ns ≠ []) :
    phaseRate (run false n ns) = none := by
  have hi := inv_foldl false n ns hns _ (inv_start false n hn)
  have hs := solver_foldl ns (start n)
  have hl : 0 < ns.length := List.length_pos_iff.2 h
  unfold phaseRate
  rw [if_neg]
  rw [show (run false n ns).held = 0 from hi.held, show (run false n ns).solver = 0 + ns.length from hs]
  omega

/-- The object used for level 1 after a regridding is not the one of the start. -/
theorem level_one (warm : Bool) (n : ℕ) (ns : List ℕ) (hns : ∀ m ∈ ns, 0 < m) (w : World) (hw : 1 ≤ w.next) (h : ns ≠ []) :
    1 < (ns.foldl (regrid warm) w).level 1 := by
  induction ns generalizing w with
  | nil => exact absurd rfl h
  | cons m ns ih =>
    by_cases hn : ns = []
    · subst hn
      simp only [List.foldl_cons, List.foldl_nil, regrid, reconfigure, install]
      rw [if_neg (by omega)]
      omega
    · refine ih (fun k hk => hns k (List.mem_cons_of_mem _ hk)) _ ?_ hn
      simp only [regrid, reconfigure, install]
      omega

theorem coarsen_last (len : ℕ) (v : ℕ → Option (ℕ × ℕ)) (data : ℕ → Bool) (k : ℕ) (r : List (ℕ × ℕ))
    (h : coarsen len v data (k + 1) = some r) : ∃ p, v 0 = some p ∧ r.getLast? = some p := by
  induction k generalizing r with
  | zero =>
    simp only [coarsen] at h
    by_cases h1 : 0 < len
    · rw [if_pos h1] at h
      cases hv : v 0 with
      | none => rw [hv] at h; simp at h
      | some p =>
        rw [hv] at h
        simp only at h
        split at h
        · simp only [Option.map_some, Option.some.injEq] at h
          exact ⟨p, rfl, by rw [← h]; rfl⟩
        · simp at h
    · rw [if_neg h1] at h
      simp at h
  | succ k ih =>
    rw [coarsen] at h
    split at h
    · cases hv : v (k + 1) with
      | none => rw [hv] at h; simp at h
      | some q =>
        rw [hv] at h
        simp only at h
        split at h
        · cases hc : coarsen len v data (k + 1) with
          | none => rw [hc] at h; simp at h
          | some r' =>
            rw [hc] at h
            simp only [Option.map_some, Option.some.injEq] at h
            obtain ⟨p, hp, hl⟩ := ih r' hc
            refine ⟨p, hp, ?_⟩
            rw [← h, List.getLast?_cons, hl]
            rfl
        · simp at h
    · simp at h

theorem current_last (w : World) (hn : 2 ≤ w.n) : (current w).getLast? = some (w.level 0, w.level 1) := by
  obtain ⟨k, hk⟩ : ∃ k, w.n - 1 = k + 1 := ⟨w.n - 2, by omega⟩
  simp [current, hk, List.range_succ_eq_map]

/-- **C102, violated**: with a valid pointer to the time integrator the phase rate still is never evaluated on the mesh in use once a
regridding has taken place and there is more than one level: the schedules are those of the start. -/
theorem c102_violation_schedules (warm : Bool) (n : ℕ) (hn : 0 < n) (ns : List ℕ) (hns : ∀ m ∈ ns, 0 < m) (h : ns ≠ [])
    (hl : 2 ≤ (run warm n ns).n) : phaseRateLive (run warm n ns) ≠ some (current (run warm n ns)) := by
  intro hc
  have hi := inv_foldl warm n ns hns _ (inv_start warm n hn)
  have h1 : 1 < (run warm n ns).level 1 := level_one warm n ns hns (start n) hn h
  obtain ⟨k, hk⟩ : ∃ k, (run warm n ns).n - 1 = k + 1 := ⟨(run warm n ns).n - 2, by omega⟩
  unfold phaseRateLive at hc
  rw [hk] at hc
  obtain ⟨p, hp, hlast⟩ := coarsen_last _ _ _ _ _ hc
  rw [current_last _ hl] at hlast
  rw [show (run warm n ns).strat = pairs n fun ln => ln from hi.strat] at hp
  simp only [pairs] at hp
  split at hp
  · simp only [Option.some.injEq] at hp hlast
    rw [← hp] at hlast
    have := congrArg Prod.snd hlast
    simp only at this
    omega
  · simp at hp

/-- **C102, violated**: a regridding that keeps at least two levels makes the next evaluation use released data. -/
theorem c102_violation_released (warm : Bool) (n n' : ℕ) (hn : 2 ≤ n) (hn' : 2 ≤ n') : phaseRateLive (run warm n [n']) = none := by
  obtain ⟨k, hk⟩ : ∃ k, n' - 1 = k + 1 := ⟨n' - 2, by omega⟩
  cases hc : phaseRateLive (run warm n [n']) with
  | none => rfl
  | some r =>
    exfalso
    have hd : (run warm n [n']).data 1 = false := by
      simp only [run, List.foldl_cons, List.foldl_nil, regrid, reconfigure, install, start]
      rw [if_neg (by omega), if_pos ⟨1, List.mem_range.2 (by omega), by omega, rfl⟩]
    have : ∀ k, coarsen (run warm n [n']).stratLen (run warm n [n']).strat (run warm n [n']).data (k + 1) = none := by
      intro k
      induction k with
      | zero =>
        have hs : (run warm n [n']).strat 0 = some (0, 1) := by
          simp only [run, List.foldl_cons, List.foldl_nil, regrid, reconfigure, install, start, pairs]
          rw [if_pos (by omega)]
        simp only [coarsen, hs, hd, Bool.and_false, Bool.false_eq_true, if_false]
        split <;> rfl
      | succ k ih =>
        rw [coarsen]
        split
        · split
          · split
            · rw [ih]; rfl
            · rfl
          · rfl
        · rfl
    have hn2 : (run warm n [n']).n - 1 = k + 1 := hk
    rw [phaseRateLive, hn2, this k] at hc
    simp at hc

/-- **C102, violated**: a run that has more levels than at the start uses entries beyond the end of the vector. -/
theorem c102_violation_growth (warm : Bool) (n : ℕ) (hn : 0 < n) (ns : List ℕ) (hns : ∀ m ∈ ns, 0 < m)
    (hl : n < (run warm n ns).n) : phaseRateLive (run warm n ns) = none := by
  have hi := inv_foldl warm n ns hns _ (inv_start warm n hn)
  obtain ⟨k, hk⟩ : ∃ k, (run warm n ns).n - 1 = k + 1 := ⟨(run warm n ns).n - 2, by omega⟩
  have hs : (run warm n ns).strat k = none := by
    rw [show (run warm n ns).strat = pairs n fun ln => ln from hi.strat]
    simp only [pairs]
    rw [if_neg (by omega)]
  rw [phaseRateLive, hk, coarsen, hs]
  split <;> rfl

/-- The missing step: renew the schedules and the pointer of the strategy whenever the mesh has changed. -/
def renew (w : World) : World := { w with stratLen := w.n, strat := pairs w.n w.level, held := w.solver }

/-- **C102**: renewing both after each regridding would restore the property for every history. -/
theorem c102_repair (warm : Bool) (n : ℕ) (hn : 0 < n) (ns : List ℕ) (hns : ∀ m ∈ ns, 0 < m) :
    phaseRate (renew (run warm n ns)) = some (current (run warm n ns)) := by
  have hi := inv_foldl warm n ns hns _ (inv_start warm n hn)
  unfold phaseRate
  rw [if_pos (show (renew (run warm n ns)).held = (renew (run warm n ns)).solver from rfl)]
  refine coarsen_current (renew (run warm n ns)) ⟨hi.sound.data, hi.sound.old, hi.sound.inj⟩ _ _ ?_ _ le_rfl
  intro ln hl
  have hl' : ln + 1 < (run warm n ns).n := hl
  refine ⟨by show ln < (run warm n ns).n; omega, ?_⟩
  show pairs _ _ ln = _
  simp only [pairs]
  exact if_pos hl'

/-! ## Non-vacuity -/

example : phaseRate (start 3) = some [(1, 2), (0, 1)] := by decide

example : compositionRate (run false 3 [3]) = some [(4, 5), (0, 4)] := by decide

example : phaseRate (run false 3 [3]) = none := by decide

example : phaseRateLive (run true 2 [2]) = none := by decide

/-- A level that vanishes and comes back: fluxes of the object that is no longer in use are taken. -/
example : phaseRateLive (run true 2 [1, 2]) = some [(0, 1)] ∧ current (run true 2 [1, 2]) = [(0, 5)] := by decide

end AMPE.Remesh.Props
