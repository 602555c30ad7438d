import Verif.Model.StepCall
import Mathlib.Tactic.Linarith
import Mathlib.Tactic.Ring
import Mathlib.Tactic.NormNum

/-!
# C98: one run is one trajectory

Specification: time shown by the run, time of the integrator and time inside the library agree at every moment; a step starts
where the previous one ended; a reset continues from the fields held at that moment.
-/

namespace AMPE.StepCall.Props

open AMPE.StepCall

variable {Y T H : Type}

/-- All clocks agree, and a pending initialisation would not turn any of them back. -/
def Clocks (s : Run Y T H) : Prop := s.time = s.cur ∧ (if s.pending then s.t0 = s.cur else s.mem.t = s.cur)

theorem advance_eq {lib : Lib Y T H} {u : Bool} {crs : Y → Y} {crsT : T → T} {s s' : Run Y T H}
    (h : advance lib u crs crsT s = some s') :
    ∃ r, lib.step (init lib s).mem.t (init lib s).mem.y (init lib s).mem.th (init lib s).mem.hist = some r ∧
      s'.cur = (init lib s).mem.t + r.h ∧ s'.time = s.time + r.h ∧ s'.mem = ⟨(init lib s).mem.t + r.h, r.y, r.th, r.hist,
        (init lib s).mem.work + r.work⟩ ∧ s'.pending = false ∧ s'.prev = r.h ∧ s'.y = crs r.y ∧
      s'.th = (if u then crsT r.evalT else r.evalT) ∧ s'.cum = (init lib s).mem.work + r.work ∧
      s'.shown = (init lib s).mem.work + r.work - s.cum := by
  unfold advance at h
  obtain ⟨r, hr, rfl⟩ := Option.map_eq_some_iff.mp h
  have hp : (init lib s).pending = false := by
    unfold init; cases hs : s.pending <;> simp [hs]
  have ht : (init lib s).time = s.time := by
    unfold init; cases hs : s.pending <;> simp
  have hc : (init lib s).cum = s.cum := by
    unfold init; cases hs : s.pending <;> simp
  refine ⟨r, hr, rfl, ?_, rfl, hp, rfl, rfl, rfl, rfl, ?_⟩
  · simp only [ht]
  · simp only [hc]

theorem init_t {lib : Lib Y T H} {s : Run Y T H} (h : Clocks s) : (init lib s).mem.t = s.cur := by
  obtain ⟨-, h2⟩ := h
  unfold init
  cases hs : s.pending
  · simpa [hs] using h2
  · simpa [hs] using h2

/-- **C98** Whatever sequence of steps, changes of the fields and regrids follows: the clocks agree after every event, and each
step advances all of them by its own length, which is the step size reported. -/
theorem c98_clocks (lib : Lib Y T H) (u : Bool) (crs : Y → Y) (crsT : T → T) (l : List (Ev Y T)) (s s' : Run Y T H) (h : Clocks s)
    (hs : evs lib u crs crsT l s = some s') : Clocks s' := by
  have one : ∀ (s s' : Run Y T H) (e : Ev Y T), Clocks s → ev lib u crs crsT s e = some s' → Clocks s' := by
    intro s s' e h he
    cases e with
    | advance =>
      obtain ⟨r, -, a1, a2, a3, a4, -⟩ := advance_eq he
      rw [init_t h] at a1 a3
      refine ⟨by rw [a1, a2, h.1], ?_⟩
      rw [a4, a3, a1]; simp
    | edit g => simp only [ev, Option.some.injEq] at he; subst he; exact h
    | regrid g =>
      simp only [ev, Option.some.injEq] at he; subst he
      refine ⟨h.1, ?_⟩
      simp [regrid, reset, init, edit]
  induction l generalizing s with
  | nil => simp only [evs, Option.some.injEq] at hs; subst hs; exact h
  | cons e l ih =>
    simp only [evs] at hs
    cases he : ev lib u crs crsT s e with
    | none => rw [he] at hs; simp at hs
    | some s1 => rw [he] at hs; exact ih s1 (one s s1 e h he) hs

/-- **C98** A step advances the time of the run by the step size it reports, from the time where the last one ended. -/
theorem c98_step_time (lib : Lib Y T H) (u : Bool) (crs : Y → Y) (crsT : T → T) (s s' : Run Y T H) (h : Clocks s)
    (hs : advance lib u crs crsT s = some s') : s'.time = s.time + s'.prev ∧ s'.cur = s.cur + s'.prev := by
  obtain ⟨r, -, a1, a2, -, -, a5, -⟩ := advance_eq hs
  rw [init_t h] at a1
  exact ⟨by rw [a2, a5], by rw [a1, a5]⟩

/-- **C98** After initialisation, and after setting the step size of a restarted run, the first step starts at the start time
from the fields held at that moment, with the step size asked for; also if the fields were changed in between. -/
theorem c98_first_step (lib : Lib Y T H) (u : Bool) (crs : Y → Y) (crsT : T → T) (s : Run Y T H) (g : Y × T → Y × T)
    (dt : ℝ) (ht : s.time = s.cur) :
    Clocks (start lib s) ∧ Clocks (setTimestep dt (reset lib s)) ∧
    (advance lib u crs crsT (edit g (start lib s))).map (fun x => (x.mem, x.y, x.prev)) =
      (lib.step s.cur (g (s.y, s.th)).1 (g (s.y, s.th)).2 (lib.hist0 s.prev)).map
        (fun r => (⟨s.cur + r.h, r.y, r.th, r.hist, r.work⟩, crs r.y, r.h)) ∧
    (advance lib u crs crsT (edit g (setTimestep dt (reset lib s)))).map (fun x => (x.mem, x.y, x.prev)) =
      (lib.step s.cur (g (s.y, s.th)).1 (g (s.y, s.th)).2 (lib.hist0 dt)).map
        (fun r => (⟨s.cur + r.h, r.y, r.th, r.hist, r.work⟩, crs r.y, r.h)) := by
  refine ⟨⟨ht, ?_⟩, ⟨ht, ?_⟩, ?_, ?_⟩
  · simp [start, reset, init]
  · simp [setTimestep, reset, init]
  · simp only [advance, edit, start, reset, init, if_true, Option.map_map]
    congr 1; funext r; simp
  · simp only [advance, edit, setTimestep, reset, init, if_true, Option.map_map]
    congr 1; funext r; simp

/-- **C98** After a regrid the next step starts at the current time from the fields carried to the new mesh, with the last step
length: no time is lost and no earlier state is used. -/
theorem c98_regrid_continues (lib : Lib Y T H) (u : Bool) (crs : Y → Y) (crsT : T → T) (s : Run Y T H)
    (g : Y × T → Y × T) :
    (advance lib u crs crsT (regrid lib false g s)).map (fun x => (x.mem, x.y, x.prev)) =
      (lib.step s.cur (g (s.y, s.th)).1 (g (s.y, s.th)).2 (lib.hist0 s.prev)).map
        (fun r => (⟨s.cur + r.h, r.y, r.th, r.hist, r.work⟩, crs r.y, r.h)) := by
  simp only [advance, regrid, edit, reset, init, if_true, Option.map_map, Bool.false_eq_true, if_false]
  congr 1; funext r; simp

/-- No initialisation is pending after a step or a regrid. -/
def Underway (s : Run Y T H) : Prop := s.pending = false

theorem c98_underway (lib : Lib Y T H) (u : Bool) (crs : Y → Y) (crsT : T → T) (s : Run Y T H) (g : Y × T → Y × T) :
    (∀ s', advance lib u crs crsT s = some s' → Underway s') ∧ Underway (regrid lib false g s) := by
  refine ⟨fun s' h => ?_, by simp [Underway, regrid, reset, init]⟩
  obtain ⟨r, -, -, -, -, a, -⟩ := advance_eq h
  exact a

/-- **C98** (violated) Fields changed between two steps: once the run is under way the change has no effect whatever.  The next
step gives the same run as if the change had not been made, because the integrator continues from its own copy and overwrites
the fields.  Orientations brought to the fundamental zone or reset by grain extension are back after one step. -/
theorem c98_violation_edit (lib : Lib Y T H) (u : Bool) (crs : Y → Y) (crsT : T → T) (s : Run Y T H) (hs : Underway s)
    (g : Y × T → Y × T) : advance lib u crs crsT (edit g s) = advance lib u crs crsT s := by
  have h0 : s.pending = false := hs
  have h1 : init lib (edit g s) = edit g s := by unfold init edit; simp [h0]
  have h2 : init lib s = s := by unfold init; simp [h0]
  unfold advance
  simp only [h1, h2]
  rfl

/-- **C98** The call that was commented out would have made the change effective: resetting the integrator after the change
makes the next step start from the changed fields. -/
theorem c98_reset_takes_edit (lib : Lib Y T H) (u : Bool) (crs : Y → Y) (crsT : T → T) (s : Run Y T H) (g : Y × T → Y × T) :
    (advance lib u crs crsT (reset lib (edit g s))).map (fun x => (x.mem, x.y, x.prev)) =
      (lib.step s.cur (g (s.y, s.th)).1 (g (s.y, s.th)).2 (lib.hist0 s.prev)).map
        (fun r => (⟨s.cur + r.h, r.y, r.th, r.hist, r.work⟩, crs r.y, r.h)) :=
  c98_regrid_continues lib u crs crsT s g

/-- Repeated steps. -/
def advances (lib : Lib Y T H) (u : Bool) (crs : Y → Y) (crsT : T → T) : ℕ → Run Y T H → Option (Run Y T H)
  | 0, s => some s
  | n + 1, s => (advance lib u crs crsT s).bind (advances lib u crs crsT n)

/-- **C98** (violated) The relaxation of the orientations after a grain disappears (a second integrator for the orientations,
source/QuatModel.cc:2247-2290, whose initialisation is commented out) does not start from the orientations copied into its
field: any number of relaxation steps gives what it would have given without the copy. -/
theorem c98_violation_relax (lib : Lib Y T H) (u : Bool) (crs : Y → Y) (crsT : T → T) (s : Run Y T H) (hs : Underway s)
    (g : Y × T → Y × T) (n : ℕ) :
    advances lib u crs crsT (n + 1) (edit g s) = advances lib u crs crsT (n + 1) s := by
  simp only [advances, c98_violation_edit lib u crs crsT s hs g]

/-- **C98** (violated with `use_warm_start` in a build with CVODE) The regrid is not told to the integrator: the next step gives
what it would have given without the regrid, in particular the data carried to the new mesh are not used. -/
theorem c98_violation_warm_start (lib : Lib Y T H) (u : Bool) (crs : Y → Y) (crsT : T → T) (s : Run Y T H) (hs : Underway s)
    (g : Y × T → Y × T) : advance lib u crs crsT (regrid lib true g s) = advance lib u crs crsT s :=
  c98_violation_edit lib u crs crsT s hs g

/-- **C98** (violated if used during a run) Setting the step size after steps have been taken restarts the library at the time
of its creation: after one more step the integrator's time is that time plus one step, while the model's clock has moved on. -/
theorem c98_violation_setTimestep (lib : Lib Y T H) (u : Bool) (crs : Y → Y) (crsT : T → T) (s s' : Run Y T H) (dt : ℝ)
    (h : advance lib u crs crsT (setTimestep dt s) = some s') :
    s'.cur = s.t0 + s'.prev ∧ s'.time = s.time + s'.prev ∧
      (s.time = s.cur → (s'.time = s'.cur ↔ s.cur = s.t0)) := by
  obtain ⟨r, -, a1, a2, -, -, a5, -⟩ := advance_eq h
  have e : (init lib (setTimestep dt s)).mem.t = s.t0 := by simp [init, setTimestep]
  rw [e] at a1
  have e2 : (setTimestep dt s).time = s.time := rfl
  rw [e2] at a2
  refine ⟨by rw [a1, a5], by rw [a2, a5], fun ht => ?_⟩
  rw [a1, a2, ht]
  constructor
  · intro h; linarith
  · intro h; rw [h]

/-! ### Temperature -/

/-- **C98** (violated for a computed temperature) The temperature left in the run is not the temperature of the accepted state
but that of the last rate evaluation of the step (an iterate or a perturbed state of the linear solver). -/
theorem c98_violation_temperature (lib : Lib Y T H) (crs : Y → Y) (s s' : Run Y T H)
    (h : advance lib true crs id s = some s') :
    ∃ r, lib.step (init lib s).mem.t (init lib s).mem.y (init lib s).mem.th (init lib s).mem.hist = some r ∧
      s'.mem.th = r.th ∧ s'.th = r.evalT ∧ (s'.th = s'.mem.th ↔ r.evalT = r.th) := by
  obtain ⟨r, a0, -, -, a3, -, -, -, a7, -⟩ := advance_eq h
  refine ⟨r, a0, by rw [a3], by simpa using a7, ?_⟩
  rw [a3, a7]; simp

/-- **C98** (what remains true) The temperature is right when it is prescribed: it is then the one the rates were last
evaluated with.  Everything else is the accepted state. -/
theorem c98_state_partial (lib : Lib Y T H) (u : Bool) (crsT : T → T) (s s' : Run Y T H)
    (h : advance lib u id crsT s = some s') : s'.y = s'.mem.y ∧
      (u = false → ∃ r, lib.step (init lib s).mem.t (init lib s).mem.y (init lib s).mem.th (init lib s).mem.hist = some r ∧
        s'.th = r.evalT) := by
  obtain ⟨r, a0, -, -, a3, -, -, a6, a7, -⟩ := advance_eq h
  refine ⟨by rw [a6, a3]; rfl, fun hu => ⟨r, a0, by rw [a7, hu]; simp⟩⟩

/-! ### Statistics -/

/-- Counters of the library and of the integrator agree. -/
def Counted (s : Run Y T H) : Prop := s.cum = (if s.pending then 0 else s.mem.work)

/-- Work of the steps of a sequence of events, all of it and since the last regrid. -/
def works (lib : Lib Y T H) (u : Bool) (crs : Y → Y) (crsT : T → T) : List (Ev Y T) → Run Y T H → ℕ × ℕ → ℕ × ℕ
  | [], _, w => w
  | e :: l, s, w =>
    match ev lib u crs crsT s e with
    | none => w
    | some s' => works lib u crs crsT l s' (match e with
      | .advance => (w.1 + s'.shown, w.2 + s'.shown)
      | .edit _ => w
      | .regrid _ => (w.1, 0))

/-- **C98** The statistics printed after a step are those of that step. -/
theorem c98_step_statistics (lib : Lib Y T H) (u : Bool) (crs : Y → Y) (crsT : T → T) (s s' : Run Y T H) (hc : Counted s)
    (h : advance lib u crs crsT s = some s') :
    ∃ r, lib.step (init lib s).mem.t (init lib s).mem.y (init lib s).mem.th (init lib s).mem.hist = some r ∧
      s'.shown = r.work ∧ Counted s' := by
  obtain ⟨r, a0, -, -, a3, a4, -, -, -, a8, a9⟩ := advance_eq h
  refine ⟨r, a0, ?_, ?_⟩
  · have hw : (init lib s).mem.work = s.cum := by
      unfold Counted at hc
      unfold init
      cases hs : s.pending
      · simpa [hs] using hc.symm
      · simpa [hs] using hc.symm
    rw [a9, hw]; omega
  · unfold Counted; rw [a4, a8, a3]; simp

/-- **C98** (violated) The "integrator totals" printed at the end of a run are the sums since the last regrid only; they are the
totals of the run exactly when no work was done before it. -/
theorem c98_violation_totals (lib : Lib Y T H) (u : Bool) (crs : Y → Y) (crsT : T → T) (l : List (Ev Y T)) (s s' : Run Y T H)
    (hc : Counted s) (h0 : s.cum = 0) (hs : evs lib u crs crsT l s = some s') :
    s'.cum = (works lib u crs crsT l s (0, 0)).2 ∧
    (s'.cum = (works lib u crs crsT l s (0, 0)).1 ↔
      (works lib u crs crsT l s (0, 0)).1 = (works lib u crs crsT l s (0, 0)).2) := by
  have key : ∀ (l : List (Ev Y T)) (s : Run Y T H) (w : ℕ × ℕ), Counted s → s.cum = w.2 → evs lib u crs crsT l s = some s' →
      s'.cum = (works lib u crs crsT l s w).2 := by
    intro l
    induction l with
    | nil => intro s w _ hw hs; simp only [evs, Option.some.injEq] at hs; subst hs; exact hw
    | cons e l ih =>
      intro s w hc hw hs
      simp only [evs] at hs
      cases he : ev lib u crs crsT s e with
      | none => rw [he] at hs; simp at hs
      | some s1 =>
        rw [he] at hs
        simp only [works, he]
        cases e with
        | advance =>
          obtain ⟨r, a0, a1, a2⟩ := c98_step_statistics lib u crs crsT s s1 hc he
          obtain ⟨r', b0, -, -, -, -, -, -, -, b8, b9⟩ := advance_eq he
          refine ih s1 _ a2 ?_ hs
          have : s.cum ≤ (init lib s).mem.work := by
            unfold Counted at hc
            unfold init
            cases hp : s.pending
            · simpa [hp] using hc.le
            · simpa [hp] using hc.le
          show s1.cum = w.2 + s1.shown
          rw [b8, b9, ← hw]; omega
        | edit g =>
          simp only [ev, Option.some.injEq] at he; subst he
          exact ih _ _ hc hw hs
        | regrid g =>
          simp only [ev, Option.some.injEq] at he; subst he
          refine ih _ _ ?_ ?_ hs
          · simp [Counted, regrid, reset, init]
          · simp [regrid, reset]
  have := key l s (0, 0) hc h0 hs
  refine ⟨this, ?_⟩
  rw [this]; exact eq_comm

/-! ### Examples -/

/-- A library that adds `h` to the state at every step of length `h`, and whose last rate evaluation is at half the step. -/
noncomputable def toy : Lib ℝ ℝ ℝ where
  hist0 := fun h => h
  step := fun _ y T h => some ⟨h, y + h, T + h, h, 3, T + h / 2⟩

noncomputable def toyRun : Run ℝ ℝ ℝ := ⟨1, 2, ⟨0, 0, 0, 0, 0⟩, true, 5, 1, 5, 1, 0, 5, 0⟩

example : Clocks toyRun ∧ Counted toyRun := ⟨⟨rfl, rfl⟩, rfl⟩

/-- The hypotheses hold along a run with two steps, a change of the fields, a regrid and one more step; the totals printed are
those of the last step only. -/
example : (evs toy true id id [.advance, .advance, .edit (fun x => (x.1 + 100, x.2)), .advance, .regrid id, .advance] toyRun).map
    (fun s => (s.time, s.cur, s.y, s.cum)) = some (9, 9, 5, 3) := by
  norm_num [evs, ev, advance, regrid, reset, init, edit, toy, toyRun]

example : Underway (regrid toy false id toyRun) := (c98_underway toy true id id toyRun id).2

end AMPE.StepCall.Props
