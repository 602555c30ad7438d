import Verif.Proofs.RunLoop

/-!
# C04 - C07, C48: the driver loop, initial and final output, restart data
-/

namespace AMPE.RunLoop.Props

open AMPE.RunLoop
open AMPE.EventInterval (construct includeInitial isActive)

/-- Specification: the simulation time after `k` cycles started from `s`. -/
noncomputable def timeAfter (p : Params) (s : S) (k : ℕ) : ℝ :=
  s.time + ∑ i ∈ Finset.range k, p.dt (s.cycle + 1 + i)

/-- Specification: `k` is the first number of cycles after which the run has to stop. -/
def FirstStop (p : Params) (s : S) (k : ℕ) : Prop :=
  (∀ j < k, timeAfter p s j < p.endTime ∧ s.cycle + j < p.maxCycles) ∧
  ¬ (timeAfter p s k < p.endTime ∧ s.cycle + k < p.maxCycles)

/-- **C04.** A run that completes performs exactly the first admissible number of cycles; its
final cycle and time are the start values advanced by that many steps. -/
theorem c04_runs_until_first_stop (p : Params) (s s' : S) (h : run p s = some s') :
    ∃ k, FirstStop p s k ∧ s'.cycle = s.cycle + k ∧ s'.time = timeAfter p s k ∧
      s'.prevDt = (if k = 0 then s.prevDt else p.dt s'.cycle) := by
  obtain ⟨k, s1, hk, hc, rfl⟩ := run_steps h
  obtain ⟨c0, t0, d0, _⟩ := preamble_spec p s
  obtain ⟨cf, tf, df, _⟩ := finale_spec s1
  have hcy := hk.cycle
  have htm := hk.time
  have hle := hk.le
  rw [c0] at hcy
  rw [t0, c0] at htm hle
  refine ⟨k, ⟨hle, ?_⟩, by rw [cf, hcy], by rw [tf, htm]; rfl, ?_⟩
  · intro hh; apply hc; exact ⟨by rw [htm]; exact hh.1, by rw [hcy]; exact hh.2⟩
  · rw [df, cf]
    cases hk with
    | refl _ => simp [d0]
    | tail h1 _ hb =>
      have b := body_spec hb
      simp [b.prevDt, b.cycle]

/-- The stopping point is unique, so C04 determines the run length. -/
theorem c04_first_stop_unique (p : Params) (s : S) (k l : ℕ) (hk : FirstStop p s k)
    (hl : FirstStop p s l) : k = l := by
  rcases lt_trichotomy k l with h | h | h
  · exact absurd (hl.1 k h) hk.2
  · exact h
  · exact absurd (hk.1 l h) hl.2

/-- **C04**: the cycle limit is respected. -/
theorem c04_cycle_limit (p : Params) (s s' : S) (h : run p s = some s') :
    s'.cycle ≤ max s.cycle p.maxCycles ∧ s.cycle ≤ s'.cycle := by
  obtain ⟨k, hk, hc, _⟩ := c04_runs_until_first_stop p s s' h
  rw [hc]
  constructor
  · rcases Nat.eq_zero_or_pos k with rfl | hpos
    · simp
    · have := (hk.1 (k - 1) (by omega)).2
      have h2 : ((k - 1 : ℕ) : ℤ) = (k : ℤ) - 1 := by omega
      rw [h2] at this
      exact le_max_of_le_right (by omega)
  · omega

/-- **C04**: with steps of at least `δ > 0`, the number of cycles is bounded by the remaining
time over `δ` (plus one), and the end time is overshot by less than the last step. -/
theorem c04_bounded_by_time (p : Params) (s s' : S) (δ : ℝ) (hdt : ∀ c, δ ≤ p.dt c)
    (h : run p s = some s') (hrun : s.cycle < s'.cycle) :
    ((s'.cycle - s.cycle : ℤ) - 1 : ℝ) * δ < p.endTime - s.time ∧
    s'.time < p.endTime + p.dt s'.cycle := by
  obtain ⟨k, hk, hc, ht, _⟩ := c04_runs_until_first_stop p s s' h
  obtain ⟨m, rfl⟩ : ∃ m, k = m + 1 := ⟨k - 1, by omega⟩
  have h1 := (hk.1 m (by omega)).1
  constructor
  · have hsum : (m : ℝ) * δ ≤ ∑ i ∈ Finset.range m, p.dt (s.cycle + 1 + i) := by
      have := Finset.card_nsmul_le_sum (Finset.range m)
        (fun i : ℕ => p.dt (s.cycle + 1 + i)) δ (fun i _ => hdt _)
      simpa [nsmul_eq_mul] using this
    have h2 : ((s'.cycle - s.cycle : ℤ) - 1 : ℝ) = m := by rw [hc]; push_cast; ring
    rw [h2]
    unfold timeAfter at h1
    linarith
  · rw [ht, hc]
    have : timeAfter p s (m + 1) = timeAfter p s m + p.dt (s.cycle + ((m + 1 : ℕ) : ℤ)) := by
      unfold timeAfter
      rw [Finset.sum_range_succ, ← add_assoc]
      have : s.cycle + 1 + (m : ℤ) = s.cycle + ((m + 1 : ℕ) : ℤ) := by push_cast; ring
      rw [this]
    rw [this]
    linarith

/-- **C04**: with step-based schedules a run always completes (no undefined behaviour, no
infinite loop). -/
theorem c04_step_runs_complete (p : Params) (s : S) (h : AllStep s) : ∃ s', run p s = some s' :=
  run_some h

/-- The regriddings of a log, in order. -/
def regrids : List Out → List (ℤ × ℝ)
  | [] => []
  | .regrid c t :: l => (c, t) :: regrids l
  | _ :: l => regrids l

theorem regrids_append (a b : List Out) : regrids (a ++ b) = regrids a ++ regrids b := by
  induction a with
  | nil => simp [regrids]
  | cons o a ih => cases o <;> simp [regrids, ih]

/-- **C04**: a run on a single level never regrids, whatever the regridding schedule. -/
theorem c04_single_level_no_regrid (p : Params) (s s' : S) (hm : p.maxLevels ≤ 1) (h : run p s = some s') : regrids s'.log = regrids s.log := by
  obtain ⟨k, s1, hk, -, rfl⟩ := run_steps h
  have emit : ∀ (s : S) (b : Bool) (o : Out), (∀ c t, o ≠ .regrid c t) → regrids (s.emit b o).log = regrids s.log := fun s b o ho => by
    cases b
    · rfl
    · simp only [S.emit, if_true, regrids_append]
      cases o with
      | regrid c t => exact absurd rfl (ho c t)
      | _ => simp [regrids]
  have h0 : regrids (preamble p s).log = regrids s.log := by
    unfold preamble
    show regrids (initGrains _).log = _
    unfold initGrains
    rw [emit _ _ _ (by simp)]
    show regrids (initRestart _).log = _
    unfold initRestart
    rw [emit _ _ _ (by simp)]
    show regrids (initInfo p _).log = _
    have hv : regrids (initVisit s).log = regrids s.log := by
      unfold initVisit
      rw [emit _ _ _ (by simp)]
    unfold initInfo
    by_cases hs : p.notSilent = true
    · rw [if_pos hs, emit _ _ _ (by simp)]; exact hv
    · rw [if_neg hs]; exact hv
  have hf : ∀ s : S, regrids (finale s).log = regrids s.log := fun s => by
    unfold finale finalRestart
    rw [emit _ _ _ (by simp)]
    show regrids (finalVisit s).log = _
    unfold finalVisit
    rw [emit _ _ _ (by simp)]
  rw [hf]
  have hsteps : ∀ {k : ℕ} {a b : S}, Steps p k a b → regrids b.log = regrids a.log := by
    intro k a b hab
    induction hab with
    | refl _ => rfl
    | tail _ _ hb ih =>
      rw [← ih]
      simp only [body, Option.bind_eq_some_iff] at hb
      obtain ⟨a1, h1, a2, h2, a3, h3, a4, h4, h5⟩ := hb
      rw [pollRegrid, if_neg (by omega)] at h5
      simp only [Option.some.injEq] at h5
      subst h5
      simp only [pollVisit, Option.map_eq_some_iff] at h4
      obtain ⟨r4, _, rfl⟩ := h4
      simp only [pollGrains, Option.map_eq_some_iff] at h3
      obtain ⟨r3, _, rfl⟩ := h3
      simp only [pollRestart, Option.map_eq_some_iff] at h2
      obtain ⟨r2, _, rfl⟩ := h2
      rw [emit _ _ _ (by simp)]
      show regrids (S.emit _ _ _).log = _
      rw [emit _ _ _ (by simp)]
      show regrids (S.emit _ _ _).log = _
      rw [emit _ _ _ (by simp)]
      show regrids a1.log = _
      unfold pollInfo at h1
      by_cases hs : p.notSilent = true
      · rw [if_pos hs] at h1
        simp only [Option.map_eq_some_iff] at h1
        obtain ⟨r1, _, rfl⟩ := h1
        rw [emit _ _ _ (by simp)]
        rfl
      · rw [if_neg hs] at h1
        simp only [Option.some.injEq] at h1
        rw [← h1]
        rfl
  rw [hsteps hk, h0]

/-- **C05** (negation of the expected property).  The restart files written before the first
cycle do not depend on the restart schedule at all ... -/
theorem c05_initial_restart_ignores_restart_schedule (p : Params) (s : S)
    (r : EventInterval.State) :
    restarts (preamble p { s with restart := r }).log = restarts (preamble p s).log := by
  rw [(preamble_spec p s).2.2.2.2.2.2.2, (preamble_spec p { s with restart := r }).2.2.2.2.2.2.2]

/-- **C05** ... they are written exactly when the *regrid* schedule is active, includes the first
step, and has no event recorded at the start time. -/
theorem c05_initial_restart_follows_regrid_schedule (p : Params) (s : S) (hlog : s.log = []) :
    restarts (preamble p s).log = [(s.cycle, s.time)] ↔
      (isActive s.regrid = true ∧ s.regrid.includeFirst = true ∧ s.regrid.lastEvent ≠ s.time) := by
  rw [(preamble_spec p s).2.2.2.2.2.2.2, hlog]
  simp only [includeInitial, EventInterval.eventOccurredAtTime, restarts]
  by_cases h1 : isActive s.regrid = true <;> by_cases h2 : s.regrid.includeFirst = true <;>
    by_cases h3 : s.regrid.lastEvent = s.time <;> simp [h1, h2, h3]

/-- Restart schedule asking for a file at the first step and every 10 steps. -/
noncomputable def wantRestart : EventInterval.State :=
  ⟨10, 0, .cycle, -1, -1, true, true⟩

/-- An inactive schedule. -/
noncomputable def inactive : EventInterval.State := ⟨0, 0, .cycle, -1, -1, false, true⟩

/-- A run state with all schedules inactive except those given. -/
noncomputable def start (visit restart regrid : EventInterval.State) : S :=
  ⟨0, 0, 0, visit, inactive, restart, inactive, regrid, true, []⟩

/-- **C05**, concrete violation: the restart schedule includes the first step, yet no restart file
exists before the first cycle; and with the flag moved to the regrid schedule one is written. -/
theorem c05_violation (p : Params) :
    restarts (preamble p (start inactive wantRestart inactive)).log = [] ∧
    restarts (preamble p (start inactive inactive wantRestart)).log = [(0, 0)] := by
  constructor
  · rw [(preamble_spec p _).2.2.2.2.2.2.2]
    simp [start, includeInitial, EventInterval.isActive, inactive, restarts]
  · rw [(preamble_spec p _).2.2.2.2.2.2.2]
    simp [start, includeInitial, EventInterval.isActive, EventInterval.eventOccurredAtTime,
      wantRestart, restarts]

/-- **C06.** In any run that performs at least one cycle with positive steps, if the plot schedule
is active and asks for the final state, the final cycle is plotted exactly once.  (For runs of zero
cycles see `c06_zero_cycle_run`.)  `_partial`: the zero-cycle case violates the property. -/
theorem c06_final_plot_once_partial (p : Params) (s s' : S) (hdt : ∀ c, 0 < p.dt c)
    (h : run p s = some s') (hlog : s.log = []) (hcyc : s.cycle < s'.cycle)
    (hl : s.visit.lastEvent ≤ s.time)
    (hact : isActive s.visit = true) (hlast : s.visit.includeLast = true) :
    (plots s'.log).filter (fun q => q.1 = s'.cycle) = [(s'.cycle, s'.time)] := by
  obtain ⟨k, s1, hk, hc, rfl⟩ := run_steps h
  obtain ⟨c0, t0, _, _, _, v0, p0, _⟩ := preamble_spec p s
  obtain ⟨cf, tf, _, pf, _⟩ := finale_spec s1
  have heff := EventInterval.exec_effect (s := s.visit) (op := .initial s.time) (s' := (includeInitial s.visit s.time).1)
    (b := (includeInitial s.visit s.time).2) (by simp [EventInterval.exec])
  have hcy := hk.cycle
  rw [c0] at hcy
  rw [cf, hcy] at hcyc
  have hkpos : 0 < k := by omega
  have hl0 : (preamble p s).visit.lastEvent ≤ (preamble p s).time := by
    rw [v0, t0, heff.2.2.1]; simp only [EventInterval.Op.at]; split
    · exact le_refl _
    · exact hl
  have hb0 : ∀ q ∈ plots (preamble p s).log, q.1 ≤ (preamble p s).cycle := by
    rw [p0, hlog, c0]; intro q hq
    simp only [plots, List.nil_append] at hq
    split at hq
    · simp at hq; rw [hq]
    · simp at hq
  obtain ⟨_, _, hinv⟩ := hk.plotInv hdt hl0 hb0
  have inv := hinv hkpos
  have hcfg : EventInterval.SameCfg s1.visit s.visit := hk.cfg.trans (by rw [v0]; exact heff.1)
  have hact1 : isActive s1.visit = true := by rw [hcfg.active]; exact hact
  have hlast1 : s1.visit.includeLast = true := by rw [hcfg.l]; exact hlast
  -- a plot of the final cycle made by the last body carries the final time
  have hmem : ∀ q ∈ plots s1.log, q.1 = s1.cycle → q = (s1.cycle, s1.time) := by
    cases hk with
    | refl _ => omega
    | @tail k' _ s0' _ h1 _ hb =>
      intro q hq hqc
      have b := body_spec hb
      rw [b.plots, List.mem_append] at hq
      rcases hq with hq | hq
      · have := (h1.plotInv hdt hl0 hb0).2.1 q hq
        have := b.cycle; omega
      · split at hq
        · simpa using hq
        · simp at hq
  rw [cf, tf, pf, List.filter_append]
  cases hf : s1.flagVisitDump with
  | true =>
    have hlen := inv.cnt
    rw [hf] at hlen
    simp only [if_true] at hlen
    obtain ⟨q, hq⟩ := List.length_eq_one_iff.mp hlen
    have hq1 : q ∈ (plots s1.log).filter (fun q => decide (q.1 = s1.cycle)) := by rw [hq]; simp
    rw [List.mem_filter] at hq1
    have := hmem q hq1.1 (by simpa using hq1.2)
    rw [hq, this]; simp
  | false =>
    have hlen := inv.cnt
    rw [hf] at hlen
    have h0 : (plots s1.log).filter (fun q => decide (q.1 = s1.cycle)) = [] := by
      simpa using hlen
    have hlt := inv.flagF hf
    rw [h0]
    simp [AMPE.EventInterval.includeFinal, hact1, hlast1, EventInterval.eventOccurredAtTime, hlt.ne]

/-- **C06**, violated case: a run that performs no cycle never plots its (final = initial) state
unless the first step is included, even if the schedule asks for the final state. -/
theorem c06_zero_cycle_run (p : Params) (s s' : S) (h : run p s = some s') (hlog : s.log = [])
    (hcyc : s'.cycle = s.cycle) (hfirst : s.visit.includeFirst = false) : plots s'.log = [] := by
  obtain ⟨k, s1, hk, hc, rfl⟩ := run_steps h
  obtain ⟨c0, t0, _, _, f0, v0, p0, _⟩ := preamble_spec p s
  obtain ⟨cf, tf, _, pf, _⟩ := finale_spec s1
  have hcy := hk.cycle
  rw [c0] at hcy
  rw [cf, hcy] at hcyc
  obtain rfl : k = 0 := by omega
  cases hk
  rw [pf, p0, f0, hlog]
  simp [includeInitial, hfirst, plots]

/-- **C06**, concrete violation: an active plot schedule (every 5 cycles, final state requested,
first step not included) and a run whose end time is already reached: nothing is plotted. -/
theorem c06_violation : ∃ (p : Params) (s s' : S), run p s = some s' ∧
    isActive s.visit = true ∧ s.visit.includeLast = true ∧ s.log = [] ∧ plots s'.log = [] := by
  have hs : AllStep (start ⟨5, 0, .cycle, -1, -1, false, true⟩ inactive inactive) := by
    simp [AllStep, start, inactive]
  obtain ⟨s', h⟩ := run_some (p := ⟨0, 100, true, 1, fun _ => 1⟩) hs
  refine ⟨_, _, s', h, by simp [start, EventInterval.isActive], by simp [start], rfl, ?_⟩
  obtain ⟨k, hk, hc, _⟩ := c04_runs_until_first_stop _ _ _ h
  rcases Nat.eq_zero_or_pos k with rfl | hpos
  · exact c06_zero_cycle_run _ _ _ h rfl (by simpa using hc) (by simp [start])
  · have := (hk.1 0 hpos).1
    simp [timeAfter, start] at this

/-- **C06**, full schedule: for a freshly constructed step-based plot schedule the list of plots of
a run is exactly: the start state if the first step is included, then every cycle that is a
multiple of `n`, then the final cycle if requested and not already plotted (and at least one cycle
was made). -/
theorem c06_plot_list (p : Params) (s s' : S) (hdt : ∀ c, 0 < p.dt c) (h : run p s = some s')
    (hlog : s.log = []) (n : ℤ) (hn : 0 < n) (first last : Bool)
    (hv : construct { intInterval := some n } 1 "step" first last = some s.visit)
    (ht0 : 0 ≤ s.time) :
    ∃ k, FirstStop p s k ∧
    plots s'.log = (if first then [(s.cycle, s.time)] else []) ++
      ((List.range k).filter (fun j : ℕ => decide (n ∣ s.cycle + 1 + j))).map
        (fun j : ℕ => (s.cycle + 1 + (j : ℤ), timeAfter p s (j + 1))) ++
      (if last = true ∧ 0 < k ∧ ¬ n ∣ s.cycle + k then [(s.cycle + (k : ℤ), timeAfter p s k)]
       else []) := by
  have hi : EventInterval.toInt ((1 : ℝ) + 0.5) = some ⌊(1 : ℝ) + 0.5⌋ :=
    EventInterval.toInt_nonneg (by norm_num) (by norm_num)
  simp only [construct, hi, Option.bind_eq_bind, Option.bind_some, Option.getD, true_or, if_true,
    Option.some.injEq] at hv
  obtain ⟨k, s1, hk, hc, rfl⟩ := run_steps h
  obtain ⟨c0, t0, _, _, f0, v0, p0, _⟩ := preamble_spec p s
  obtain ⟨cf, tf, _, pf, _⟩ := finale_spec s1
  have heff := EventInterval.exec_effect (s := s.visit) (op := .initial s.time) (s' := (includeInitial s.visit s.time).1)
    (b := (includeInitial s.visit s.time).2) (by simp [EventInterval.exec])
  have hne : (-1 : ℝ) ≠ s.time := by linarith
  have hfirst : (includeInitial s.visit s.time).2 = first := by
    rw [← hv]
    simp [includeInitial, EventInterval.isActive, EventInterval.eventOccurredAtTime, hn, hne]
  have hl0 : (preamble p s).visit.lastEvent ≤ (preamble p s).time := by
    rw [v0, t0, heff.2.2.1]; simp only [EventInterval.Op.at]; split
    · exact le_refl _
    · rw [← hv]; show (-1 : ℝ) ≤ s.time; linarith
  have hint : (preamble p s).visit.intInterval = n := by rw [v0, heff.1.i, ← hv]
  obtain ⟨_, hl1, _, hfl, hpl⟩ := hk.plots_cycle hdt (by rw [v0, heff.1.k, ← hv])
    (by rw [hint]; exact hn) (by rw [v0, heff.2.1]; exact ht0) (by rw [t0]; exact ht0) hl0
  have hcy := hk.cycle
  have htm := hk.time
  have hle := hk.le
  rw [c0] at hcy
  rw [t0, c0] at htm hle
  refine ⟨k, ⟨hle, ?_⟩, ?_⟩
  · intro hh; apply hc; exact ⟨by rw [htm]; exact hh.1, by rw [hcy]; exact hh.2⟩
  · rw [pf, hpl, p0, hlog, hfirst, hint, c0, t0]
    simp only [plots, List.nil_append]
    congr 1
    have hcfg : EventInterval.SameCfg s1.visit s.visit := hk.cfg.trans (by rw [v0]; exact heff.1)
    have hact1 : isActive s1.visit = true := by
      rw [hcfg.active, ← hv]; simp [EventInterval.isActive, hn]
    have hlast1 : s1.visit.includeLast = last := by rw [hcfg.l, ← hv]
    rcases Nat.eq_zero_or_pos k with rfl | hpos
    · cases hk
      simp [f0]
    · have hfl' := hfl hpos
      rw [hint, hcy] at hfl'
      by_cases hd : n ∣ s.cycle + (k : ℤ)
      · simp [hfl', hd]
      · have hff : s1.flagVisitDump = false := by rw [hfl']; simp [hd]
        have hinv := (hk.plotInv hdt hl0 (by
          rw [p0, hlog, c0]; intro q hq
          simp only [plots, List.nil_append] at hq
          split at hq
          · simp at hq; rw [hq]
          · simp at hq)).2.2 hpos
        have hlt := hinv.flagF hff
        rw [hff, hcy, htm]
        rw [htm] at hlt
        simp only [AMPE.EventInterval.includeFinal, hact1, hlast1, EventInterval.eventOccurredAtTime]
        cases last
        · simp
        · simp [hlt.ne, hpos, hd, timeAfter]

/-! ### C07: restart data -/

/-- **C07.** Reading back what was written, with an input file that overrides nothing, restores the
complete control state. -/
theorem c07_restart_round_trip (c : Ctl) (inp : InputDb) (h1 : inp.maxCycles = none)
    (h2 : inp.maxTimesteps = none) (h3 : inp.maxDeltaCycles = none) (h4 : inp.endTime = none) :
    getFromRestart (putToRestart c) inp = some c := by
  simp [getFromRestart, putToRestart, h1, h2, h3, h4]

/-- **C07.** Whatever the input file says, cycle, time, previous step and start time are those
saved; the end time is the new one if given, else the saved one. -/
theorem c07_restart_restores_position (c : Ctl) (inp : InputDb) :
    ∃ c', getFromRestart (putToRestart c) inp = some c' ∧ c'.cycle = c.cycle ∧ c'.time = c.time ∧
      c'.prevDt = c.prevDt ∧ c'.startTime = c.startTime ∧ c'.amr = c.amr ∧
      c'.endTime = (match inp.endTime with | some e => e | none => c.endTime) := by
  simp only [getFromRestart, putToRestart, Option.bind_eq_bind, Option.bind_some]
  refine ⟨_, rfl, rfl, rfl, rfl, rfl, rfl, ?_⟩
  cases inp.endTime <;> rfl

/-- **C07** (partial): with a delta-cycle limit and no absolute limit in the input, the resumed run
is limited to that many further cycles.  Missing: the case where an absolute limit is also present,
which the code treats differently on a fresh start (see `c07_limit_precedence_clash`). -/
theorem c07_delta_cycles_partial (c : Ctl) (inp : InputDb) (d : ℤ)
    (hd : inp.maxDeltaCycles = some d) (h1 : inp.maxCycles = none) (h2 : inp.maxTimesteps = none) :
    ∃ c', getFromRestart (putToRestart c) inp = some c' ∧ c'.maxCycles = c.cycle + d := by
  simp [getFromRestart, putToRestart, hd, h1, h2]

/-- **C07**: the two limits have opposite precedence: with both a delta limit `d` and an absolute
limit `m` in the same input file, a fresh run is limited by `d`, a restarted run by `m` -- so the
delta limit is ignored after a restart. -/
theorem c07_limit_precedence_clash (c : Ctl) (inp : InputDb) (d m : ℤ) (e : ℝ)
    (hd : inp.maxDeltaCycles = some d) (hm : inp.maxCycles = some m) (he : inp.endTime = some e) :
    (∃ c', getFromInput inp = some c' ∧ c'.maxCycles = d ∧ c'.cycle = 0) ∧
    (∃ c', getFromRestart (putToRestart c) inp = some c' ∧ c'.maxCycles = m) := by
  simp [getFromInput, getFromRestart, putToRestart, hd, hm, he]

/-- **C07**: without an `Amr` block a run is not adaptive, an `Amr` block makes it adaptive unless it says otherwise; the run starts
at the start time (0 by default) and needs an end time. -/
theorem c07_fresh_run (inp : InputDb) :
    (getFromInput inp = none ↔ inp.endTime = none) ∧
    ∀ c, getFromInput inp = some c → (c.amr = true ↔ ∃ e, inp.amrDb = some e ∧ e ≠ some false) ∧
      c.time = inp.startTime.getD 0 ∧ c.startTime = c.time ∧ some c.endTime = inp.endTime ∧ c.cycle = 0 := by
  cases he : inp.endTime with
  | none => simp [getFromInput, he]
  | some e =>
    refine ⟨by simp [getFromInput, he], fun c hc => ?_⟩
    simp only [getFromInput, he, Option.bind_eq_bind, Option.bind_some, Option.some.injEq] at hc
    subst hc
    refine ⟨?_, rfl, rfl, rfl, rfl⟩
    cases ha : inp.amrDb with
    | none => simp
    | some v => cases v with
      | none => simp
      | some b => cases b <;> simp

/-- **C07**, end to end: a run resumed with only a delta limit `d ≥ 0` makes at most `d` cycles. -/
theorem c07_resumed_run_length_partial (c c' : Ctl) (inp : InputDb) (d : ℕ) (s s' : S) (p : Params)
    (hd : inp.maxDeltaCycles = some (d : ℤ)) (h1 : inp.maxCycles = none) (h2 : inp.maxTimesteps = none)
    (hr : getFromRestart (putToRestart c) inp = some c')
    (hp : p.maxCycles = c'.maxCycles) (hs : s.cycle = c'.cycle) (h : run p s = some s') :
    s'.cycle ≤ c.cycle + d := by
  obtain ⟨c1, e1, m1⟩ := c07_delta_cycles_partial c inp d hd h1 h2
  obtain ⟨c2, e2, m2, _⟩ := c07_restart_restores_position c inp
  rw [hr] at e1 e2
  cases e1; cases e2
  have := (c04_cycle_limit p s s' h).1
  rw [hp, m1, hs, m2] at this
  rcases max_choice c.cycle (c.cycle + (d : ℤ)) with hx | hx <;> rw [hx] at this <;> omega

/-! ### Non-vacuity -/

/-- A run with a step-based plot schedule: hypotheses of C04/C06 are met by a three-cycle run, the
final cycle is plotted although it is not a multiple of the interval. -/
example : ∃ s', run ⟨10, 3, true, 1, fun _ => 1⟩
      (start ⟨2, 0, .cycle, -1, -1, true, true⟩ wantRestart inactive) = some s' ∧
    s'.cycle = 3 ∧ plots s'.log = [(0, 0), (2, 2), (3, 3)] := by
  have hs : AllStep (start ⟨2, 0, .cycle, -1, -1, true, true⟩ wantRestart inactive) := by
    simp [AllStep, start, inactive, wantRestart]
  obtain ⟨s', h⟩ := run_some (p := ⟨10, 3, true, 1, fun _ => 1⟩) hs
  refine ⟨s', h, ?_⟩
  have hi : EventInterval.toInt ((1 : ℝ) + 0.5) = some ⌊(1 : ℝ) + 0.5⌋ :=
    EventInterval.toInt_nonneg (by norm_num) (by norm_num)
  obtain ⟨k, hk, hp⟩ := c06_plot_list _ _ _ (fun _ => one_pos) h rfl 2 (by norm_num) true true
    (by simp [construct, hi, start]) (by simp [start])
  have h3 : FirstStop ⟨10, 3, true, 1, fun _ => 1⟩
      (start ⟨2, 0, .cycle, -1, -1, true, true⟩ wantRestart inactive) 3 := by
    constructor
    · intro j hj
      simp only [timeAfter, start, Finset.sum_const, Finset.card_range, nsmul_eq_mul]
      have : (j : ℝ) < 3 := by exact_mod_cast hj
      constructor
      · linarith
      · omega
    · simp [start]
  have hk3 := c04_first_stop_unique _ _ _ _ hk h3
  subst hk3
  obtain ⟨k', hk', hc', _⟩ := c04_runs_until_first_stop _ _ _ h
  have := c04_first_stop_unique _ _ _ _ hk' h3
  subst this
  refine ⟨by rw [hc']; simp [start], ?_⟩
  rw [hp]
  simp [start, timeAfter, List.range_succ, List.filter]
  norm_num

example : ∃ c', getFromRestart (putToRestart ⟨100, 0, 5, 2.5, 42, 0.1, true⟩)
    { maxDeltaCycles := some 7 } = some c' ∧ c'.maxCycles = 49 := by
  simp [getFromRestart, putToRestart]

end AMPE.RunLoop.Props
