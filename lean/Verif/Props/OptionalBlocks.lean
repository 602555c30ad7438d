import Verif.Model.OptionalBlocks
import Mathlib.Tactic.NormNum
import Mathlib.Tactic.Linarith

/-!
# C166: optional blocks of the input

Specification: a block that is left out switches its feature off and nothing else; every feature works without the other blocks; an entry that is left out
has its documented default.
-/

namespace AMPE.OptionalBlocks.Props

open AMPE.OptionalBlocks

theorem toInt_half : EventInterval.toInt (0 + 0.5) = some 0 := by
  have h : (0 : ℝ) ≤ 0 + 0.5 := by norm_num
  have hf : ⌊(0 + 0.5 : ℝ)⌋ = 0 := by rw [Int.floor_eq_iff]; norm_num
  simp only [EventInterval.toInt, if_pos h, hf]
  norm_num

/-- An absent block is inactive. -/
theorem active_none : active none = some false := by
  simp only [active, EventInterval.construct, toInt_half, Option.bind_eq_bind, Option.bind_some]
  simp [EventInterval.isActive]

/-- Spec: the interval of a block is positive, in steps or in time. -/
def Positive (b : EventInterval.Input) : Prop :=
  (b.intervalType.getD "step" ∈ ["step", "cycle"] ∧ 0 < b.intInterval.getD 0) ∨ (b.intervalType.getD "step" ∈ ["time", "dt"] ∧ 0 < b.dblInterval.getD 0)

/-- Spec: the type of the interval is a known one. -/
def Known (b : EventInterval.Input) : Prop := b.intervalType.getD "step" ∈ ["step", "cycle", "time", "dt"]

open Classical in
theorem active_some (b : EventInterval.Input) : active (some b) = if Known b then some (decide (Positive b)) else none := by
  unfold active EventInterval.construct Known Positive
  simp only [Option.getD_some, toInt_half, Option.bind_eq_bind, Option.bind_some, List.mem_cons, List.not_mem_nil, or_false]
  generalize b.intervalType.getD "step" = ty
  by_cases h1 : ty = "step" ∨ ty = "cycle"
  · have h2 : ¬ (ty = "time" ∨ ty = "dt") := by rcases h1 with rfl | rfl <;> decide
    rw [if_pos h1, if_pos (by tauto)]
    simp [EventInterval.isActive, h1, h2]
  · by_cases h2 : ty = "time" ∨ ty = "dt"
    · rw [if_neg h1, if_pos h2, if_pos (by tauto)]
      simp [EventInterval.isActive, h1, h2]
    · rw [if_neg h1, if_neg h2, if_neg (by tauto)]
      rfl

/-- **C166** (partial: output asked for) With a positive output interval every option is the given one or off, the velocity the given one or, with
Aziz's model, on. -/
theorem c166_flags_partial (i : Input) (v : Visit) (hv : i.visit = some v) (hk : Known v.interval) (hp : Positive v.interval) :
    flags i = some ⟨some (v.extra.getD false), some (v.energy.getD false), some (v.grain.getD false), some (v.rhs.getD false), v.velocity.getD i.aziz⟩ := by
  have h : active (i.visit.map (·.interval)) = some true := by rw [hv]; simp [active_some, hk, hp]
  simp only [flags, h, Option.bind_eq_bind, Option.bind_some]
  rw [hv]
  rfl

theorem flags_off (i : Input) (h : ∀ v, i.visit = some v → Known v.interval ∧ ¬ Positive v.interval) : flags i = some (Flags.start i) := by
  have ha : active (i.visit.map (·.interval)) = some false := by
    cases hv : i.visit with
    | none => exact active_none
    | some v => simp [active_some, (h v hv).1, (h v hv).2]
  simp only [flags, ha, Option.bind_eq_bind, Option.bind_some]

/-- **C166** (violation) Without output (no block `Visit`, or no positive interval in it) the flag for the output of grains is read before anything
has set it, whatever else the input contains. -/
theorem c166_violation_flags (i : Input) (h : ∀ v, i.visit = some v → Known v.interval ∧ ¬ Positive v.interval) : createGrains i = none := by
  simp [createGrains, flags_off i h, Flags.start]

/-- **C166** The start is well defined exactly if output is asked for. -/
theorem c166_start_iff (i : Input) : (createGrains i).isSome ↔ ∃ v, i.visit = some v ∧ Known v.interval ∧ Positive v.interval := by
  constructor
  · intro h
    by_contra hn
    push Not at hn
    cases hv : i.visit with
    | none =>
      rw [c166_violation_flags i (by simp [hv])] at h
      cases h
    | some v =>
      by_cases hk : Known v.interval
      · rw [c166_violation_flags i (by intro w hw; rw [hv] at hw; cases hw; exact ⟨hk, hn v hv hk⟩)] at h
        cases h
      · have : active (i.visit.map (·.interval)) = none := by rw [hv]; simp [active_some, hk]
        simp [createGrains, flags, this] at h
  · rintro ⟨v, hv, hk, hp⟩
    simp [createGrains, c166_flags_partial i v hv hk hp]

/-- **C166** (violation) Without output, asking for the velocity has no effect: it is on exactly with Aziz's model. -/
theorem c166_violation_velocity (i : Input) (h : ∀ v, i.visit = some v → Known v.interval ∧ ¬ Positive v.interval) :
    (flags i).map (·.velocity) = some i.aziz := by
  simp [flags_off i h, Flags.start]

/-- **C166** (violation) An output option switches off the velocity that Aziz's model needs. -/
theorem c166_violation_velocity_off (i : Input) (v : Visit) (hv : i.visit = some v) (hk : Known v.interval) (hp : Positive v.interval) (ha : i.aziz = true) :
    (flags i).map (·.velocity) = some false ↔ v.velocity = some false := by
  rw [c166_flags_partial i v hv hk hp, ha]
  cases h : v.velocity with
  | none => simp
  | some b => cases b <;> simp

/-- **C166** Symmetry is taken into account exactly if the block says so. -/
theorem c166_symmetry_iff (i : Input) : symmetryAware i = true ↔ i.symmetry = some (some true) := by
  unfold symmetryAware
  rcases h : i.symmetry with _ | _ | b <;> simp

/-- **C166** (violation) A block `Symmetry` without the optional entry `enabled` (documented, and read, with default TRUE) leaves symmetry off. -/
theorem c166_violation_symmetry (i : Input) (h : i.symmetry = some none) : symmetryAware i = false := by simp [symmetryAware, h]

/-- **C166** The interval for the fundamental zone is asked only if it exists. -/
theorem c166_fundamental_safe (i : Input) (hk : Known i.fundamental) : (askFundamental i).isSome := by
  unfold askFundamental
  split_ifs with h
  · rw [c166_symmetry_iff] at h
    have h1 := active_some i.fundamental
    simp only [active, Option.getD_some, hk, if_true] at h1
    simp only [fundamental, h]
    rw [h1]
    rfl
  · rfl

/-- **C166** Grain diagnostics are only computed when the numbering has its variables. -/
theorem c166_numbering (i : Input) (b : Bool) (h : grainDiagnostics i = some b) : b = true := by
  unfold grainDiagnostics at h
  cases hd : i.grainDiag with
  | none =>
    rw [hd, active_none] at h
    simpa using h.symm
  | some d =>
    simp only [hd, Option.bind_eq_bind, Option.bind_eq_some_iff] at h
    obtain ⟨a, -, h⟩ := h
    simpa using h.symm

/-- **C166** Meshes can be reset exactly if it is not the case that grains are extended, not numbered (no block `GrainDiagnostics`), and there is more than
one level. -/
theorem c166_reset_iff (i : Input) (hd : ∀ d, i.grainDiag = some d → Known d) (he : ∀ e, i.grainExt = some e → Known e) (coarsest finest : ℕ)
    (hcf : coarsest ≤ finest) :
    resetHierarchy i coarsest finest = some true ↔ ¬ ((∃ e, i.grainExt = some e ∧ Positive e) ∧ i.grainDiag = none ∧ 1 ≤ finest) := by
  classical
  have hE : active i.grainExt = some (decide (∃ e, i.grainExt = some e ∧ Positive e)) := by
    cases h : i.grainExt with
    | none => simp [active_none]
    | some e => simp [active_some, he e h]
  cases hD : i.grainDiag with
  | some d =>
    simp only [resetHierarchy, hD, active_some, hd d hD, if_true, hE, Option.bind_eq_bind, Option.bind_some]
    split_ifs <;> simp
  | none =>
    simp only [resetHierarchy, hD, active_none, hE, Option.bind_eq_bind, Option.bind_some, Bool.false_or]
    by_cases hx : ∃ e, i.grainExt = some e ∧ Positive e
    · simp only [hx, decide_true, if_true, Option.isSome_none, Option.some.injEq, true_and, not_le, Nat.lt_one_iff]
      rw [List.all_eq_true]
      constructor
      · intro h
        by_contra hf
        have : (List.range' (if 0 < coarsest then coarsest - 1 else coarsest) (finest - (if 0 < coarsest then coarsest - 1 else coarsest))) ≠ [] := by
          rw [ne_eq, List.range'_eq_nil_iff]
          split_ifs <;> omega
        obtain ⟨x, hx⟩ := List.exists_mem_of_ne_nil _ this
        exact absurd (h x hx) (by simp)
      · rintro rfl x hx
        have : coarsest = 0 := by omega
        subst this
        simp at hx
    · simp [hx]

/-- **C166** (violation) Extending grains on a refined mesh without numbering them: a null pointer. -/
theorem c166_violation_reset (i : Input) (e : EventInterval.Input) (he : i.grainExt = some e) (hk : Known e) (hp : Positive e) (hd : i.grainDiag = none)
    (coarsest finest : ℕ) (hcf : coarsest ≤ finest) (h1 : 1 ≤ finest) : resetHierarchy i coarsest finest = some false := by
  have hne := (not_congr (c166_reset_iff i (by simp [hd]) (by intro x hx; rw [he] at hx; cases hx; exact hk) coarsest finest hcf)).2
    (not_not.2 ⟨⟨e, he, hp⟩, hd, h1⟩)
  have hs : ∃ b, resetHierarchy i coarsest finest = some b := by
    simp only [resetHierarchy, hd, active_none, he, active_some, hk, if_true, hp, Option.bind_eq_bind, Option.bind_some]
    split_ifs <;> exact ⟨_, rfl⟩
  obtain ⟨b, hb⟩ := hs
  cases b
  · exact hb
  · exact absurd hb hne

/-- **C166** A step can start exactly if grains are not extended, or orientations are not used, or they evolve. -/
theorem c166_advance_iff (i : Input) (he : ∀ e, i.grainExt = some e → Known e) :
    advance i = some true ↔ ¬ ((∃ e, i.grainExt = some e ∧ Positive e) ∧ hOf i = 0) := by
  classical
  have hE : active i.grainExt = some (decide (∃ e, i.grainExt = some e ∧ Positive e)) := by
    cases h : i.grainExt with
    | none => simp [active_none]
    | some e => simp [active_some, he e h]
  simp only [advance, hE, Option.bind_eq_bind, Option.bind_some, Option.some.injEq]
  by_cases hx : ∃ e, i.grainExt = some e ∧ Positive e
  · simp only [hx, decide_true, Bool.and_true, true_and, Bool.or_eq_true, Bool.not_eq_true', decide_eq_false_iff_not, decide_eq_true_eq, not_le]
    constructor
    · rintro (h | h) <;> intro h0 <;> linarith
    · intro h
      exact lt_or_gt_of_ne h
  · simp [hx]

/-- **C166** (violation) With orientations that only serve the anisotropy (`epsilon_anisotropy` given, no `H_parameter`), a block `GrainExtension` stops
the run in the first step. -/
theorem c166_violation_anisotropy (i : Input) (e : EventInterval.Input) (he : i.grainExt = some e) (hk : Known e) (hp : Positive e) (hH : i.hParam = none)
    (ε : ℝ) (hε : i.eps = some ε) (h0 : 0 < ε) : advance i = some false := by
  have hz : hOf i = 0 := by simp [hOf, hH, hε, h0]
  simp [advance, he, active_some, hk, hp, hz]

/-- **C166** In terms of the entries: a step cannot start exactly if grains are extended while `H_parameter` is zero, or negative or left out with an
anisotropy; a positive `H_parameter` always works. -/
theorem c166_advance_entries (i : Input) (he : ∀ e, i.grainExt = some e → Known e) :
    advance i = some true ↔ ¬ ((∃ e, i.grainExt = some e ∧ Positive e)
      ∧ (i.hParam = some 0 ∨ (∃ ε, i.eps = some ε ∧ 0 < ε) ∧ ∀ h, i.hParam = some h → h < 0)) := by
  rw [c166_advance_iff i he]
  have hz : hOf i = 0 ↔ (i.hParam = some 0 ∨ (∃ ε, i.eps = some ε ∧ 0 < ε) ∧ ∀ h, i.hParam = some h → h < 0) := by
    unfold hOf
    rcases i.hParam with _ | h <;> rcases i.eps with _ | ε
    · norm_num
      simp
    · by_cases h0 : 0 < ε <;> norm_num [h0] <;> simp
    · norm_num
      simp
    · by_cases h0 : 0 < ε <;> by_cases h1 : h < 0 <;> simp [h0, h1]
  rw [hz]

/-- **C166** (partial: output asked for) Grains are numbered with the block `GrainDiagnostics` and extended with the block `GrainExtension`; their volumes
are written if both the block `GrainDiagnostics` and the option of the output are there. -/
theorem c166_grains_partial (i : Input) (v : Visit) (hv : i.visit = some v) (hk : Known v.interval) (hp : Positive v.interval) :
    ∃ g, createGrains i = some g ∧ (g.number = true ↔ i.grainDiag ≠ none) ∧ (g.extend = true ↔ i.grainExt ≠ none)
      ∧ (g.volume = true ↔ i.grainDiag ≠ none ∧ v.grain = some true) := by
  have hf := c166_flags_partial i v hv hk hp
  refine ⟨⟨i.grainDiag.isSome, i.grainExt.isSome, i.grainDiag.isSome && v.grain.getD false⟩, by simp [createGrains, hf], ?_, ?_, ?_⟩
  · rcases i.grainDiag with _ | d <;> simp
  · rcases i.grainExt with _ | d <;> simp
  · rcases i.grainDiag with _ | d <;> rcases v.grain with _ | b <;> simp

/-- **C166** Grains without the block do not move. -/
theorem c166_rigid_off (r : RigidIn) : rigid r = .off ↔ r.block = none := by
  unfold rigid
  rcases r.block with _ | ⟨t, e⟩
  · simp
  · dsimp only
    split_ifs <;> simp

/-- **C166** (partial) With several order parameters, a valid number of grains, and for a positive threshold a composition and `equil_gb`, the forces are
those of the sintering model exactly for a positive threshold. -/
theorem c166_rigid_partial (r : RigidIn) (th : Option ℝ) (eq : Bool) (hb : r.block = some (th, eq)) (hn : 1 < r.norderp) (hA : ∀ a, r.norderpA = some a → 0 < a)
    (hth : 0 < th.getD 0 → eq = true ∧ r.conc = true) : rigid r = if 0 < th.getD 0 then .wangForces else .phaseForces := by
  have hg : ¬ r.grains ≤ 0 := by
    unfold RigidIn.grains
    rcases h : r.norderpA with _ | a
    · rw [Option.getD_none, if_neg (by omega)]; omega
    · have := hA a h
      rw [Option.getD_some]; omega
  unfold rigid
  rw [hb]
  dsimp only
  rw [if_neg hg]
  by_cases h : 0 < th.getD 0
  · obtain ⟨he, hc⟩ := hth h
    simp [h, he, hc, hn]
  · simp [h, hn]

/-- **C166** (violation) The block is accepted and the run fails in its first step exactly with a single order parameter, or with a positive threshold
and no composition. -/
theorem c166_violation_rigid (r : RigidIn) (th : Option ℝ) (eq : Bool) (hb : r.block = some (th, eq)) (hA : 0 < r.grains) (he : 0 < th.getD 0 → eq = true) :
    rigid r = .failsInStep ↔ r.norderp ≤ 1 ∨ 0 < th.getD 0 ∧ r.conc = false := by
  unfold rigid
  rw [hb]
  dsimp only
  rw [if_neg (by omega)]
  by_cases h : 0 < th.getD 0
  · simp only [h, he h]
    by_cases hn : 1 < r.norderp
    · have : ¬ r.norderp ≤ 1 := by omega
      cases r.conc <;> simp [hn, this]
    · have : r.norderp ≤ 1 := by omega
      simp [hn, this]
  · by_cases hn : 1 < r.norderp
    · have : ¬ r.norderp ≤ 1 := by omega
      simp [h, hn, this]
    · have : r.norderp ≤ 1 := by omega
      simp [h, hn, this]

/-- **C166** The test of the number of grains does not stop a run with a single order parameter: its default is one. -/
theorem c166_rigid_single (r : RigidIn) (h1 : r.norderp = 1) (hA : r.norderpA = none) (th : Option ℝ) (eq : Bool) (hb : r.block = some (th, eq))
    (he : 0 < th.getD 0 → eq = true) : rigid r = .failsInStep := by
  have hg : r.grains = 1 := by unfold RigidIn.grains; rw [hA, h1]; simp
  rw [c166_violation_rigid r th eq hb (by omega) he]
  left; omega

/-- **C166** Without a positive number of grains, or without `equil_gb` for a positive threshold, the input is refused. -/
theorem c166_rigid_refused (r : RigidIn) (th : Option ℝ) (eq : Bool) (hb : r.block = some (th, eq)) :
    rigid r = .refused ↔ r.grains ≤ 0 ∨ 0 < th.getD 0 ∧ eq = false := by
  unfold rigid
  rw [hb]
  dsimp only
  by_cases h1 : r.grains ≤ 0
  · simp [h1]
  · by_cases h2 : 0 < th.getD 0 ∧ eq = false
    · rw [if_neg h1, if_pos h2]; exact ⟨fun _ => Or.inr h2, fun _ => rfl⟩
    · rw [if_neg h1, if_neg h2]
      constructor
      · intro h
        exfalso
        split_ifs at h
      · rintro (h | h)
        · exact absurd h h1
        · exact absurd h h2

example : rigid { norderp := 3, block := some (some 0.14, true), conc := true } = .wangForces := by
  rw [c166_rigid_partial _ (some 0.14) true rfl (by norm_num) (by simp) (by simp), if_pos (by norm_num)]

/-! ## Instances -/

/-- Output every 10 steps. -/
def exVisit : Visit := ⟨{ intInterval := some 10 }, none, none, some true, none, none⟩

/-- Grains extended every 5 steps, no numbering, anisotropy only. -/
def exIn : Input := ⟨some exVisit, some none, {}, none, some { intInterval := some 5 }, none, some 0.1, true⟩

theorem ex_known : Known { intInterval := some 5 } := by simp [Known]

theorem ex_pos : Positive { intInterval := some 5 } := by left; simp

example : flags exIn = some ⟨some false, some false, some true, some false, true⟩ :=
  c166_flags_partial exIn exVisit rfl (by simp [Known, exVisit]) (by left; simp [exVisit])

example : createGrains { exIn with visit := none } = none := c166_violation_flags _ (by simp)

example : symmetryAware exIn = false := c166_violation_symmetry exIn rfl

example : resetHierarchy exIn 0 1 = some false := c166_violation_reset exIn _ rfl ex_known ex_pos rfl 0 1 (by norm_num) le_rfl

example : advance exIn = some false := c166_violation_anisotropy exIn _ rfl ex_known ex_pos rfl 0.1 rfl (by norm_num)

end AMPE.OptionalBlocks.Props
