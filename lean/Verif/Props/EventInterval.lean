import Verif.Proofs.EventInterval

/-!
# C01, C02, C03: output event schedules

Specification used below: `n ∣ step` (step schedule) and "a positive multiple of the interval
lies in the half-open window `(previous poll, this poll]`" (time schedule).
-/

namespace AMPE.EventInterval.Props

open AMPE.EventInterval

/-- A poll history: (step number, simulation time) pairs, oldest first. -/
abbrev History := List (ℤ × ℝ)

/-- Times are strictly increasing along the history. -/
def Increasing (h : History) : Prop := h.Pairwise (fun p q => p.2 < q.2)

/-- The calls made for a history. -/
def calls (h : History) : List Op := h.map fun p => Op.poll p.1 p.2

/-- Specification: some positive multiple of `d` lies in `(a, b]`. -/
def Crosses (d a b : ℝ) : Prop := ∃ k : ℕ, 1 ≤ k ∧ a < k * d ∧ k * d ≤ b

/-- **C01.** A step interval of size `n`, freshly constructed and polled at increasing
non-negative times, answers "yes" at the `i`-th poll iff the step is a multiple of `n`, or it is
the first poll and the first step is to be included. -/
theorem c01_step_schedule (ty : String) (hty : ty = "step" ∨ ty = "cycle") (n : ℤ) (hn : 0 < n)
    (first last : Bool) (s0 : State)
    (hs0 : construct { intInterval := some n } 1 ty first last = some s0)
    (h : History) (hpos : ∀ p ∈ h, 0 ≤ p.2) (hinc : Increasing h) :
    ∃ s', run s0 (calls h) =
      some (s', h.mapIdx fun i p => decide (n ∣ p.1 ∨ (i = 0 ∧ first = true))) := by
  have hi : toInt ((1 : ℝ) + 0.5) = some ⌊(1 : ℝ) + 0.5⌋ :=
    toInt_nonneg (by norm_num) (by norm_num)
  simp only [construct, hi, Option.bind_eq_bind, Option.bind_some, Option.getD, hty, if_true,
    Option.some.injEq] at hs0
  have h1 : s0.lastEvent = -1 := by rw [← hs0]
  have h2 : s0.prevTime = -1 := by rw [← hs0]
  have h3 : s0.intInterval = n := by rw [← hs0]
  have h4 : s0.includeFirst = first := by rw [← hs0]
  obtain ⟨s', h'⟩ := run_polls_cycle h s0 (by rw [← hs0]) (by rw [h3]; exact hn) hpos hinc
    (fun p hp => by rw [h1]; exact lt_of_lt_of_le (by norm_num) (hpos p hp))
  refine ⟨s', ?_⟩
  rw [calls, h', h2, h3, h4]
  norm_num

/-- **C01** as used by the run loop: after the initial call at `t0`, the answers are
"first step included", then exactly the multiples of `n`. -/
theorem c01_step_schedule_primed (ty : String) (hty : ty = "step" ∨ ty = "cycle") (n : ℤ)
    (hn : 0 < n) (first last : Bool) (s0 : State)
    (hs0 : construct { intInterval := some n } 1 ty first last = some s0)
    (t0 : ℝ) (ht0 : 0 ≤ t0) (h : History) (hlt : ∀ p ∈ h, t0 < p.2) (hinc : Increasing h) :
    ∃ s', run s0 (.initial t0 :: calls h) = some (s', first :: h.map fun p => decide (n ∣ p.1)) := by
  have hi : toInt ((1 : ℝ) + 0.5) = some ⌊(1 : ℝ) + 0.5⌋ :=
    toInt_nonneg (by norm_num) (by norm_num)
  simp only [construct, hi, Option.bind_eq_bind, Option.bind_some, Option.getD, hty, if_true,
    Option.some.injEq] at hs0
  have hne : (-1 : ℝ) ≠ t0 := by linarith
  obtain ⟨s1, hs1⟩ : ∃ s1, exec s0 (.initial t0) = some (s1, first) := by
    subst hs0
    simp only [exec, includeInitial, isActive, eventOccurredAtTime, hn, hne]
    exact ⟨_, by simp; rfl⟩
  obtain ⟨c, e2, e3, _⟩ := exec_effect hs1
  simp only [Op.at] at e2 e3
  have hle : s1.lastEvent ≤ t0 := by
    rw [e3]; split
    · exact le_refl _
    · subst hs0; show (-1 : ℝ) ≤ t0; linarith
  obtain ⟨s', h'⟩ := run_polls_cycle h s1 (by rw [c.k, ← hs0]) (by rw [c.i, ← hs0]; exact hn)
    (fun p hp => ht0.trans (hlt p hp).le) hinc
    (fun p hp => lt_of_le_of_lt hle (hlt p hp))
  refine ⟨s', ?_⟩
  have hprev : ¬ s1.prevTime < 0 := by rw [e2]; exact not_lt.mpr ht0
  have hci : s1.intInterval = n := by rw [c.i, ← hs0]
  simp only [run, hs1, calls, h', Option.bind_eq_bind, Option.bind_some, hprev, hci]
  simp [List.mapIdx_eq_zipIdx_map]
  apply List.ext_getElem <;> simp

/-- **C01**, second half: after any call that answered "yes" the event can be queried as having
occurred at that time; and at a time later than everything recorded, a "no" is also visible. -/
theorem c01_yes_is_remembered (s s' : State) (op : Op) (b : Bool)
    (h : exec s op = some (s', b)) :
    (b = true → eventOccurredAtTime s' op.at = true) ∧
    (b = false → s.lastEvent < op.at → eventOccurredAtTime s' op.at = false) := by
  obtain ⟨c, _, e3, e4⟩ := exec_effect h
  constructor
  · intro hb
    simp [eventOccurredAtTime, c.active, (e4 hb).2, e3, hb]
  · intro hb hl
    simp [eventOccurredAtTime, e3, hb, hl.ne]

/-- **C02.** A time interval `d`, primed by the initial call at `t0`, answers "yes" at the `i`-th
later poll exactly when a positive multiple of `d` lies between the previous poll and this one. -/
theorem c02_time_schedule (ty : String) (hty : ty = "time" ∨ ty = "dt") (d : ℝ) (hd : 0 < d)
    (first last : Bool) (s0 : State)
    (hs0 : construct { dblInterval := some d } 1 ty first last = some s0)
    (t0 : ℝ) (ht0 : 0 ≤ t0) (h : History) (hlt : ∀ p ∈ h, t0 < p.2)
    (hbig : ∀ p ∈ h, p.2 < 2147483648 * d) (hinc : Increasing h) :
    ∃ s' answers, run s0 (.initial t0 :: calls h) = some (s', first :: answers) ∧
      answers.length = h.length ∧
      ∀ i (hi : i < h.length), answers[i]? = some true ↔
        Crosses d ((t0 :: h.map Prod.snd)[i]'(by simp; omega)) (h[i]).2 := by
  have hi : toInt ((1 : ℝ) + 0.5) = some ⌊(1 : ℝ) + 0.5⌋ :=
    toInt_nonneg (by norm_num) (by norm_num)
  have hns : ¬ (ty = "step" ∨ ty = "cycle") := by
    rcases hty with rfl | rfl <;> decide
  simp only [construct, hi, Option.bind_eq_bind, Option.bind_some, Option.getD, hns, if_false,
    hty, if_true, Option.some.injEq] at hs0
  have hne : (-1 : ℝ) ≠ t0 := by linarith
  obtain ⟨s1, hs1⟩ : ∃ s1, exec s0 (.initial t0) = some (s1, first) := by
    subst hs0
    simp only [exec, includeInitial, isActive, eventOccurredAtTime, hd, hne]
    exact ⟨_, by simp; rfl⟩
  obtain ⟨c, e2, e3, _⟩ := exec_effect hs1
  simp only [Op.at] at e2 e3
  have hle : s1.lastEvent ≤ t0 := by
    rw [e3]; split
    · exact le_refl _
    · subst hs0; show (-1 : ℝ) ≤ t0; linarith
  have hcd : s1.dblInterval = d := by rw [c.d, ← hs0]
  obtain ⟨s', h'⟩ := run_polls_time h s1 (by rw [c.k, ← hs0]) (by rw [hcd]; exact hd)
    (by rw [e2]; exact ht0) (by rw [hcd]; exact hbig) hinc
    (fun p hp => ⟨lt_of_le_of_lt hle (hlt p hp), by rw [e2]; exact hlt p hp⟩)
  rw [e2, hcd] at h'
  refine ⟨s', timeAnswers d t0 h, ?_, ?_, ?_⟩
  · simp only [run, hs1, calls, h', Option.bind_eq_bind, Option.bind_some]
  · have := run_length h'; simpa using this
  · intro i hil
    rw [timeAnswers_get d h t0 i hil]
    simp [Crosses]

/-- **C02**: no multiple is lost: every positive multiple of `d` between the priming time and the
last poll is covered by some poll that answered "yes". -/
theorem c02_no_multiple_skipped (ty : String) (hty : ty = "time" ∨ ty = "dt") (d : ℝ) (hd : 0 < d)
    (first last : Bool) (s0 : State)
    (hs0 : construct { dblInterval := some d } 1 ty first last = some s0)
    (t0 : ℝ) (ht0 : 0 ≤ t0) (h : History) (hlt : ∀ p ∈ h, t0 < p.2)
    (hbig : ∀ p ∈ h, p.2 < 2147483648 * d) (hinc : Increasing h)
    (s' : State) (answers : List Bool)
    (hrun : run s0 (.initial t0 :: calls h) = some (s', first :: answers))
    (k : ℕ) (hk : 1 ≤ k) (hk0 : t0 < k * d) (j : ℕ) (hj : j < h.length) (hkj : k * d ≤ (h[j]).2) :
    ∃ i, ∃ hi : i ≤ j, answers[i]? = some true ∧ k * d ≤ (h[i]).2 ∧
      (t0 :: h.map Prod.snd)[i]'(by simp; omega) < k * d := by
  obtain ⟨s1, a1, hr, _, hspec⟩ :=
    c02_time_schedule ty hty d hd first last s0 hs0 t0 ht0 h hlt hbig hinc
  rw [hrun] at hr
  simp only [Option.some.injEq, Prod.mk.injEq, List.cons.injEq, true_and] at hr
  obtain ⟨_, rfl⟩ := hr
  -- the first index whose time reaches the multiple
  classical
  have hex : ∃ i, ∃ hi : i < h.length, k * d ≤ (h[i]).2 := ⟨j, hj, hkj⟩
  obtain ⟨hi, hle⟩ := Nat.find_spec hex
  have hij : Nat.find hex ≤ j := Nat.find_min' hex ⟨hj, hkj⟩
  have hprev : (t0 :: h.map Prod.snd)[Nat.find hex]'(by
      rw [List.length_cons, List.length_map]; exact Nat.lt_succ_of_lt hi) < k * d := by
    rcases Nat.eq_zero_or_pos (Nat.find hex) with hz | hz
    · simpa [hz] using hk0
    · obtain ⟨m, hm⟩ : ∃ m, Nat.find hex = m + 1 := ⟨Nat.find hex - 1, by omega⟩
      have hnm := Nat.find_min hex (m := m) (by omega)
      have hml : m < h.length := by omega
      simp only [hml, exists_true_left, not_le] at hnm
      simpa [hm] using hnm
  exact ⟨Nat.find hex, hij, (hspec _ hi).mpr ⟨k, hk, hprev, hle⟩, hle, hprev⟩

/-- **C02**, unprimed case: if the first poll is made without a preceding initial call and the
first step is not included, that poll answers "no" whatever multiples were crossed. -/
theorem c02_unprimed_first_crossing_lost (ty : String) (hty : ty = "time" ∨ ty = "dt") (d : ℝ)
    (last : Bool) (s0 : State)
    (hs0 : construct { dblInterval := some d } 1 ty false last = some s0) (k : ℤ) (t : ℝ) :
    ∃ s', run s0 [.poll k t] = some (s', [false]) := by
  have hi : toInt ((1 : ℝ) + 0.5) = some ⌊(1 : ℝ) + 0.5⌋ :=
    toInt_nonneg (by norm_num) (by norm_num)
  have hns : ¬ (ty = "step" ∨ ty = "cycle") := by
    rcases hty with rfl | rfl <;> decide
  simp only [construct, hi, Option.bind_eq_bind, Option.bind_some, Option.getD, hns, if_false,
    hty, if_true, Option.some.injEq] at hs0
  subst hs0
  have hp : intervalPassed (⟨0, d, .time, -1, -1, false, last⟩ : State) k t = some false := by
    simp only [intervalPassed]
    norm_num
    intro _ _ h; cases h
  simp only [run, exec, hasIntervalPassed, hp, Option.bind_eq_bind, Option.bind_some]
  exact ⟨_, rfl⟩

/-- **C02**, limit of validity: a poll of a primed time interval whose time is at least `2^31`
intervals converts an out-of-range value to `int`, which is undefined behaviour. -/
theorem c02_overflow_is_undefined (s : State) (hk : s.kind = .time) (hd : 0 < s.dblInterval)
    (hp : 0 ≤ s.prevTime) (k : ℤ) (t : ℝ) (hl : s.lastEvent ≠ t)
    (hbig : 2147483648 * s.dblInterval ≤ t) : hasIntervalPassed s k t = none := by
  have ha : isActive s = true := by simp [isActive, hk, hd]
  have h2 : toInt (t / s.dblInterval) = none := toInt_big ((le_div_iff₀ hd).mpr hbig)
  have hnp : ¬ (s.prevTime < 0) := not_lt.mpr hp
  simp only [hasIntervalPassed, intervalPassed, eventOccurredAtTime, ha, hl, hk, hnp, hp, h2]
  cases toInt (s.prevTime / s.dblInterval) <;> simp

/-- **C03.** For any history of calls on any object: if two calls at the same time both answered
"yes", then some call between them answered "yes" at a different time. -/
theorem c03_no_double_event (s s' : State) (ops : List Op) (bs : List Bool)
    (h : run s ops = some (s', bs)) (i j : ℕ) (hij : i < j) (hj : j < ops.length)
    (hbi : bs[i]? = some true) (hbj : bs[j]? = some true)
    (ht : (ops[i]).at = (ops[j]).at) :
    ∃ k, i < k ∧ k < j ∧ bs[k]? = some true ∧ ∃ o, ops[k]? = some o ∧ o.at ≠ (ops[j]).at :=
  run_between h i j hij hj hbi hbj ht

/-- **C03**, consequence for simulations: when time never goes backwards, two "yes" answers of
the same object always belong to strictly different times. -/
theorem c03_one_event_per_time (s s' : State) (ops : List Op) (bs : List Bool)
    (h : run s ops = some (s', bs)) (hmono : ops.Pairwise (fun a b => a.at ≤ b.at))
    (i j : ℕ) (hij : i < j) (hj : j < ops.length)
    (hbi : bs[i]? = some true) (hbj : bs[j]? = some true) :
    (ops[i]).at < (ops[j]).at := by
  have hle : (ops[i]).at ≤ (ops[j]).at := List.pairwise_iff_getElem.mp hmono i j (by omega) hj hij
  rcases lt_or_eq_of_le hle with hlt | heq
  · exact hlt
  · obtain ⟨k, hk1, hk2, _, o, ho, hne⟩ := run_between h i j hij hj hbi hbj heq
    have hkl : k < ops.length := by omega
    have hok : o = ops[k] := by
      rw [List.getElem?_eq_getElem hkl] at ho; exact (Option.some.inj ho).symm
    have a := List.pairwise_iff_getElem.mp hmono i k (by omega) hkl hk1
    have b := List.pairwise_iff_getElem.mp hmono k j hkl hj hk2
    rw [← hok] at a b
    exact absurd (le_antisymm b (heq ▸ a)) hne

/-- **C03**: an interval configured with a non-positive value never answers "yes". -/
theorem c03_inactive_never_fires (s s' : State) (ops : List Op) (bs : List Bool)
    (hc : s.kind = .cycle → s.intInterval ≤ 0) (ht : s.kind = .time → s.dblInterval ≤ 0)
    (h : run s ops = some (s', bs)) : true ∉ bs := by
  induction ops generalizing s bs with
  | nil => simp only [run, Option.some.injEq, Prod.mk.injEq] at h; obtain ⟨_, rfl⟩ := h; simp
  | cons op ops ih =>
    obtain ⟨s1, b, bs', h1, h2, rfl⟩ := run_cons h
    obtain ⟨c, _, _, e4⟩ := exec_effect h1
    have hb : b = false := by
      by_contra hb
      have := (e4 (by simpa using hb)).2
      simp only [isActive, decide_eq_true_eq] at this
      rcases this with ⟨h1, h2⟩ | ⟨h1, h2⟩
      · exact absurd (hc h1) (not_le.mpr h2)
      · exact absurd (ht h1) (not_le.mpr h2)
    have := ih s1 bs' (by rw [c.k, c.i]; exact hc) (by rw [c.k, c.d]; exact ht) h2
    simp [hb, this]

/-- **C03**: nor does it report that an event occurred, whatever calls were made before. -/
theorem c03_inactive_never_reports (s s' : State) (ops : List Op) (bs : List Bool) (t : ℝ)
    (hc : s.kind = .cycle → s.intInterval ≤ 0) (ht : s.kind = .time → s.dblInterval ≤ 0)
    (h : run s ops = some (s', bs)) : eventOccurredAtTime s' t = false := by
  have hcfg := run_cfg h
  have ha : isActive s = false := by
    simp only [isActive, decide_eq_false_iff_not]
    rintro (⟨h1, h2⟩ | ⟨h1, h2⟩)
    · exact absurd (hc h1) (not_le.mpr h2)
    · exact absurd (ht h1) (not_le.mpr h2)
  simp [eventOccurredAtTime, SameCfg.active hcfg, ha]

/-- **C01**/**C02**: an interval absent from the input is the default one: the object built is the one built
when the default is written out, rounded to the nearest step number for step intervals. -/
theorem c02_default_interval (inp : Input) (d : ℝ) (hd : 0 ≤ d) (hd' : d + 0.5 < 2147483648) (ty : String)
    (first last : Bool) (h1 : inp.intInterval = none) (h2 : inp.dblInterval = none) :
    construct inp d ty first last =
      construct { inp with intInterval := some ⌊d + 1 / 2⌋, dblInterval := some d } d ty first last := by
  have hi : toInt (d + 0.5) = some ⌊d + 0.5⌋ := toInt_nonneg (by linarith) hd'
  have e : d + 0.5 = d + 1 / 2 := by norm_num
  simp only [construct, hi, h1, h2, Option.bind_eq_bind, Option.bind_some, Option.getD_none, Option.getD_some]
  rw [← e]

/-- **C02**: the interval written in the input is the one used, whatever the default. -/
theorem c02_input_interval (inp : Input) (d x : ℝ) (n : ℤ) (ty : String) (first last : Bool) (s : State)
    (h : construct { inp with intInterval := some n, dblInterval := some x } d ty first last = some s) :
    (s.kind = .cycle → s.intInterval = n) ∧ (s.kind = .time → s.dblInterval = x) ∧ s.lastEvent < 0 ∧ s.prevTime < 0 := by
  unfold construct at h
  cases hi : toInt (d + 0.5) with
  | none => simp [hi] at h
  | some m =>
    simp only [hi, Option.bind_eq_bind, Option.bind_some, Option.getD_some] at h
    split_ifs at h <;> simp only [Option.some.injEq] at h <;> subst h <;> simp

/-! ### Non-vacuity -/

/-- A three-poll history with a non-uniform step: hypotheses of C01 are met and both answers
occur. -/
example : ∃ s0 s', construct { intInterval := some 2 } 1 "step" true true = some s0 ∧
    run s0 (calls [(1, 0.5), (2, 0.7), (3, 4)]) = some (s', [true, true, false]) := by
  have hi : toInt ((1 : ℝ) + 0.5) = some ⌊(1 : ℝ) + 0.5⌋ :=
    toInt_nonneg (by norm_num) (by norm_num)
  have hc : ∃ s0, construct { intInterval := some 2 } 1 "step" true true = some s0 := by
    simp [construct, hi]
  obtain ⟨s0, hs0⟩ := hc
  obtain ⟨s', h⟩ := c01_step_schedule "step" (Or.inl rfl) 2 (by norm_num) true true s0 hs0
    [(1, 0.5), (2, 0.7), (3, 4)] (by intro p hp; simp at hp; rcases hp with rfl | rfl | rfl <;> norm_num)
    (by unfold Increasing; norm_num)
  exact ⟨s0, s', hs0, by rw [h]; simp⟩

/-- The hypotheses of C02 are met by a history that crosses a multiple and one that does not. -/
example : ∃ (h : History), Increasing h ∧ (∀ p ∈ h, (0 : ℝ) < p.2) ∧
    (∀ p ∈ h, p.2 < 2147483648 * (1 : ℝ)) ∧ Crosses 1 (0.5) (1.5) ∧ ¬ Crosses 1 (0) (0.5) := by
  refine ⟨[(1, 0.5), (2, 1.5)], by unfold Increasing; norm_num, ?_, ?_, ⟨1, le_refl _, by norm_num,
    by norm_num⟩, ?_⟩
  · intro p hp; simp at hp; rcases hp with rfl | rfl <;> norm_num
  · intro p hp; simp at hp; rcases hp with rfl | rfl <;> norm_num
  · rintro ⟨k, hk, _, h2⟩
    have : (1 : ℝ) ≤ k := by exact_mod_cast hk
    linarith

/-- The constructor accepts the time type, so C02 applies. -/
example : ∃ s0, construct { dblInterval := some 0.25 } 1 "time" true true = some s0 ∧
    s0.dblInterval = 0.25 ∧ s0.kind = .time := by
  have hi : toInt ((1 : ℝ) + 0.5) = some ⌊(1 : ℝ) + 0.5⌋ :=
    toInt_nonneg (by norm_num) (by norm_num)
  refine ⟨⟨0, 0.25, .time, -1, -1, true, true⟩, ?_, rfl, rfl⟩
  simp [construct, hi]

end AMPE.EventInterval.Props
