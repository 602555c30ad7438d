import Verif.Model.EventInterval
import Mathlib.Tactic.Linarith
import Mathlib.Tactic.Positivity
import Mathlib.Tactic.NormNum

/-! Helper lemmas about the event-interval model. -/

namespace AMPE.EventInterval

/-- The configuration part of the state never changes. -/
structure SameCfg (a b : State) : Prop where
  i : a.intInterval = b.intInterval
  d : a.dblInterval = b.dblInterval
  k : a.kind = b.kind
  f : a.includeFirst = b.includeFirst
  l : a.includeLast = b.includeLast

theorem SameCfg.refl (a : State) : SameCfg a a := ⟨rfl, rfl, rfl, rfl, rfl⟩
theorem SameCfg.trans {a b c : State} (h : SameCfg a b) (g : SameCfg b c) : SameCfg a c :=
  ⟨h.i.trans g.i, h.d.trans g.d, h.k.trans g.k, h.f.trans g.f, h.l.trans g.l⟩

theorem SameCfg.active {a b : State} (h : SameCfg a b) : isActive a = isActive b := by
  unfold isActive; rw [h.i, h.d, h.k]

/-- What one call can do. -/
theorem exec_effect {s s' : State} {op : Op} {b : Bool} (h : exec s op = some (s', b)) :
    SameCfg s' s ∧ s'.prevTime = op.at ∧
    s'.lastEvent = (if b then op.at else s.lastEvent) ∧
    (b = true → eventOccurredAtTime s op.at = false ∧ isActive s = true) := by
  cases op with
  | initial t =>
    simp only [exec, includeInitial, Option.some.injEq, Prod.mk.injEq] at h
    obtain ⟨h1, h2⟩ := h
    subst h1; subst h2
    refine ⟨?_, rfl, ?_, ?_⟩
    · split <;> exact ⟨rfl, rfl, rfl, rfl, rfl⟩
    · simp only [Op.at]; split <;> simp_all [recordEvent]
    · simp only [Op.at, decide_eq_true_eq]; intro hh; simp_all
  | final t =>
    simp only [exec, includeFinal, Option.some.injEq, Prod.mk.injEq] at h
    obtain ⟨h1, h2⟩ := h
    subst h1; subst h2
    refine ⟨?_, rfl, ?_, ?_⟩
    · split <;> exact ⟨rfl, rfl, rfl, rfl, rfl⟩
    · simp only [Op.at]; split <;> simp_all [recordEvent]
    · simp only [Op.at, decide_eq_true_eq]; intro hh; simp_all
  | poll k t =>
    simp only [exec, hasIntervalPassed, Option.bind_eq_bind, Option.bind_eq_some_iff,
      Option.some.injEq, Prod.mk.injEq] at h
    obtain ⟨c, hc, h1, h2⟩ := h
    subst h1; subst h2
    refine ⟨?_, ?_, ?_, ?_⟩
    · split <;> exact ⟨rfl, rfl, rfl, rfl, rfl⟩
    · simp only [Op.at]; split <;> simp [recordEvent]
    · simp only [Op.at]; split <;> simp_all [recordEvent]
    · intro hb
      subst hb
      unfold intervalPassed at hc
      split at hc
      · rename_i hh; simp only [Op.at]; simp_all
      · simp at hc

/-- Unfolding a run over a `cons`. -/
theorem run_cons {s : State} {op : Op} {ops : List Op} {s' : State} {bs : List Bool}
    (h : run s (op :: ops) = some (s', bs)) :
    ∃ s1 b bs', exec s op = some (s1, b) ∧ run s1 ops = some (s', bs') ∧ bs = b :: bs' := by
  simp only [run, Option.bind_eq_bind, Option.bind_eq_some_iff, Option.some.injEq,
    Prod.mk.injEq] at h
  obtain ⟨⟨s1, b⟩, h1, ⟨s2, bs'⟩, h2, h3, h4⟩ := h
  exact ⟨s1, b, bs', h1, by rw [← h3]; exact h2, h4.symm⟩

theorem run_length {s s' : State} {ops : List Op} {bs : List Bool}
    (h : run s ops = some (s', bs)) : bs.length = ops.length := by
  induction ops generalizing s bs with
  | nil => simp [run] at h; simp [← h.2]
  | cons op ops ih =>
    obtain ⟨s1, b, bs', _, h2, rfl⟩ := run_cons h
    simp [ih h2]

theorem run_cfg {s s' : State} {ops : List Op} {bs : List Bool}
    (h : run s ops = some (s', bs)) : SameCfg s' s := by
  induction ops generalizing s bs with
  | nil => simp [run] at h; rw [h.1]; exact SameCfg.refl _
  | cons op ops ih =>
    obtain ⟨s1, b, bs', h1, h2, rfl⟩ := run_cons h
    exact (ih h2).trans (exec_effect h1).1

/-- As long as only non-events or events at time `t` follow, a recorded event at `t`
blocks every further event at `t`. -/
theorem run_blocked {s s' : State} {ops : List Op} {bs : List Bool} {t : ℝ}
    (h : run s ops = some (s', bs)) (hl : s.lastEvent = t) (j : ℕ) (hj : j < ops.length)
    (hb : bs[j]? = some true) (ht : (ops[j]).at = t) :
    ∃ k, k < j ∧ bs[k]? = some true ∧ ∃ o, ops[k]? = some o ∧ o.at ≠ t := by
  induction ops generalizing s bs j with
  | nil => simp at hj
  | cons op ops ih =>
    obtain ⟨s1, b, bs', h1, h2, rfl⟩ := run_cons h
    obtain ⟨_, _, e3, e4⟩ := exec_effect h1
    cases j with
    | zero =>
      simp only [List.getElem?_cons_zero, Option.some.injEq] at hb
      simp only [List.getElem_cons_zero] at ht
      have := e4 hb
      simp [eventOccurredAtTime, hl, ht, this.2] at this
    | succ j =>
      simp only [List.length_cons, Nat.add_lt_add_iff_right] at hj
      simp only [List.getElem?_cons_succ] at hb
      simp only [List.getElem_cons_succ] at ht
      by_cases hb0 : b = true
      · by_cases hop : op.at = t
        · have hl1 : s1.lastEvent = t := by rw [e3, hb0]; simp [hop]
          obtain ⟨k, hk, hk1, hk2⟩ := ih h2 hl1 j hj hb ht
          exact ⟨k + 1, by omega, by simpa using hk1, by simpa using hk2⟩
        · exact ⟨0, by omega, by simp [hb0], op, by simp, hop⟩
      · have hl1 : s1.lastEvent = t := by rw [e3]; simp [hb0, hl]
        obtain ⟨k, hk, hk1, hk2⟩ := ih h2 hl1 j hj hb ht
        exact ⟨k + 1, by omega, by simpa using hk1, by simpa using hk2⟩

theorem run_between {s s' : State} {ops : List Op} {bs : List Bool}
    (h : run s ops = some (s', bs)) (i j : ℕ) (hij : i < j) (hj : j < ops.length)
    (hbi : bs[i]? = some true) (hbj : bs[j]? = some true)
    (ht : (ops[i]).at = (ops[j]).at) :
    ∃ k, i < k ∧ k < j ∧ bs[k]? = some true ∧ ∃ o, ops[k]? = some o ∧ o.at ≠ (ops[j]).at := by
  induction ops generalizing s bs i j with
  | nil => simp at hj
  | cons op ops ih =>
    obtain ⟨s1, b, bs', h1, h2, rfl⟩ := run_cons h
    obtain ⟨_, _, e3, _⟩ := exec_effect h1
    obtain ⟨j, rfl⟩ : ∃ j', j = j' + 1 := ⟨j - 1, by omega⟩
    simp only [List.length_cons, Nat.add_lt_add_iff_right] at hj
    simp only [List.getElem?_cons_succ] at hbj
    simp only [List.getElem_cons_succ] at ht ⊢
    cases i with
    | zero =>
      simp only [List.getElem?_cons_zero, Option.some.injEq] at hbi
      simp only [List.getElem_cons_zero] at ht
      have hl1 : s1.lastEvent = (ops[j]).at := by rw [e3, hbi]; simp [ht]
      obtain ⟨k, hk, hk1, hk2⟩ := run_blocked h2 hl1 j hj hbj rfl
      exact ⟨k + 1, by omega, by omega, by simpa using hk1, by simpa using hk2⟩
    | succ i =>
      simp only [List.getElem?_cons_succ] at hbi
      simp only [List.getElem_cons_succ] at ht
      obtain ⟨k, hk0, hk, hk1, hk2⟩ := ih h2 i j (by omega) hj hbi hbj ht
      exact ⟨k + 1, by omega, by omega, by simpa using hk1, by simpa using hk2⟩

theorem toInt_nonneg {x : ℝ} (h0 : 0 ≤ x) (h1 : x < 2147483648) : toInt x = some ⌊x⌋ := by
  have hf : (0 : ℤ) ≤ ⌊x⌋ := Int.floor_nonneg.mpr h0
  have hf2 : ⌊x⌋ < 2147483648 := by
    rw [Int.floor_lt]; exact_mod_cast h1
  simp only [toInt, if_pos h0]
  rw [if_pos ⟨by omega, by omega⟩]

theorem toInt_big {x : ℝ} (h1 : 2147483648 ≤ x) : toInt x = none := by
  have h0 : 0 ≤ x := by linarith
  have hf2 : (2147483648 : ℤ) ≤ ⌊x⌋ := by
    rw [Int.le_floor]; exact_mod_cast h1
  simp only [toInt, if_pos h0]
  rw [if_neg (by omega)]

/-- Crossing of a multiple, in terms of floors. -/
theorem floor_lt_iff {d p t : ℝ} (hd : 0 < d) (hp : 0 ≤ p) :
    ⌊p / d⌋ < ⌊t / d⌋ ↔ ∃ k : ℕ, 1 ≤ k ∧ p < k * d ∧ k * d ≤ t := by
  constructor
  · intro h
    have h0 : (0 : ℤ) ≤ ⌊p / d⌋ := Int.floor_nonneg.mpr (div_nonneg hp hd.le)
    refine ⟨(⌊t / d⌋).toNat, by omega, ?_, ?_⟩
    · have h1 : p / d < ⌊t / d⌋ := by
        have := Int.floor_lt (a := p / d) (z := ⌊t / d⌋)
        exact this.mp h
      have h2 : (((⌊t / d⌋).toNat : ℕ) : ℝ) = (⌊t / d⌋ : ℝ) := by
        have : (((⌊t / d⌋).toNat : ℕ) : ℤ) = ⌊t / d⌋ := Int.toNat_of_nonneg (by omega)
        exact_mod_cast congrArg (Int.cast : ℤ → ℝ) this
      rw [h2]
      exact (div_lt_iff₀ hd).mp h1
    · have h1 : (⌊t / d⌋ : ℝ) ≤ t / d := Int.floor_le _
      have h2 : (((⌊t / d⌋).toNat : ℕ) : ℝ) = (⌊t / d⌋ : ℝ) := by
        have : (((⌊t / d⌋).toNat : ℕ) : ℤ) = ⌊t / d⌋ := Int.toNat_of_nonneg (by omega)
        exact_mod_cast congrArg (Int.cast : ℤ → ℝ) this
      rw [h2]
      exact (le_div_iff₀ hd).mp h1
  · rintro ⟨k, _, h1, h2⟩
    have a : ⌊p / d⌋ < (k : ℤ) := by
      rw [Int.floor_lt]; push_cast; exact (div_lt_iff₀ hd).mpr h1
    have b : (k : ℤ) ≤ ⌊t / d⌋ := by
      rw [Int.le_floor]; push_cast; exact (le_div_iff₀ hd).mpr h2
    omega

/-- One poll of a step interval at a fresh time. -/
theorem passed_cycle {s : State} (hk : s.kind = .cycle) (hn : 0 < s.intInterval)
    (k : ℤ) (t : ℝ) (ht : s.lastEvent ≠ t) :
    intervalPassed s k t =
      some (decide (s.intInterval ∣ k ∨ (s.includeFirst = true ∧ s.prevTime < 0))) := by
  have ha : isActive s = true := by simp [isActive, hk, hn]
  have hdvd : (k.tmod s.intInterval = 0) ↔ s.intInterval ∣ k :=
    ⟨Int.dvd_of_tmod_eq_zero, Int.tmod_eq_zero_of_dvd⟩
  simp only [intervalPassed, eventOccurredAtTime, ha, ht, hk]
  by_cases hf : s.includeFirst = true ∧ s.prevTime < 0
  · simp [hf]
  · simp only [hf]
    simp [hdvd]

/-- One poll of a time interval at a fresh time after priming. -/
theorem passed_time {s : State} (hk : s.kind = .time) (hd : 0 < s.dblInterval)
    (k : ℤ) (t : ℝ) (ht : s.lastEvent ≠ t) (hp : 0 ≤ s.prevTime) (hpt : s.prevTime ≤ t)
    (hb : t < 2147483648 * s.dblInterval) [Decidable (∃ k : ℕ, 1 ≤ k ∧ s.prevTime < k * s.dblInterval ∧
        k * s.dblInterval ≤ t)] :
    intervalPassed s k t =
      some (decide (∃ k : ℕ, 1 ≤ k ∧ s.prevTime < k * s.dblInterval ∧
        k * s.dblInterval ≤ t)) := by
  have ha : isActive s = true := by simp [isActive, hk, hd]
  have h1 : toInt (s.prevTime / s.dblInterval) = some ⌊s.prevTime / s.dblInterval⌋ :=
    toInt_nonneg (div_nonneg hp hd.le) ((div_lt_iff₀ hd).mpr (by linarith))
  have h2 : toInt (t / s.dblInterval) = some ⌊t / s.dblInterval⌋ :=
    toInt_nonneg (div_nonneg (hp.trans hpt) hd.le) ((div_lt_iff₀ hd).mpr hb)
  have hnp : ¬ (s.prevTime < 0) := not_lt.mpr hp
  simp only [intervalPassed, eventOccurredAtTime, ha, ht, hk, hnp, hp, h1, h2]
  simp [floor_lt_iff hd hp]

theorem run_polls_cycle (polls : List (ℤ × ℝ)) :
    ∀ (s : State), s.kind = .cycle → 0 < s.intInterval →
      (∀ p ∈ polls, 0 ≤ p.2) → polls.Pairwise (fun p q => p.2 < q.2) →
      (∀ p ∈ polls, s.lastEvent < p.2) →
    ∃ s', run s (polls.map fun p => Op.poll p.1 p.2) = some (s', polls.mapIdx fun i p =>
      decide (s.intInterval ∣ p.1 ∨
        (i = 0 ∧ s.includeFirst = true ∧ s.prevTime < 0))) := by
  induction polls with
  | nil => intro s _ _ _ _ _; exact ⟨s, by simp [run]⟩
  | cons p ps ih =>
    intro s hk hn hpos hinc hlast
    have hne : s.lastEvent ≠ p.2 := (hlast p (by simp)).ne
    have hp := passed_cycle hk hn p.1 p.2 hne
    obtain ⟨s1, hs1⟩ : ∃ s1, exec s (.poll p.1 p.2) = some (s1, decide (s.intInterval ∣ p.1 ∨
        (s.includeFirst = true ∧ s.prevTime < 0))) := by
      simp only [exec, hasIntervalPassed, hp, Option.bind_eq_bind, Option.bind_some]
      exact ⟨_, rfl⟩
    obtain ⟨c, e2, e3, _⟩ := exec_effect hs1
    have hle : s1.lastEvent ≤ p.2 := by
      rw [e3]; split
      · exact le_refl _
      · exact (hlast p (by simp)).le
    have hpw := List.pairwise_cons.mp hinc
    obtain ⟨s2, h2⟩ := ih s1 (c.k.trans hk) (by rw [c.i]; exact hn)
      (fun q hq => hpos q (by simp [hq])) hpw.2
      (fun q hq => lt_of_le_of_lt hle (hpw.1 q hq))
    refine ⟨s2, ?_⟩
    have hprev : ¬ s1.prevTime < 0 := by rw [e2]; exact not_lt.mpr (hpos p (by simp))
    simp only [List.map_cons, run, hs1, h2, Option.bind_eq_bind, Option.bind_some,
      List.mapIdx_cons, c.i, hprev]
    simp

/-- Answers of a primed time interval. -/
noncomputable def timeAnswers (d : ℝ) : ℝ → List (ℤ × ℝ) → List Bool
  | _, [] => []
  | p, q :: qs =>
    (open Classical in decide (∃ k : ℕ, 1 ≤ k ∧ p < k * d ∧ k * d ≤ q.2)) :: timeAnswers d q.2 qs

open Classical in
theorem timeAnswers_get (d : ℝ) (qs : List (ℤ × ℝ)) : ∀ (p : ℝ) (i : ℕ) (h : i < qs.length),
    (timeAnswers d p qs)[i]? = some (decide (∃ k : ℕ, 1 ≤ k ∧
      (p :: qs.map Prod.snd)[i]'(by simp; omega) < k * d ∧ k * d ≤ (qs[i]).2)) := by
  induction qs with
  | nil => intro p i h; simp at h
  | cons q qs ih =>
    intro p i h
    cases i with
    | zero => simp [timeAnswers]
    | succ i =>
      have := ih q.2 i (by simpa using h)
      simp only [timeAnswers, List.getElem?_cons_succ, this, List.map_cons,
        List.getElem_cons_succ]

theorem run_polls_time (polls : List (ℤ × ℝ)) :
    ∀ (s : State), s.kind = .time → 0 < s.dblInterval → 0 ≤ s.prevTime →
      (∀ p ∈ polls, p.2 < 2147483648 * s.dblInterval) →
      polls.Pairwise (fun p q => p.2 < q.2) →
      (∀ p ∈ polls, s.lastEvent < p.2 ∧ s.prevTime < p.2) →
    ∃ s', run s (polls.map fun p => Op.poll p.1 p.2) =
      some (s', timeAnswers s.dblInterval s.prevTime polls) := by
  classical
  induction polls with
  | nil => intro s _ _ _ _ _ _; exact ⟨s, by simp [run, timeAnswers]⟩
  | cons p ps ih =>
    intro s hk hd hpr hbig hinc hlast
    have hl := hlast p (by simp)
    have hp := passed_time hk hd p.1 p.2 hl.1.ne hpr hl.2.le (hbig p (by simp))
    obtain ⟨s1, hs1⟩ : ∃ s1, exec s (.poll p.1 p.2) = some (s1,
        decide (∃ k : ℕ, 1 ≤ k ∧ s.prevTime < k * s.dblInterval ∧
        k * s.dblInterval ≤ p.2)) := by
      simp only [exec, hasIntervalPassed, hp, Option.bind_eq_bind, Option.bind_some]
      exact ⟨_, rfl⟩
    obtain ⟨c, e2, e3, _⟩ := exec_effect hs1
    simp only [Op.at] at e2 e3
    have hle : s1.lastEvent ≤ p.2 := by
      rw [e3]; split
      · exact le_refl _
      · exact hl.1.le
    have hpw := List.pairwise_cons.mp hinc
    obtain ⟨s2, h2⟩ := ih s1 (c.k.trans hk) (by rw [c.d]; exact hd)
      (by rw [e2]; exact hpr.trans hl.2.le)
      (fun q hq => by rw [c.d]; exact hbig q (by simp [hq])) hpw.2
      (fun q hq => ⟨lt_of_le_of_lt hle (hpw.1 q hq), by rw [e2]; exact hpw.1 q hq⟩)
    refine ⟨s2, ?_⟩
    simp only [List.map_cons, run, hs1, h2, Option.bind_eq_bind, Option.bind_some,
      c.d, e2, timeAnswers]

end AMPE.EventInterval
