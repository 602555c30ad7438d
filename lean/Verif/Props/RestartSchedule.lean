import Verif.Props.EventInterval

/-!
# C48: output schedules after a restart

Event intervals are not saved in the restart file; a restarted run constructs them anew.
The schedules primed by the driver (plot, time info, grain diagnostics: `source/PFModel.cc:442-459`) give
the same answers after the restart point as an uninterrupted run.  The restart-file schedule is
never primed by the driver, so in its time-based form it loses the first crossing.
-/

namespace AMPE.EventInterval.Props

open AMPE.EventInterval

/-- **C48**, step schedules: after a restart at time `t1` (the last poll of `h1`), the answers on the
remaining history equal those of the uninterrupted run. -/
theorem c48_step_schedule_restart_transparent (ty : String) (hty : ty = "step" ∨ ty = "cycle") (n : ℤ)
    (hn : 0 < n) (first last : Bool) (s0 : State)
    (hs0 : construct { intInterval := some n } 1 ty first last = some s0)
    (t0 t1 : ℝ) (ht0 : 0 ≤ t0) (h1 h2 : History) (ht1 : t0 ≤ t1)
    (hlt1 : ∀ p ∈ h1, t0 < p.2 ∧ p.2 ≤ t1) (hlt2 : ∀ p ∈ h2, t1 < p.2)
    (hinc : Increasing (h1 ++ h2)) :
    ∃ sa sb a1 a2, a1.length = h1.length ∧
      run s0 (.initial t0 :: calls (h1 ++ h2)) = some (sa, first :: (a1 ++ a2)) ∧
      run s0 (.initial t1 :: calls h2) = some (sb, first :: a2) := by
  obtain ⟨sa, ha⟩ := c01_step_schedule_primed ty hty n hn first last s0 hs0 t0 ht0 (h1 ++ h2)
    (by intro p hp; rcases List.mem_append.mp hp with hp | hp
        · exact (hlt1 p hp).1
        · exact lt_of_le_of_lt ht1 (hlt2 p hp)) hinc
  obtain ⟨sb, hb⟩ := c01_step_schedule_primed ty hty n hn first last s0 hs0 t1 (ht0.trans ht1) h2
    hlt2 (List.pairwise_append.mp hinc).2.1
  exact ⟨sa, sb, h1.map fun p => decide (n ∣ p.1), h2.map fun p => decide (n ∣ p.1), by simp,
    by rw [ha]; simp, hb⟩

/-- **C48**, time schedules: the same, provided the restart time is the time of the last poll
before the restart (or the start time if there was none). -/
theorem c48_time_schedule_restart_transparent (ty : String) (hty : ty = "time" ∨ ty = "dt") (d : ℝ)
    (hd : 0 < d) (first last : Bool) (s0 : State)
    (hs0 : construct { dblInterval := some d } 1 ty first last = some s0)
    (t0 : ℝ) (ht0 : 0 ≤ t0) (h1 h2 : History)
    (hlt : ∀ p ∈ h1 ++ h2, t0 < p.2) (hbig : ∀ p ∈ h1 ++ h2, p.2 < 2147483648 * d)
    (hinc : Increasing (h1 ++ h2)) (t1 : ℝ)
    (ht1 : t1 = (t0 :: h1.map Prod.snd)[h1.length]'(by simp)) :
    ∃ sa sb a1 a2, a1.length = h1.length ∧
      run s0 (.initial t0 :: calls (h1 ++ h2)) = some (sa, first :: (a1 ++ a2)) ∧
      run s0 (.initial t1 :: calls h2) = some (sb, first :: a2) := by
  have ht01 : t0 ≤ t1 := by
    rcases Nat.eq_zero_or_pos h1.length with hz | hz
    · rw [ht1]; simp [hz]
    · obtain ⟨m, hm⟩ : ∃ m, h1.length = m + 1 := ⟨h1.length - 1, by omega⟩
      have : t1 = (h1[m]).2 := by rw [ht1]; simp [hm]
      rw [this]
      exact (hlt _ (List.mem_append_left _ (List.getElem_mem _))).le
  have ht1lt : ∀ p ∈ h2, t1 < p.2 := by
    intro p hp
    rcases Nat.eq_zero_or_pos h1.length with hz | hz
    · have : t1 = t0 := by rw [ht1]; simp [hz]
      rw [this]; exact hlt p (List.mem_append_right _ hp)
    · obtain ⟨m, hm⟩ : ∃ m, h1.length = m + 1 := ⟨h1.length - 1, by omega⟩
      have : t1 = (h1[m]).2 := by rw [ht1]; simp [hm]
      rw [this]
      exact (List.pairwise_append.mp hinc).2.2 _ (List.getElem_mem _) p hp
  obtain ⟨sa, A, ha, hla, hsa⟩ := c02_time_schedule ty hty d hd first last s0 hs0 t0 ht0 (h1 ++ h2)
    hlt hbig hinc
  obtain ⟨sb, B, hb, hlb, hsb⟩ := c02_time_schedule ty hty d hd first last s0 hs0 t1
    (ht0.trans ht01) h2 ht1lt (fun p hp => hbig p (List.mem_append_right _ hp))
    (List.pairwise_append.mp hinc).2.1
  rw [List.length_append] at hla
  have hB : B = A.drop h1.length := by
    apply List.ext_getElem
    · rw [List.length_drop, hla, hlb]; omega
    · intro i hi1 hi2
      have hi : i < h2.length := by omega
      have e1 := hsb i hi
      have e2 := hsa (h1.length + i) (by simp; omega)
      have hx : (h1 ++ h2)[h1.length + i]'(by simp; omega) = h2[i] := by simp
      have hy : (t0 :: (h1 ++ h2).map Prod.snd)[h1.length + i]'(by simp; omega) =
          (t1 :: h2.map Prod.snd)[i]'(by simp; omega) := by
        cases i with
        | zero =>
          rcases Nat.eq_zero_or_pos h1.length with hz | hz
          · simp only [Nat.add_zero, List.getElem_cons_zero]
            rw [ht1]; simp [hz]
          · obtain ⟨m, hm⟩ : ∃ m, h1.length = m + 1 := ⟨h1.length - 1, by omega⟩
            simp only [Nat.add_zero, List.getElem_cons_zero]
            rw [ht1]; simp [hm]
        | succ i =>
          have : h1.length + (i + 1) = (h1.length + i) + 1 := by omega
          simp [this]
      rw [hx, hy] at e2
      have hA : h1.length + i < A.length := by omega
      rw [List.getElem_drop]
      rw [List.getElem?_eq_getElem hi1] at e1
      rw [List.getElem?_eq_getElem hA] at e2
      simp only [Option.some.injEq] at e1 e2
      exact Bool.eq_iff_iff.mpr (e1.trans e2.symm)
  refine ⟨sa, sb, A.take h1.length, B, by simp; omega, ?_, hb⟩
  rw [ha, hB, List.take_append_drop]

/-- **C48**, violated for the unprimed time-based restart schedule: an uninterrupted run writes a
restart file at the poll that crosses a multiple, a run restarted just before does not. -/
theorem c48_unprimed_time_schedule_not_transparent :
    ∃ s0 sa sb, construct { dblInterval := some 1 } 1 "time" false true = some s0 ∧
      run s0 (calls [(1, 0.5), (2, 1.5)]) = some (sa, [false, true]) ∧
      run s0 (calls [(2, 1.5)]) = some (sb, [false]) := by
  classical
  have hi : toInt ((1 : ℝ) + 0.5) = some ⌊(1 : ℝ) + 0.5⌋ :=
    toInt_nonneg (by norm_num) (by norm_num)
  have hs : construct { dblInterval := some (1 : ℝ) } 1 "time" false true =
      some ⟨0, 1, .time, -1, -1, false, true⟩ := by simp [construct, hi]
  obtain ⟨sb, hb⟩ := c02_unprimed_first_crossing_lost "time" (Or.inl rfl) 1 true _ hs 2 1.5
  obtain ⟨s1, h1⟩ := c02_unprimed_first_crossing_lost "time" (Or.inl rfl) 1 true _ hs 1 0.5
  obtain ⟨s1', b, bs', x1, x2, x3⟩ := run_cons h1
  simp only [List.cons.injEq] at x3
  obtain ⟨rfl, rfl⟩ := x3
  obtain ⟨c, e2, e3, _⟩ := exec_effect x1
  simp only [Op.at] at e2 e3
  have hp := passed_time (s := s1') (by rw [c.k]) (by rw [c.d]; exact one_pos) 2 1.5
    (by rw [e3]; norm_num) (by rw [e2]; norm_num) (by rw [e2]; norm_num)
    (by rw [c.d]; norm_num)
  have hcr : ∃ k : ℕ, 1 ≤ k ∧ s1'.prevTime < k * s1'.dblInterval ∧ (k : ℝ) * s1'.dblInterval ≤ 1.5 :=
    ⟨1, le_refl _, by rw [e2, c.d]; norm_num, by rw [c.d]; norm_num⟩
  have hpt : intervalPassed s1' 2 1.5 = some true := by rw [hp]; simp [hcr]
  refine ⟨_, recordEvent { s1' with prevTime := 1.5 } 1.5, sb, hs, ?_, hb⟩
  simp only [calls, List.map_cons, List.map_nil, run, x1, Option.bind_eq_bind, Option.bind_some]
  simp only [exec, hasIntervalPassed, hpt, Option.bind_eq_bind, Option.bind_some, if_true]

/-- Non-vacuity of the time-schedule theorem: two polls before, one after the restart. -/
example : ∃ s0, construct { dblInterval := some 1 } 1 "time" true true = some s0 ∧
    ∃ sa sb a1 a2, a1.length = 2 ∧
      run s0 (.initial 0 :: calls ([(1, 0.5), (2, 1.5)] ++ [(3, 2.5)])) = some (sa, true :: (a1 ++ a2)) ∧
      run s0 (.initial 1.5 :: calls [(3, 2.5)]) = some (sb, true :: a2) := by
  have hi : toInt ((1 : ℝ) + 0.5) = some ⌊(1 : ℝ) + 0.5⌋ :=
    toInt_nonneg (by norm_num) (by norm_num)
  have hs : construct { dblInterval := some (1 : ℝ) } 1 "time" true true =
      some ⟨0, 1, .time, -1, -1, true, true⟩ := by simp [construct, hi]
  refine ⟨_, hs, ?_⟩
  have := c48_time_schedule_restart_transparent "time" (Or.inl rfl) 1 one_pos true true _ hs 0 (le_refl _)
    [(1, 0.5), (2, 1.5)] [(3, 2.5)]
    (by intro p hp; simp at hp; rcases hp with rfl | rfl | rfl <;> norm_num)
    (by intro p hp; simp at hp; rcases hp with rfl | rfl | rfl <;> norm_num)
    (by unfold Increasing; norm_num) 1.5 (by simp)
  simpa using this

end AMPE.EventInterval.Props
