import Verif.Proofs.TemperatureHistory

/-!
# C08: temperature-history lookup

The full claim ("inside the table the lookup interpolates, outside it reports failure, and it never
reads outside the table") fails for queries exactly at the first table position; see
`c08_undefined_iff`.  Everything else is proved, hence the `_partial` suffix on the safety part.
-/

namespace AMPE.TemperatureHistory.Props

open AMPE.TemperatureHistory

/-- Specification: the time lies in the window the table covers (last time excluded). -/
def TimeCovered (tb : Table) (t : ℝ) : Prop := (∃ a ∈ tb.times, a ≤ t) ∧ ∃ b ∈ tb.times, t < b

/-- Specification: the position lies between two table positions, strictly right of the first. -/
def PosCovered (tb : Table) (x : ℝ) : Prop :=
  (∃ a ∈ tb.positions, a < x) ∧ ∃ b ∈ tb.positions, x ≤ b

/-- Specification: `a` and `b` are consecutive entries of `l`, at index `i`. -/
def Consecutive (l : List ℝ) (i : ℕ) (a b : ℝ) : Prop := l[i]? = some a ∧ l[i + 1]? = some b

theorem first_le {l : List ℝ} (h : l.Pairwise (· < ·)) (h0 : 0 < l.length) {a : ℝ} (ha : a ∈ l) :
    l[0] ≤ a := by
  obtain ⟨i, hi, rfl⟩ := List.getElem_of_mem ha
  rcases Nat.eq_zero_or_pos i with rfl | hp
  · exact le_refl _
  · exact (getElem?_lt h hp hi).le

theorem le_last {l : List ℝ} (h : l.Pairwise (· < ·)) {a : ℝ} (ha : a ∈ l) :
    ∃ h0 : l.length - 1 < l.length, a ≤ l[l.length - 1] := by
  obtain ⟨i, hi, rfl⟩ := List.getElem_of_mem ha
  refine ⟨by omega, ?_⟩
  rcases Nat.lt_or_ge i (l.length - 1) with hp | hp
  · exact (getElem?_lt h hp (by omega)).le
  · have : i = l.length - 1 := by omega
    simp [this]

/-- **C08** (inside): the lookup succeeds and its temperature is the bilinear interpolation of the
four surrounding table entries. -/
theorem c08_bilinear (tb : Table) (w : tb.WF) (t x : ℝ) (ht : TimeCovered tb t)
    (hx : PosCovered tb x) :
    ∃ T g i j t0 t1 x0 x1 a b c d, getTandGradT tb t x = .ok T g ∧
      Consecutive tb.times i t0 t1 ∧ t0 ≤ t ∧ t < t1 ∧
      Consecutive tb.positions j x0 x1 ∧ x0 < x ∧ x ≤ x1 ∧
      tb.temp i j = some a ∧ tb.temp i (j + 1) = some b ∧
      tb.temp (i + 1) j = some c ∧ tb.temp (i + 1) (j + 1) = some d ∧
      (t1 - t0) * (x1 - x0) * T =
        (t1 - t) * (x1 - x) * a + (t1 - t) * (x - x0) * b +
        (t - t0) * (x1 - x) * c + (t - t0) * (x - x0) * d := by
  have hnt := w.nt
  have hnx := w.nx
  obtain ⟨⟨ta, hta, hta'⟩, tb', htb, htb'⟩ := ht
  obtain ⟨⟨xa, hxa, hxa'⟩, xb, hxb, hxb'⟩ := hx
  have h1 := first_le w.inct (by omega) hta
  obtain ⟨_, h2⟩ := le_last w.inct htb
  have h3 := first_le w.incx (by omega) hxa
  obtain ⟨_, h4⟩ := le_last w.incx hxb
  obtain ⟨i, j, hi, hj, hti, hxj, e⟩ := lookup_inside w (t := t) (x := x) (by linarith)
    (by linarith) (by linarith) (by linarith)
  obtain ⟨a, ha⟩ := temp_some w (i := i) (j := j) (by omega) (by omega)
  obtain ⟨b, hb⟩ := temp_some w (i := i) (j := j + 1) (by omega) (by omega)
  obtain ⟨c, hc⟩ := temp_some w (i := i + 1) (j := j) (by omega) (by omega)
  obtain ⟨d, hd⟩ := temp_some w (i := i + 1) (j := j + 1) (by omega) (by omega)
  obtain ⟨g, hg⟩ := interpolate_value w hi hj ha hb hc hd t x
  rw [hg] at e
  refine ⟨_, g, i, j, _, _, _, _, a, b, c, d, e, ⟨List.getElem?_eq_getElem (by omega),
    List.getElem?_eq_getElem hi⟩, hti.1, hti.2, ⟨List.getElem?_eq_getElem (by omega),
    List.getElem?_eq_getElem hj⟩, hxj.1, hxj.2, ha, hb, hc, hd, ?_⟩
  have n1 : tb.times[i + 1] - tb.times[i] ≠ 0 := by linarith
  have n2 : tb.positions[j + 1] - tb.positions[j] ≠ 0 := by linarith
  field_simp
  ring

/-- **C08** (inside): the temperature lies between the smallest and largest of the table entries
(any bounds of the four surrounding ones, in particular of the whole table). -/
theorem c08_between (tb : Table) (w : tb.WF) (t x lo hi : ℝ) (ht : TimeCovered tb t)
    (hx : PosCovered tb x)
    (hb : ∀ i j v, (∃ t0 t1 x0 x1, Consecutive tb.times i t0 t1 ∧ t0 ≤ t ∧ t ≤ t1 ∧
        Consecutive tb.positions j x0 x1 ∧ x0 ≤ x ∧ x ≤ x1) →
      (tb.temp i j = some v ∨ tb.temp i (j + 1) = some v ∨ tb.temp (i + 1) j = some v ∨
        tb.temp (i + 1) (j + 1) = some v) → lo ≤ v ∧ v ≤ hi) :
    ∃ T g, getTandGradT tb t x = .ok T g ∧ lo ≤ T ∧ T ≤ hi := by
  obtain ⟨T, g, i, j, t0, t1, x0, x1, a, b, c, d, e, ct, l1, l2, cx, l3, l4, ha, hb', hc, hd, eq⟩ :=
    c08_bilinear tb w t x ht hx
  refine ⟨T, g, e, ?_⟩
  have cell : ∃ t0 t1 x0 x1, Consecutive tb.times i t0 t1 ∧ t0 ≤ t ∧ t ≤ t1 ∧
        Consecutive tb.positions j x0 x1 ∧ x0 ≤ x ∧ x ≤ x1 :=
    ⟨t0, t1, x0, x1, ct, l1, l2.le, cx, l3.le, l4⟩
  have n1 : 0 < t1 - t0 := by linarith
  have n2 : 0 < x1 - x0 := by linarith
  have hT : T = (1 - (t - t0) / (t1 - t0)) * ((1 - (x - x0) / (x1 - x0)) * a +
      (x - x0) / (x1 - x0) * b) + (t - t0) / (t1 - t0) * ((1 - (x - x0) / (x1 - x0)) * c +
      (x - x0) / (x1 - x0) * d) := by
    field_simp
    linarith
  rw [hT]
  exact bilinear_bounds
    ⟨div_nonneg (by linarith) n1.le, (div_le_one n1).mpr (by linarith)⟩
    ⟨div_nonneg (by linarith) n2.le, (div_le_one n2).mpr (by linarith)⟩
    (hb i j a cell (.inl ha)) (hb i j b cell (.inr (.inl hb')))
    (hb i j c cell (.inr (.inr (.inl hc)))) (hb i j d cell (.inr (.inr (.inr hd))))

/-- **C08** (nodes): at a table node the table value is returned exactly. -/
theorem c08_node_exact (tb : Table) (w : tb.WF) (i j : ℕ) (t x v : ℝ)
    (hi : tb.times[i]? = some t) (hil : i + 1 < tb.times.length)
    (hj : tb.positions[j]? = some x) (hj0 : 0 < j) (hv : tb.temp i j = some v) :
    ∃ g, getTandGradT tb t x = .ok v g := by
  obtain ⟨hi', rfl⟩ := List.getElem?_eq_some_iff.mp hi
  obtain ⟨hj', rfl⟩ := List.getElem?_eq_some_iff.mp hj
  have ht : TimeCovered tb tb.times[i] :=
    ⟨⟨_, List.getElem_mem hi', le_refl _⟩, ⟨tb.times[i + 1], List.getElem_mem hil,
      getElem?_lt w.inct (Nat.lt_succ_self i) hil⟩⟩
  have hx : PosCovered tb tb.positions[j] :=
    ⟨⟨tb.positions[j - 1], List.getElem_mem _, getElem?_lt w.incx (by omega) hj'⟩,
      ⟨_, List.getElem_mem hj', le_refl _⟩⟩
  obtain ⟨T, g, i', j', t0, t1, x0, x1, a, b, c, d, e, ct, l1, l2, cx, l3, l4, ha, hb', hc, hd, eq⟩ :=
    c08_bilinear tb w _ _ ht hx
  obtain ⟨hit0, et0⟩ := List.getElem?_eq_some_iff.mp ct.1
  obtain ⟨hit1, et1⟩ := List.getElem?_eq_some_iff.mp ct.2
  obtain ⟨hjx0, ex0⟩ := List.getElem?_eq_some_iff.mp cx.1
  obtain ⟨hjx1, ex1⟩ := List.getElem?_eq_some_iff.mp cx.2
  have hii : i' = i := by
    rcases lt_trichotomy i' i with h | h | h
    · exfalso
      rcases Nat.lt_or_ge (i' + 1) i with h2 | h2
      · have := getElem?_lt w.inct h2 hi'; linarith
      · have : i' + 1 = i := by omega
        subst this; linarith
    · exact h
    · have := getElem?_lt w.inct h hit0; linarith
  have hjj : j' + 1 = j := by
    rcases lt_trichotomy (j' + 1) j with h | h | h
    · have := getElem?_lt w.incx h hj'; linarith
    · exact h
    · exfalso
      rcases Nat.lt_or_ge j j' with h2 | h2
      · have := getElem?_lt w.incx h2 hjx0; linarith
      · have : j' = j := by omega
        subst this; linarith
  subst hii hjj
  have hbv : b = v := by rw [hv] at hb'; exact (Option.some.inj hb').symm
  subst hbv
  refine ⟨g, ?_⟩
  rw [e]
  have n1 : t1 - t0 ≠ 0 := by linarith
  have n2 : x1 - x0 ≠ 0 := by linarith
  have hT : (t1 - t0) * (x1 - x0) * (T - b) = 0 := by
    rw [mul_sub, eq, ← et0, ← ex1]; ring
  rcases mul_eq_zero.mp hT with h | h
  · exact absurd h (mul_ne_zero n1 n2)
  · rw [sub_eq_zero.mp h]

/-- **C08** (gradient): for data affine in position with a common slope `g`, the reported gradient
is exactly `g`, in every cell including the blended ones. -/
theorem c08_gradient_affine (tb : Table) (w : tb.WF) (t x : ℝ) (ht : TimeCovered tb t)
    (hx : PosCovered tb x) (off : ℕ → ℝ) (g : ℝ)
    (haff : ∀ k l p, tb.positions[l]? = some p → k < tb.times.length →
      tb.temp k l = some (off k + g * p)) :
    ∃ T, getTandGradT tb t x = .ok T g := by
  have hnt := w.nt
  have hnx := w.nx
  obtain ⟨⟨ta, hta, hta'⟩, tb', htb, htb'⟩ := ht
  obtain ⟨⟨xa, hxa, hxa'⟩, xb, hxb, hxb'⟩ := hx
  have h1 := first_le w.inct (by omega) hta
  obtain ⟨_, h2⟩ := le_last w.inct htb
  have h3 := first_le w.incx (by omega) hxa
  obtain ⟨_, h4⟩ := le_last w.incx hxb
  obtain ⟨i, j, hi, hj, hti, hxj, e⟩ := lookup_inside w (t := t) (x := x) (by linarith)
    (by linarith) (by linarith) (by linarith)
  obtain ⟨v, hv⟩ := interpolate_grad w hi hj off g
    (fun k l hl hk => haff k l _ (List.getElem?_eq_getElem hl) hk) t x
  exact ⟨v, by rw [e, hv]; rfl⟩

/-- **C08** (outside): before the first time, from the last time on, left of the first or right of
the last position, the failure code is returned. -/
theorem c08_outside (tb : Table) (w : tb.WF) (t x : ℝ)
    (h : (∀ a ∈ tb.times, t < a) ∨ (∀ a ∈ tb.times, a ≤ t) ∨
      (∀ a ∈ tb.positions, x < a) ∨ (∀ a ∈ tb.positions, a < x)) :
    getTandGradT tb t x = .outOfRange := by
  have hnt := w.nt
  have hnx := w.nx
  have hbt := w.bt
  have hbx := w.bx
  have m0 : tb.times[0] ∈ tb.times := List.getElem_mem _
  have m1 : tb.times[tb.times.length - 1] ∈ tb.times := List.getElem_mem _
  have n0 : tb.positions[0] ∈ tb.positions := List.getElem_mem _
  have n1 : tb.positions[tb.positions.length - 1] ∈ tb.positions := List.getElem_mem _
  simp only [getTandGradT, List.getElem?_eq_getElem (show 0 < tb.times.length by omega),
    List.getElem?_eq_getElem (show 0 < tb.positions.length by omega)]
  split_ifs with c1 c2 c3 c4
  · rfl
  · rfl
  · rfl
  · rfl
  · exfalso
    rcases h with h | h | h | h
    · exact c1 (h _ m0)
    · have hc := count_all w (t := t) (h _ m1)
      rw [hc] at c2
      apply c2
      have hd : dec tb.times.length = tb.times.length - 1 := by
        simp [dec, show tb.times.length ≠ 0 by omega]
      rw [hd, inc_small (by omega)]
      omega
    · exact c3 (h _ n0)
    · have hc := count_all_pos w (x := x) (h _ n1)
      rw [hc] at c4
      apply c4
      have hd : dec tb.positions.length = tb.positions.length - 1 := by
        simp [dec, show tb.positions.length ≠ 0 by omega]
      rw [hd, inc_small (by omega)]
      omega

/-- **C08** (violation): exactly at the first table position the index wraps around and the table is
read out of bounds - for every table and every covered time. -/
theorem c08_violation_first_position (tb : Table) (w : tb.WF) (t x : ℝ) (ht : TimeCovered tb t)
    (hx : tb.positions[0]? = some x) : getTandGradT tb t x = .undefined := by
  have hnt := w.nt
  have hnx := w.nx
  have hbt := w.bt
  have hbx := w.bx
  obtain ⟨⟨ta, hta, hta'⟩, tb', htb, htb'⟩ := ht
  have h1 := first_le w.inct (by omega) hta
  obtain ⟨_, h2⟩ := le_last w.inct htb
  obtain ⟨i, hi, ei, _⟩ := time_index w (t := t) (by linarith) (by linarith)
  have hc : countWhile (fun y => y < x) tb.positions = 0 := by
    by_contra hne
    have := countWhile_keep (fun y => y < x) tb.positions 0 (by omega) (by omega)
    rw [List.getElem?_eq_getElem (by omega)] at hx
    rw [← Option.some.inj hx] at this
    exact lt_irrefl _ this
  have e1 : inc i = i + 1 := inc_small (by omega)
  have e2 : inc (wrap - 1) = 0 := by decide
  have e3 : dec 0 = wrap - 1 := rfl
  have hn : tb.positions[wrap - 1]? = none := List.getElem?_eq_none (by omega)
  have g1 : ¬ tb.times.length ≤ i + 1 := by omega
  have g2 : ¬ tb.positions.length ≤ 0 := by omega
  simp only [getTandGradT, List.getElem?_eq_getElem (show 0 < tb.times.length by omega), hx, ei, e1,
    hc, e3, e2, g1, g2, not_lt.mpr (show tb.times[0] ≤ t by linarith), lt_irrefl, if_false]
  have : interpolate tb t x i (wrap - 1) = none := by
    simp [interpolate, hn, List.getElem?_eq_getElem hi, e1,
      List.getElem?_eq_getElem (show i < tb.times.length by omega)]
  rw [this]
  rfl

/-- **C08** (safety, exact): the lookup reads out of bounds if and only if the time is covered and the
position is exactly the first table position.  The full claim "never" is therefore false; this is
the part that holds. -/
theorem c08_undefined_iff_partial (tb : Table) (w : tb.WF) (t x : ℝ) :
    getTandGradT tb t x = .undefined ↔ TimeCovered tb t ∧ tb.positions[0]? = some x := by
  constructor
  · intro h
    by_cases ht : TimeCovered tb t
    · refine ⟨ht, ?_⟩
      by_contra hx
      by_cases hxc : PosCovered tb x
      · obtain ⟨T, g, _, _, _, _, _, _, _, _, _, _, e, _⟩ := c08_bilinear tb w t x ht hxc
        rw [e] at h; cases h
      · have hnx := w.nx
        have : (∀ a ∈ tb.positions, x < a) ∨ (∀ a ∈ tb.positions, a < x) := by
          by_contra hno
          push Not at hno
          obtain ⟨⟨a, ha, hax⟩, b, hb, hbx⟩ := hno
          apply hxc
          refine ⟨⟨tb.positions[0], List.getElem_mem _, ?_⟩, b, hb, hbx⟩
          have h0 := first_le w.incx (by omega) ha
          refine lt_of_le_of_ne (h0.trans hax) ?_
          intro he
          exact hx (by rw [List.getElem?_eq_getElem (by omega), he])
        rw [c08_outside tb w t x (Or.inr (Or.inr this))] at h
        cases h
    · exfalso
      have : (∀ a ∈ tb.times, t < a) ∨ (∀ a ∈ tb.times, a ≤ t) := by
        by_contra hno
        push Not at hno
        obtain ⟨⟨a, ha, hax⟩, b, hb, hbx⟩ := hno
        exact ht ⟨⟨a, ha, hax⟩, b, hb, hbx⟩
      rw [c08_outside tb w t x (this.elim Or.inl (fun h => Or.inr (Or.inl h)))] at h
      cases h
  · rintro ⟨ht, hx⟩
    exact c08_violation_first_position tb w t x ht hx

/-- A concrete table: two times, three positions. -/
def demo : Table where
  times := [0, 1]
  positions := [0, 1, 3]
  temps := [[10, 20, 30], [20, 40, 80]]

theorem demo_wf : demo.WF where
  nt := by decide
  nx := by decide
  bt := by decide
  bx := by decide
  inct := by unfold demo; norm_num
  incx := by unfold demo; norm_num
  rows := rfl
  cols := by simp [demo]

/-- The hypotheses of the interpolation theorems hold for `demo` at an interior point. -/
example : TimeCovered demo (1/2) ∧ PosCovered demo 2 :=
  ⟨⟨⟨0, by simp [demo], by norm_num⟩, ⟨1, by simp [demo], by norm_num⟩⟩,
   ⟨⟨0, by simp [demo], by norm_num⟩, ⟨3, by simp [demo], by norm_num⟩⟩⟩

/-- Node (time index 0, position index 1) satisfies the hypotheses of `c08_node_exact`. -/
example : ∃ g, getTandGradT demo 0 1 = .ok 20 g :=
  c08_node_exact demo demo_wf 0 1 0 1 20 rfl (by decide) rfl (by decide) rfl

/-- The out-of-bounds read happens for `demo` at time 1/2, position 0. -/
example : getTandGradT demo (1/2) 0 = .undefined :=
  c08_violation_first_position demo demo_wf _ _
    ⟨⟨0, by simp [demo], by norm_num⟩, ⟨1, by simp [demo], by norm_num⟩⟩ rfl

/-- Outside: the last time itself is already rejected. -/
example : getTandGradT demo 1 2 = .outOfRange :=
  c08_outside demo demo_wf _ _ (Or.inr (Or.inl (by simp [demo])))

/-- Affine data (slope 2) satisfies the hypothesis of the gradient theorem. -/
example : ∃ tb : Table, tb.WF ∧ ∃ off : ℕ → ℝ, ∀ k l p, tb.positions[l]? = some p →
    k < tb.times.length → tb.temp k l = some (off k + 2 * p) := by
  refine ⟨⟨[0, 1], [0, 1, 3], [[5, 7, 11], [6, 8, 12]]⟩, ⟨by decide, by decide, by decide,
    by decide, by norm_num, by norm_num, rfl, by simp⟩, fun k => 5 + k, ?_⟩
  intro k l p hp hk
  have hk' : k = 0 ∨ k = 1 := by simp at hk; omega
  have hl : l < 3 := (List.getElem?_eq_some_iff.mp hp).1
  have hl' : l = 0 ∨ l = 1 ∨ l = 2 := by omega
  rcases hk' with rfl | rfl <;> rcases hl' with rfl | rfl | rfl <;> simp at hp <;> subst hp <;>
    simp [Table.temp] <;> norm_num

end AMPE.TemperatureHistory.Props
