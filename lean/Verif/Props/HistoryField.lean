import Verif.Model.HistoryField
import Verif.Props.TemperatureHistory
import Mathlib.Algebra.BigOperators.Intervals

/-!
C128: the temperature prescribed by a history file.

Specification: a file states positions, times and one temperature for each time and position
(`Sheet`); the temperature of the field is compared with the entries of the sheet, at positions at
rest in the laboratory (`travel` is how far the frame has gone).
-/

namespace AMPE.HistoryField.Props

open AMPE.TemperatureHistory AMPE.TemperatureHistory.Props AMPE.Thermal AMPE.HistoryField

/-- Specification: what a history file says. -/
structure Sheet where
  positions : List ℝ
  rows : List (ℝ × List ℝ)

/-- Specification: the file consists, apart from comments, of the line of the positions and one
line for each time. -/
def Writes (ls : List Line) (s : Sheet) : Prop :=
  csvData ls = s.positions.map some :: s.rows.map (fun r => (r.1 :: r.2).map some)

/-- Specification: every row has a temperature for every position. -/
def Sheet.Complete (s : Sheet) : Prop := ∀ r ∈ s.rows, r.2.length = s.positions.length

/-- Specification: the temperature stated for the `i`-th time and the `j`-th position. -/
def Sheet.entry (s : Sheet) (i j : ℕ) : Option ℝ := (s.rows[i]?).bind fun r => r.2[j]?

/-- Specification: complete, times increasing, positions decreasing, at least two of both. -/
structure Sheet.Good (s : Sheet) : Prop where
  complete : s.Complete
  nt : 2 ≤ s.rows.length
  nx : 2 ≤ s.positions.length
  bt : s.rows.length < 4294967296
  bx : s.positions.length < 4294967296
  times : (s.rows.map Prod.fst).Pairwise (· < ·)
  decreasing : s.positions.Pairwise (· > ·)

theorem mapM_some {α : Type} (l : List α) : (l.map some).mapM id = some l := by
  induction l with
  | nil => rfl
  | cons a l ih => simp [List.mapM_cons, ih]

/-- The table made from a sheet. -/
def tableOf (s : Sheet) : Table :=
  ⟨s.rows.map Prod.fst, s.positions.reverse, s.rows.map fun r => r.2.reverse⟩

theorem readRow_some (n : ℕ) (r : ℝ × List ℝ) (h : r.2.length = n) :
    readRow n ((r.1 :: r.2).map some) = some (r.1, r.2.reverse) := by
  unfold readRow
  rw [mapM_some]
  simp [h]

theorem read_eq (ls : List Line) (s : Sheet) (hw : Writes ls s) (hc : s.Complete) :
    readCSV ls = some (tableOf s) := by
  unfold readCSV
  rw [hw]
  simp only [mapM_some, Option.bind_eq_bind, Option.bind_some]
  have : ∀ rows : List (ℝ × List ℝ), (∀ r ∈ rows, r.2.length = s.positions.length) →
      (rows.map (fun r => (r.1 :: r.2).map some)).mapM (readRow s.positions.length) =
        some (rows.map fun r => (r.1, r.2.reverse)) := by
    intro rows
    induction rows with
    | nil => intro _; rfl
    | cons r rows ih =>
      intro h
      rw [List.map_cons, List.mapM_cons, readRow_some _ _ (h r List.mem_cons_self),
        ih (fun r hr => h r (List.mem_cons_of_mem _ hr))]
      rfl
  rw [this s.rows hc]
  simp [tableOf, List.map_map, Function.comp_def]

theorem table_temp (s : Sheet) (hc : s.Complete) (i j : ℕ) (hj : j < s.positions.length) :
    (tableOf s).temp i j = s.entry i (s.positions.length - 1 - j) := by
  unfold Table.temp tableOf Sheet.entry
  simp only [List.getElem?_map]
  rcases hr : s.rows[i]? with _ | r
  · rfl
  · have hl : r.2.length = s.positions.length := hc r (List.mem_of_getElem? hr)
    simp only [Option.map_some, Option.bind_some]
    rw [List.getElem?_reverse (by omega), hl]

theorem table_wf (s : Sheet) (h : s.Good) : (tableOf s).WF where
  nt := by simpa [tableOf] using h.nt
  nx := by simpa [tableOf] using h.nx
  bt := by simpa [tableOf, wrap] using h.bt
  bx := by simpa [tableOf, wrap] using h.bx
  inct := h.times
  incx := by
    show s.positions.reverse.Pairwise (· < ·)
    rw [List.pairwise_reverse]
    exact h.decreasing
  rows := by simp [tableOf]
  cols := by
    intro r hr
    simp only [tableOf, List.mem_map] at hr
    obtain ⟨r', hr', rfl⟩ := hr
    simp [tableOf, h.complete r' hr']

/-- **C128**: a complete file is read; at a time and a position of the file the lookup gives the
temperature of the file, except in the last row and the last column. -/
theorem c128_file_node (ls : List Line) (s : Sheet) (hw : Writes ls s) (h : s.Good) (i j : ℕ)
    (t x v : ℝ) (ht : (s.rows.map Prod.fst)[i]? = some t) (hi : i + 1 < s.rows.length)
    (hx : s.positions[j]? = some x) (hj : j + 1 < s.positions.length) (hv : s.entry i j = some v) :
    ∃ tb g, readCSV ls = some tb ∧ getTandGradT tb t x = .ok v g := by
  have hw' := table_wf s h
  obtain ⟨g, hg⟩ := c08_node_exact (tableOf s) hw' i (s.positions.length - 1 - j) t x v ht
    (by simpa [tableOf] using hi)
    (by
      show s.positions.reverse[_]? = _
      rw [List.getElem?_reverse (by omega)]
      rw [show s.positions.length - 1 - (s.positions.length - 1 - j) = j by omega, hx])
    (by omega)
    (by
      rw [table_temp s h.complete _ _ (by omega),
        show s.positions.length - 1 - (s.positions.length - 1 - j) = j by omega, hv])
  exact ⟨_, g, read_eq ls s hw h.complete, hg⟩

/-- **C128** (violation): at the position of the last column, the lookup reads outside the table,
at any time covered by the file. -/
theorem c128_violation_last_column (ls : List Line) (s : Sheet) (hw : Writes ls s) (h : s.Good)
    (t x : ℝ) (hx : s.positions.getLast? = some x)
    (h0 : ∃ r ∈ s.rows, r.1 ≤ t) (h1 : ∃ r ∈ s.rows, t < r.1) :
    ∃ tb, readCSV ls = some tb ∧ getTandGradT tb t x = .undefined := by
  refine ⟨_, read_eq ls s hw h.complete, ?_⟩
  refine c08_violation_first_position (tableOf s) (table_wf s h) t x ⟨?_, ?_⟩ ?_
  · obtain ⟨r, hr, hle⟩ := h0
    exact ⟨r.1, List.mem_map.2 ⟨r, hr, rfl⟩, hle⟩
  · obtain ⟨r, hr, hlt⟩ := h1
    exact ⟨r.1, List.mem_map.2 ⟨r, hr, rfl⟩, hlt⟩
  · show s.positions.reverse[0]? = _
    have hn := h.nx
    rw [List.getElem?_reverse (by omega), ← hx, List.getLast?_eq_getElem?]
    congr 1

/-- **C128**: at the last time of the file, and later, the program refuses. -/
theorem c128_last_time (ls : List Line) (s : Sheet) (hw : Writes ls s) (h : s.Good)
    (f : Frame) (init0 c1 t x y : ℝ) (ht : ∀ r ∈ s.rows, r.1 ≤ t) :
    ∃ tb, readCSV ls = some tb ∧ setHistory2 tb f init0 c1 t x y = none := by
  refine ⟨_, read_eq ls s hw h.complete, ?_⟩
  unfold setHistory2
  rw [c08_outside (tableOf s) (table_wf s h) t _ (Or.inr (Or.inl ?_))]
  intro a ha
  obtain ⟨r, hr, rfl⟩ := List.mem_map.1 ha
  exact ht r hr

/-- **C128** (violation): a file which states the positions in increasing order is read without
complaint, and then no lookup ever succeeds. -/
theorem c128_violation_increasing (ls : List Line) (s : Sheet) (hw : Writes ls s) (hc : s.Complete)
    (h2 : 2 ≤ s.positions.length) (hb : s.positions.length < 4294967296)
    (hinc : s.positions.Pairwise (· < ·)) :
    ∃ tb, readCSV ls = some tb ∧ ∀ t x T g, getTandGradT tb t x ≠ .ok T g := by
  refine ⟨_, read_eq ls s hw hc, ?_⟩
  intro t x T g hok
  set ps := s.positions.reverse with hps
  have hlen : ps.length = s.positions.length := by simp [hps]
  have hdec : ps.Pairwise (· > ·) := by
    rw [hps, List.pairwise_reverse]
    exact hinc
  have hp : (tableOf s).positions = ps := rfl
  unfold getTandGradT at hok
  rw [hp] at hok
  have h0 : ps[0]? = some (ps[0]'(by omega)) := List.getElem?_eq_getElem _
  rcases ht : (tableOf s).times[0]? with _ | t0
  · rw [ht] at hok; cases hok
  rw [ht] at hok
  simp only [h0] at hok
  split_ifs at hok with g1 g2 g3 g4
  push Not at g3
  have hall : ∀ i (hi : i < ps.length), ps[i] ≤ ps[0]'(by omega) := by
    intro i hi
    rcases Nat.eq_zero_or_pos i with rfl | hpos
    · exact le_refl _
    · exact (List.pairwise_iff_getElem.mp hdec 0 i (by omega) hi hpos).le
  rcases lt_or_eq_of_le g3 with hlt | heq
  · have hcount : countWhile (fun y => y < x) ps = ps.length := by
      by_contra hne
      have hlt' := lt_of_le_of_ne (countWhile_le (fun y => y < x) ps) hne
      exact countWhile_stop (fun y => y < x) ps hlt' ((hall _ hlt').trans_lt hlt)
    apply g4
    rw [hcount]
    unfold dec inc wrap
    rw [if_neg (by omega)]
    rw [Nat.mod_eq_of_lt (by omega)]
    omega
  · have hcount : countWhile (fun y => y < x) ps = 0 := by
      by_contra hne
      have := countWhile_keep (fun y => y < x) ps 0 (by omega) (by omega)
      rw [heq] at this
      exact lt_irrefl _ this
    rw [hcount] at hok
    unfold interpolate at hok
    rw [hp] at hok
    have hnone : ps[dec 0]? = none := by
      rw [List.getElem?_eq_none_iff]
      unfold dec wrap
      simp only [if_true]
      omega
    rw [hnone] at hok
    rcases e1 : (tableOf s).times[dec (countWhile (fun y => y ≤ t) (tableOf s).times)]? with _ | a
    · rw [e1] at hok; cases hok
    · rw [e1] at hok
      rcases e2 : (tableOf s).times[inc (dec (countWhile (fun y => y ≤ t) (tableOf s).times))]? with _ | b
      · rw [e2] at hok; cases hok
      · rw [e2] at hok; cases hok

/-- **C128**: comment lines may be put anywhere. -/
theorem c128_comments (l1 l2 : List Line) : readCSV (l1 ++ .comment :: l2) = readCSV (l1 ++ l2) := by
  have : csvData (l1 ++ .comment :: l2) = csvData (l1 ++ l2) := by
    induction l1 with
    | nil => rfl
    | cons a l ih => cases a <;> simp [csvData, ih]
  unfold readCSV
  rw [this]

/-- **C128** (violation): one line which is not a number list, such as an empty line at the end of
the file, and the program ends with an exception. -/
theorem c128_violation_blank_line (l1 l2 : List Line) : readCSV (l1 ++ .data [none] :: l2) = none := by
  have hcsv : csvData (l1 ++ .data [none] :: l2) = csvData l1 ++ [none] :: csvData l2 := by
    induction l1 with
    | nil => rfl
    | cons a l ih => cases a <;> simp [csvData, ih]
  unfold readCSV
  rw [hcsv]
  rcases hl : csvData l1 with _ | ⟨h, rest⟩
  · rfl
  · simp only [List.cons_append]
    rcases hh : h.mapM id with _ | ps
    · rfl
    · simp only [Option.bind_eq_bind, Option.bind_some]
      have : (rest ++ [none] :: csvData l2).mapM (readRow ps.length) = none := by
        rw [List.mapM_append]
        rcases rest.mapM (readRow ps.length) with _ | a
        · rfl
        · rw [List.mapM_cons]
          rfl
      rw [this]
      rfl

/-! ### The field -/

/-- Specification: how far a frame has travelled at time `t` that starts at time `s` with velocity
`v` and changes its velocity at the listed times. -/
def travel (s v : ℝ) : List (ℝ × ℝ) → ℝ → ℝ
  | [], t => (t - s) * v
  | r :: rs, t => (r.1 - s) * v + travel r.1 r.2 rs t

theorem centerH_after (f : Frame) (rs : List (ℝ × ℝ)) (t : ℝ) :
    centerH (frameAfterH f rs) t = f.center + travel f.time f.vel rs t := by
  induction rs generalizing f with
  | nil => rfl
  | cons r rs ih =>
    have := ih (resetVelocityH f r.1 r.2)
    simp only [frameAfterH, List.foldl_cons] at this ⊢
    rw [this]
    simp only [resetVelocityH, travel]
    ring

/-- **C128**: the centre of the domain has the temperature of the history at the laboratory
position it has reached, whatever the velocities were; from there the field is linear with the
gradient of the history along the growth direction and constant across it. -/
theorem c128_centre (tb : Table) (c0 c1 v t x y : ℝ) (rs : List (ℝ × ℝ)) (T g : ℝ)
    (h : getTandGradT tb t (c0 + travel 0 v rs t) = .ok T g) :
    setHistory2 tb (frameAfterH ⟨c0, 0, v⟩ rs) c0 c1 t x y = some (T + g * (x - c0)) ∧
    ∀ c2 z, setHistory3 tb (frameAfterH ⟨c0, 0, v⟩ rs) c0 c1 c2 t x y z = some (T + g * (x - c0)) := by
  have hc : centerH (frameAfterH ⟨c0, 0, v⟩ rs) t = c0 + travel 0 v rs t := centerH_after ⟨c0, 0, v⟩ rs t
  unfold setHistory2 setHistory3
  rw [hc, h]
  simp only [gradT2, gradT3]
  refine ⟨congrArg some (by ring), fun c2 z => congrArg some (by ring)⟩

/-- **C128**: a change of velocity does not make the temperature jump. -/
theorem c128_continuous (tb : Table) (f : Frame) (init0 c1 c2 t v x y z : ℝ) :
    setHistory2 tb (resetVelocityH f t v) init0 c1 t x y = setHistory2 tb f init0 c1 t x y ∧
    setHistory3 tb (resetVelocityH f t v) init0 c1 c2 t x y z = setHistory3 tb f init0 c1 c2 t x y z := by
  have : centerH (resetVelocityH f t v) t = centerH f t := by
    unfold centerH resetVelocityH
    ring
  unfold setHistory2 setHistory3
  rw [this]
  exact ⟨rfl, rfl⟩

/-- The gradient of a table affine in position with a slope for each time. -/
theorem interpolate_affine {tb : Table} (w : tb.WF) {i j : ℕ} (hi : i + 1 < tb.times.length)
    (hj : j + 1 < tb.positions.length) (off sl : ℕ → ℝ)
    (haff : ∀ k l (hl : l < tb.positions.length), k < tb.times.length →
      tb.temp k l = some (off k + sl k * tb.positions[l])) (t x : ℝ) :
    ∃ p : ℝ, p = (t - tb.times[i]) / (tb.times[i + 1] - tb.times[i]) ∧
    interpolate tb t x i j = some ((1 - p) * (off i + sl i * x) + p * (off (i + 1) + sl (i + 1) * x),
      (1 - p) * sl i + p * sl (i + 1)) := by
  have hbt := w.bt
  have hbx := w.bx
  have e1 : inc i = i + 1 := inc_small (by omega)
  have e2 : inc j = j + 1 := inc_small (by omega)
  have e3 : inc (j + 1) = j + 1 + 1 := inc_small (by omega)
  have hx := getElem?_lt w.incx (Nat.lt_succ_self j) hj
  have hne : tb.positions[j + 1] - tb.positions[j] ≠ 0 := by linarith
  have hgen : ∀ (o g p q : ℝ), q - p ≠ 0 → (o + g * q - (o + g * p)) / (q - p) = g := by
    intro o g p q h; field_simp; ring
  have hval : ∀ o g : ℝ, (1 - (x - tb.positions[j]) / (tb.positions[j + 1] - tb.positions[j])) *
      (o + g * tb.positions[j]) + (x - tb.positions[j]) / (tb.positions[j + 1] - tb.positions[j]) *
      (o + g * tb.positions[j + 1]) = o + g * x := by
    intro o g; field_simp; ring
  refine ⟨_, rfl, ?_⟩
  simp only [interpolate, e1, e2, e3, List.getElem?_eq_getElem (show i < tb.times.length by omega),
    List.getElem?_eq_getElem hi, List.getElem?_eq_getElem (show j < tb.positions.length by omega),
    List.getElem?_eq_getElem hj, haff i j (by omega) (by omega), haff i (j + 1) hj (by omega),
    haff (i + 1) j (by omega) hi, haff (i + 1) (j + 1) hj hi, Option.bind_eq_bind, Option.bind_some,
    hgen _ _ _ _ hne, hval]
  split
  · rename_i h0
    have hx2 := getElem?_lt w.incx (show j - 1 < j by omega) (show j < tb.positions.length by omega)
    have hne2 : tb.positions[j] - tb.positions[j - 1] ≠ 0 := by linarith
    simp only [List.getElem?_eq_getElem (show j - 1 < tb.positions.length by omega),
      haff i (j - 1) (by omega) (by omega), haff (i + 1) (j - 1) (by omega) hi, Option.bind_some,
      hgen _ _ _ _ hne2]
    exact congrArg some (Prod.ext rfl (by ring))
  · split
    · rename_i hlt
      have hx2 := getElem?_lt w.incx (show j + 1 < j + 1 + 1 by omega) hlt.1
      have hne2 : tb.positions[j + 1 + 1] - tb.positions[j + 1] ≠ 0 := by linarith
      simp only [List.getElem?_eq_getElem hlt.1,
        haff i (j + 1 + 1) hlt.1 (by omega), haff (i + 1) (j + 1 + 1) hlt.1 hi, Option.bind_some,
        hgen _ _ _ _ hne2]
      exact congrArg some (Prod.ext rfl (by ring))
    · rfl

/-- **C128**: when the temperatures of the history are linear in position at every time, with a
slope that may vary with time, the field is that of the history at every laboratory position,
inside or outside the range of the file, however the frame has moved, as long as the centre is in
the range: linear interpolation in time between the lines of the two surrounding times. -/
theorem c128_laboratory (tb : Table) (w : tb.WF) (off sl : ℕ → ℝ)
    (haff : ∀ k l p, tb.positions[l]? = some p → k < tb.times.length →
      tb.temp k l = some (off k + sl k * p))
    (t : ℝ) (ht : TimeCovered tb t) :
    ∃ i t0 t1, Consecutive tb.times i t0 t1 ∧ t0 ≤ t ∧ t < t1 ∧
      ∀ (c0 c1 v : ℝ) (rs : List (ℝ × ℝ)), PosCovered tb (c0 + travel 0 v rs t) → ∀ X Y,
        ∃ T, setHistory2 tb (frameAfterH ⟨c0, 0, v⟩ rs) c0 c1 t (X - travel 0 v rs t) Y = some T ∧
          (t1 - t0) * T = (t1 - t) * (off i + sl i * X) + (t - t0) * (off (i + 1) + sl (i + 1) * X) := by
  have hnt := w.nt
  have hnx := w.nx
  obtain ⟨⟨ta, hta, hta'⟩, tb', htb, htb'⟩ := ht
  have h1 := first_le w.inct (by omega) hta
  obtain ⟨_, h2⟩ := le_last w.inct htb
  obtain ⟨i, hi, ei, hti⟩ := time_index w (t := t) (by linarith) (by linarith)
  refine ⟨i, _, _, ⟨List.getElem?_eq_getElem (by omega), List.getElem?_eq_getElem hi⟩, hti.1, hti.2, ?_⟩
  intro c0 c1 v rs hx X Y
  obtain ⟨⟨xa, hxa, hxa'⟩, xb, hxb, hxb'⟩ := hx
  have h3 := first_le w.incx (by omega) hxa
  obtain ⟨_, h4⟩ := le_last w.incx hxb
  obtain ⟨i', j, hi', hj, hti', hxj, e⟩ := lookup_inside w (t := t) (x := c0 + travel 0 v rs t)
    (by linarith) (by linarith) (by linarith) (by linarith)
  have hii : i' = i := by
    rcases lt_trichotomy i' i with h | h | h
    · have : tb.times[i' + 1] ≤ tb.times[i] := by
        rcases Nat.lt_or_ge (i' + 1) i with h' | h'
        · exact (getElem?_lt w.inct h' (by omega)).le
        · have : i' + 1 = i := by omega
          simp [this]
      linarith [hti.1, hti'.2]
    · exact h
    · have : tb.times[i + 1] ≤ tb.times[i'] := by
        rcases Nat.lt_or_ge (i + 1) i' with h' | h'
        · exact (getElem?_lt w.inct h' (by omega)).le
        · have : i + 1 = i' := by omega
          simp [this]
      linarith [hti.2, hti'.1]
  subst hii
  obtain ⟨p, hp, hv⟩ := interpolate_affine w hi' hj off sl
    (fun k l hl hk => haff k l _ (List.getElem?_eq_getElem hl) hk) t (c0 + travel 0 v rs t)
  rw [hv] at e
  refine ⟨_, (c128_centre tb c0 c1 v t _ Y rs _ _ e).1, ?_⟩
  have hn : tb.times[i' + 1] - tb.times[i'] ≠ 0 := by linarith [hti.1, hti.2]
  have hp' : (tb.times[i' + 1] - tb.times[i']) * p = t - tb.times[i'] := by
    rw [hp]; field_simp
  linear_combination (-(off i' + sl i' * X) + (off (i' + 1) + sl (i' + 1) * X)) * hp'

/-- **C128**: the value does not depend on the patch a cell belongs to. -/
theorem c128_patch (xlo dx : ℝ) (f1 f2 ic : ℤ) :
    cellX (xlo + dx * f1) dx f1 ic = cellX (xlo + dx * f2) dx f2 ic := by
  unfold cellX
  push_cast
  ring

/-- **C128** (violation): a restart forgets where the frame is. The history is then looked up at the
position the frame would have reached with its first velocity; this is the right position only if
the two distances agree. -/
theorem c128_violation_restart (c0 v t : ℝ) (rs : List (ℝ × ℝ)) :
    centerH ⟨c0, 0, v⟩ t = centerH (frameAfterH ⟨c0, 0, v⟩ rs) t ↔ travel 0 v rs t = v * t := by
  rw [centerH_after]
  simp only [centerH]
  constructor <;> intro h <;> linarith

/-- A reflection of the cells which reflects the values. -/
theorem average_reflect {ι : Type} (cells : Finset ι) (h : cells.Nonempty) (T : ι → ℝ) (m : ℝ)
    (σ : ι → ι) (hσ : ∀ c ∈ cells, σ c ∈ cells) (hσσ : ∀ c ∈ cells, σ (σ c) = c)
    (hT : ∀ c ∈ cells, T (σ c) = 2 * m - T c) :
    averageT cells h T = m ∧ ∑ c ∈ cells, T c = cells.card * m := by
  constructor
  · have hsum : cells.sup' h T + cells.inf' h T = 2 * m := by
      obtain ⟨a, ha, hae⟩ := Finset.exists_mem_eq_sup' h T
      have hinf : cells.inf' h T = 2 * m - T a := by
        apply le_antisymm
        · rw [← hT a ha]
          exact Finset.inf'_le T (hσ a ha)
        · rw [Finset.le_inf'_iff]
          intro c hc
          have := Finset.le_sup' T (hσ c hc)
          rw [hT c hc, hae] at this
          linarith
      rw [hinf, hae]
      ring
    unfold averageT
    rw [hsum]
    ring
  · have h2 : ∑ c ∈ cells, T c = ∑ c ∈ cells, T (σ c) :=
      (Finset.sum_nbij' σ σ hσ hσ hσσ hσσ (fun c hc => by rw [hσσ c hc])).symm.symm
    have h3 : ∑ c ∈ cells, T (σ c) = ∑ c ∈ cells, (2 * m - T c) := Finset.sum_congr rfl hT
    rw [Finset.sum_sub_distrib, Finset.sum_const, nsmul_eq_mul] at h3
    linarith

/-- **C128**: on a rectangular mesh without refinement the reported average temperature is the mean
over the cells, and it is the temperature at the middle of the mesh. -/
theorem c128_average (n0 n1 : ℕ) (h0 : 0 < n0) (h1 : 0 < n1) (T0 g0 g1 xlo ylo dx dy c0 c1 : ℝ)
    (h : (Finset.range n0 ×ˢ Finset.range n1).Nonempty) :
    let T : ℕ × ℕ → ℝ := fun c => gradT2 T0 c0 c1 g0 g1 (cellX xlo dx 0 c.1) (cellX ylo dy 0 c.2)
    averageT (Finset.range n0 ×ˢ Finset.range n1) h T =
        gradT2 T0 c0 c1 g0 g1 (xlo + dx * n0 / 2) (ylo + dy * n1 / 2) ∧
      averageT (Finset.range n0 ×ˢ Finset.range n1) h T =
        (∑ c ∈ Finset.range n0 ×ˢ Finset.range n1, T c) / (n0 * n1) := by
  intro T
  obtain ⟨ha, hs⟩ := average_reflect (Finset.range n0 ×ˢ Finset.range n1) h T
    (gradT2 T0 c0 c1 g0 g1 (xlo + dx * n0 / 2) (ylo + dy * n1 / 2))
    (fun c => (n0 - 1 - c.1, n1 - 1 - c.2))
    (fun c hc => by
      simp only [Finset.mem_product, Finset.mem_range] at hc ⊢
      omega)
    (fun c hc => by
      simp only [Finset.mem_product, Finset.mem_range] at hc
      ext <;> simp <;> omega)
    (fun c hc => by
      simp only [Finset.mem_product, Finset.mem_range] at hc
      simp only [T, gradT2, cellX]
      have e0 : ((n0 - 1 - c.1 : ℕ) : ℝ) = n0 - 1 - c.1 := by
        rw [Nat.cast_sub (by omega), Nat.cast_sub (by omega)]; simp
      have e1 : ((n1 - 1 - c.2 : ℕ) : ℝ) = n1 - 1 - c.2 := by
        rw [Nat.cast_sub (by omega), Nat.cast_sub (by omega)]; simp
      push_cast
      rw [e0, e1]
      ring)
  refine ⟨ha, ?_⟩
  rw [ha, hs, Finset.card_product, Finset.card_range, Finset.card_range]
  have : (n0 : ℝ) ≠ 0 := by exact_mod_cast h0.ne'
  have : (n1 : ℝ) ≠ 0 := by exact_mod_cast h1.ne'
  push_cast
  field_simp

/-- A file of the distributed tests, shortened: positions 70, 55, 40 and two times. -/
noncomputable def demoSheet : Sheet := ⟨[70, 55, 40], [(0, [1758, 1743, 1728]), (8, [1742, 1727, 1712])]⟩

/-- It satisfies the hypotheses of the theorems on files. -/
theorem demoSheet_good : demoSheet.Good where
  complete := by simp [Sheet.Complete, demoSheet]
  nt := by simp [demoSheet]
  nx := by simp [demoSheet]
  bt := by simp [demoSheet]
  bx := by simp [demoSheet]
  times := by simp [demoSheet]
  decreasing := by simp [demoSheet]; norm_num

example : Writes [.comment, .data [some 70, some 55, some 40], .comment,
    .data [some 0, some 1758, some 1743, some 1728], .data [some 8, some 1742, some 1727, some 1712]]
    demoSheet := rfl

/-- The temperature at time 0 and position 55 is the one of the file. -/
example (ls : List Line) (hw : Writes ls demoSheet) :
    ∃ tb g, readCSV ls = some tb ∧ getTandGradT tb 0 55 = .ok 1743 g :=
  c128_file_node ls demoSheet hw demoSheet_good 0 1 0 55 1743 rfl (by simp [demoSheet]) rfl
    (by simp [demoSheet]) rfl

/-- The file is linear in position, so that `c128_laboratory` applies. -/
example : ∀ k l p, (tableOf demoSheet).positions[l]? = some p → k < (tableOf demoSheet).times.length →
    (tableOf demoSheet).temp k l = some ((1688 - 16 * (k : ℝ)) + 1 * p) := by
  intro k l p hp hk
  have hk' : k = 0 ∨ k = 1 := by simp [tableOf, demoSheet] at hk; omega
  have hl : l < 3 := (List.getElem?_eq_some_iff.mp hp).1
  have hl' : l = 0 ∨ l = 1 ∨ l = 2 := by omega
  rcases hk' with rfl | rfl <;> rcases hl' with rfl | rfl | rfl <;>
    simp [tableOf, demoSheet] at hp <;> subst hp <;>
    simp [Table.temp, tableOf, demoSheet] <;> norm_num

end AMPE.HistoryField.Props
