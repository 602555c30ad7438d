import Verif.Model.GrainScripts
import Mathlib.Tactic.Linarith
import Mathlib.Tactic.NormNum
import Mathlib.Tactic.Positivity
import Mathlib.Tactic.FieldSimp
import Mathlib.Algebra.BigOperators.Group.List.Basic

/-!
# C160, C161: tables of grain volumes made from a log
-/

namespace AMPE.GrainScripts.Props

open AMPE.GrainScripts

/-! ## Specification -/

/-- What the program reports about its grains at one time: the volumes of the grains 0, 1, 2, .... -/
structure Report where
  t : ℝ
  vs : List ℝ

/-- Lines of the volumes of a report, grains from `k` on. -/
def volumeLines : ℕ → List ℝ → List Line
  | _, [] => []
  | k, v :: vs => .volume k v :: volumeLines (k + 1) vs

/-- Lines of a report that follows the line of its cycle. -/
def Report.lines (r : Report) : List Line := .cycle r.t :: .other :: volumeLines 0 r.vs ++ [.other]

/-- Log of a run. -/
def log (rs : List Report) : List Line := rs.flatMap Report.lines

/-- The history of grain `g`: its volume at the times at which it existed. -/
def history (rs : List Report) (g : ℕ) : List (ℝ × ℝ) := rs.filterMap fun r => (r.vs[g]?).map fun v => (r.t, v)

/-- Every `n`-th entry of a list. -/
def every {α : Type} (n : ℕ) (l : List α) : List α := ((List.range l.length).filter fun i => i % n = 0).filterMap fun i => l[i]?

/-- Reports with grains. -/
def present (rs : List Report) : List Report := rs.filter fun r => r.vs ≠ []

/-! ## Lemmas -/

theorem addAt_spec (vols : List (List ℝ)) (g : ℕ) (v : ℝ) (h : g ≤ vols.length) :
    ∃ w, addAt vols g v = some w ∧ w.length = max vols.length (g + 1) ∧
      ∀ g', w.getD g' [] = vols.getD g' [] ++ if g' = g then [v] else [] := by
  unfold addAt
  rcases Nat.lt_or_ge g vols.length with hg | hg
  · have e1 : ¬ vols.length ≤ g := by omega
    refine ⟨vols.modify g (· ++ [v]), by simp [e1, hg], by simp; omega, fun g' => ?_⟩
    rw [List.getD_eq_getElem?_getD, List.getD_eq_getElem?_getD, List.getElem?_modify]
    by_cases e : g' = g
    · subst e; simp [hg]
    · simp [e, Ne.symm e]
  · have e1 : g = vols.length := by omega
    subst e1
    refine ⟨(vols ++ [[]]).modify vols.length (· ++ [v]), by simp, by simp, fun g' => ?_⟩
    rw [List.getD_eq_getElem?_getD, List.getD_eq_getElem?_getD, List.getElem?_modify]
    by_cases e : g' = vols.length
    · subst e; simp
    · rcases Nat.lt_or_ge g' vols.length with h2 | h2
      · simp [e, Ne.symm e, List.getElem?_append_left h2]
      · have h3 : vols.length < g' := by omega
        have h4 : (vols ++ [[]])[g']? = none := by rw [List.getElem?_eq_none]; simp; omega
        have h5 : vols[g']? = none := by rw [List.getElem?_eq_none]; omega
        simp [e, Ne.symm e, h4, h5]

theorem read_volumes (vs : List ℝ) : ∀ (k : ℕ) (s : St), k ≤ s.vols.length → vs ≠ [] →
    ∃ s', (volumeLines k vs).foldlM volumesLine s = some s' ∧ s'.time = s.time ∧ s'.found = false ∧
      s'.times = (if s.found then s.times ++ [s.time] else s.times) ∧ s'.vols.length = max s.vols.length (k + vs.length) ∧
      ∀ g, s'.vols.getD g [] = s.vols.getD g [] ++ if g < k then [] else (vs[g - k]?).toList := by
  induction vs with
  | nil => intro k s _ h; exact absurd rfl h
  | cons v vs ih =>
    intro k s hk _
    obtain ⟨w, hw, hl, hc⟩ := addAt_spec s.vols k v hk
    have h1 : volumesLine s (.volume k v) = some ⟨s.time, false, if s.found then s.times ++ [s.time] else s.times, w⟩ := by
      simp [volumesLine, value, hw]
    simp only [volumeLines, List.foldlM_cons, h1, Option.bind_eq_bind, Option.bind_some]
    rcases vs with _ | ⟨v', vs⟩
    · refine ⟨_, rfl, rfl, rfl, rfl, by simp [hl], fun g => ?_⟩
      rw [hc]
      congr 1
      by_cases e : g = k
      · subst e; simp
      · rcases Nat.lt_or_ge g k with h | h
        · simp [e, h]
        · have : g - k ≠ 0 := by omega
          obtain ⟨j, hj⟩ := Nat.exists_eq_succ_of_ne_zero this
          simp [e, Nat.not_lt.2 h, hj]
    · obtain ⟨s', h2, h3, h4, h5, h6, h7⟩ := ih (k + 1) ⟨s.time, false, if s.found then s.times ++ [s.time] else s.times, w⟩ (by simp only; omega) (by simp)
      refine ⟨s', h2, h3, h4, by simpa using h5, by simp only [hl] at h6; rw [h6]; simp only [List.length_cons]; omega, fun g => ?_⟩
      rw [h7, hc, List.append_assoc]
      congr 1
      by_cases e : g = k
      · subst e; simp
      · rcases Nat.lt_or_ge g k with h | h
        · have : g < k + 1 := by omega
          simp [e, h, this]
        · have h8 : ¬ g < k + 1 := by omega
          have h9 : g - k = (g - (k + 1)) + 1 := by omega
          rw [if_neg e, if_neg h8, if_neg (by omega), h9, List.getElem?_cons_succ, List.nil_append]

theorem read_report (r : Report) (s : St) :
    ∃ s', r.lines.foldlM volumesLine s = some s' ∧ s'.times = s.times ++ (if r.vs = [] then [] else [r.t]) ∧
      s'.vols.length = max s.vols.length r.vs.length ∧ (r.vs ≠ [] → s'.found = false) ∧
      ∀ g, s'.vols.getD g [] = s.vols.getD g [] ++ (r.vs[g]?).toList := by
  by_cases h : r.vs = []
  · refine ⟨{ s with time := r.t, found := true }, by simp [Report.lines, h, volumeLines, volumesLine], by simp [h], by simp [h], fun h' => absurd h h', by simp [h]⟩
  · obtain ⟨s', h1, h2, h3, h4, h5, h6⟩ := read_volumes r.vs 0 { s with time := r.t, found := true } (Nat.zero_le _) h
    refine ⟨s', ?_, by simpa [h] using h4, by simpa using h5, fun _ => h3, by simpa using h6⟩
    simp only [Report.lines, List.cons_append, List.foldlM_cons, List.foldlM_append, volumesLine, Option.bind_eq_bind, Option.bind_some, h1]
    simp [volumesLine]

theorem read_log (rs : List Report) : ∀ s : St, ∃ s', (log rs).foldlM volumesLine s = some s' ∧
    s'.times = s.times ++ (present rs).map (·.t) ∧ s'.vols.length = rs.foldl (fun m r => max m r.vs.length) s.vols.length ∧
    ∀ g, s'.vols.getD g [] = s.vols.getD g [] ++ rs.filterMap fun r => r.vs[g]? := by
  induction rs with
  | nil => intro s; exact ⟨s, by simp [log], by simp [present], rfl, by simp⟩
  | cons r rs ih =>
    intro s
    obtain ⟨s1, h1, h2, h3, -, h5⟩ := read_report r s
    obtain ⟨s2, k1, k2, k3, k5⟩ := ih s1
    refine ⟨s2, ?_, ?_, ?_, fun g => ?_⟩
    · simp only [log, List.flatMap_cons, List.foldlM_append, h1, Option.bind_eq_bind, Option.bind_some]
      exact k1
    · rw [k2, h2]
      by_cases h : r.vs = [] <;> simp [present, h]
    · rw [k3, h3]; rfl
    · rw [k5, h5, List.append_assoc, List.filterMap_cons]
      cases r.vs[g]? <;> simp

theorem mapM_some {α β : Type} (f : α → Option β) (g : α → β) (l : List α) (h : ∀ a ∈ l, f a = some (g a)) : l.mapM f = some (l.map g) := by
  induction l with
  | nil => simp
  | cons a l ih =>
    have := ih fun b hb => h b (List.mem_cons_of_mem _ hb)
    simp [List.mapM_cons, h a (by simp), this]

theorem mapM_none {α β : Type} (f : α → Option β) (l : List α) (a : α) (ha : a ∈ l) (h : f a = none) : l.mapM f = none := by
  induction l with
  | nil => simp at ha
  | cons b l ih =>
    rw [List.mapM_cons]
    rcases List.mem_cons.1 ha with rfl | h'
    · simp [h]
    · rw [ih h']
      cases f b <;> rfl

/-- Rows when the times suffice. -/
theorem rows_zip (inc : ℕ) (hinc : inc ≠ 0) (times vol : List ℝ) (h : vol.length ≤ times.length) :
    rows inc times vol = some (every inc (times.zip vol)) := by
  unfold rows steps every
  rw [if_neg hinc, Option.bind_some]
  have hl : (times.zip vol).length = vol.length := by simp [List.length_zip]; omega
  rw [hl]
  have key : ∀ l : List ℕ, (∀ i ∈ l, i < vol.length) →
      l.mapM (fun i => (times[i]?).bind fun t => (vol[i]?).map fun v => (t, v)) = some (l.filterMap fun i => (times.zip vol)[i]?) := by
    intro l
    induction l with
    | nil => intro _; simp
    | cons i l ih =>
      intro hi
      have h1 : i < vol.length := hi i (by simp)
      have h2 : i < times.length := by omega
      have := ih fun j hj => hi j (List.mem_cons_of_mem _ hj)
      have h3 : (times.zip vol)[i]? = some (times[i], vol[i]) := by
        rw [List.getElem?_eq_getElem (by omega)]; simp
      simp [List.mapM_cons, List.getElem?_eq_getElem h1, List.getElem?_eq_getElem h2, this, h3]
  exact key _ fun i hi => by
    have := (List.mem_filter.1 hi).1
    simpa using this

theorem filterMap_present (rs : List Report) (g : ℕ) :
    (present rs).filterMap (fun r => r.vs[g]?) = rs.filterMap fun r => r.vs[g]? := by
  induction rs with
  | nil => rfl
  | cons r rs ih =>
    unfold present at ih ⊢
    by_cases h : r.vs = []
    · simpa [h] using ih
    · simp only [ne_eq, h, not_false_eq_true, decide_true, List.filter_cons_of_pos, List.filterMap_cons]
      rw [ih]

theorem history_present (rs : List Report) (g : ℕ) : history (present rs) g = history rs g := by
  induction rs with
  | nil => rfl
  | cons r rs ih =>
    unfold present history at ih ⊢
    by_cases h : r.vs = []
    · simpa [h] using ih
    · simp only [ne_eq, h, not_false_eq_true, decide_true, List.filter_cons_of_pos, List.filterMap_cons]
      rw [ih]

/-- A grain that exists at first and never comes back after it has disappeared. -/
def Never (rs : List Report) (g : ℕ) : Prop := (present rs).Pairwise fun r r' => g < r'.vs.length → g < r.vs.length

theorem zip_history (g : ℕ) : ∀ rs : List Report, (rs.Pairwise fun r r' => g < r'.vs.length → g < r.vs.length) →
    (rs.map (·.t)).zip (rs.filterMap fun r => r.vs[g]?) = history rs g := by
  intro rs
  induction rs with
  | nil => intro _; rfl
  | cons r rs ih =>
    intro h
    obtain ⟨h1, h2⟩ := List.pairwise_cons.1 h
    rcases Nat.lt_or_ge g r.vs.length with hg | hg
    · have := ih h2
      unfold history at this ⊢
      simp only [List.map_cons, List.filterMap_cons, List.getElem?_eq_getElem hg, Option.map_some, List.zip_cons_cons, this]
    · have e : ∀ r' ∈ r :: rs, r'.vs[g]? = none := by
        intro r' hr'
        rw [List.getElem?_eq_none]
        rcases List.mem_cons.1 hr' with rfl | hm
        · exact hg
        · by_contra hc
          exact absurd (h1 r' hm (by omega)) (by omega)
      have e1 : (r :: rs).filterMap (fun r => r.vs[g]?) = [] := List.filterMap_eq_nil_iff.2 e
      have e2 : history (r :: rs) g = [] := List.filterMap_eq_nil_iff.2 fun a ha => by simp [e a ha]
      rw [e1, e2, List.zip_nil_right]

/-! ## C160: evolution -/

/-- Number of grains that have to be tabulated. -/
def most (rs : List Report) : ℕ := rs.foldl (fun m r => max m r.vs.length) 0

theorem column_length (rs : List Report) (g : ℕ) : (rs.filterMap fun r => r.vs[g]?).length ≤ (present rs).length := by
  rw [← filterMap_present]
  exact List.length_filterMap_le _ _

/-- The table of any log in which each report follows the line of its cycle: it is made, with one list per grain number; the `k`-th
volume of a grain stands beside the `k`-th time at which there were any grains. -/
theorem c160_table (rs : List Report) : volumes (log rs) = some ((List.range (most rs)).map fun g =>
    every (volumesInc (present rs).length) (((present rs).map (·.t)).zip (rs.filterMap fun r => r.vs[g]?))) := by
  obtain ⟨s, h1, h2, h3, h4⟩ := read_log rs st0
  simp only [st0, List.nil_append, List.length_nil] at h2 h3 h4
  unfold volumes table
  have h1' : (log rs).foldlM volumesLine st0 = some s := h1
  rw [h1', Option.bind_some, mapM_some _ (fun vol => every (volumesInc s.times.length) (s.times.zip vol))]
  · congr 1
    apply List.ext_getElem
    · simp [h3, most]
    · intro g hg1 hg2
      have hg : g < s.vols.length := by simpa using hg1
      have := h4 g
      rw [List.getD_eq_getElem?_getD, List.getElem?_eq_getElem hg] at this
      simp only [Option.getD_some, List.getD_nil, List.nil_append] at this
      simp only [List.getElem_map, List.getElem_range, this, h2, List.length_map]
  · intro vol hv
    obtain ⟨g, hg, rfl⟩ := List.getElem_of_mem hv
    refine rows_zip _ (by unfold volumesInc; omega) _ _ ?_
    have := h4 g
    rw [List.getD_eq_getElem?_getD, List.getElem?_eq_getElem hg] at this
    simp only [Option.getD_some, List.getD_nil, List.nil_append] at this
    rw [this, h2, List.length_map]
    exact column_length rs g

/-- **C160** (partial): the list of a grain number that never comes back is the history of that number, thinned out evenly.  Missing: numbers that come
back, see below. -/
theorem c160_history_partial (rs : List Report) (h : ∀ g, Never rs g) :
    volumes (log rs) = some ((List.range (most rs)).map fun g => every (volumesInc (present rs).length) (history rs g)) := by
  rw [c160_table]
  congr 1
  refine List.map_congr_left fun g _ => ?_
  rw [← filterMap_present, zip_history g _ (h g), history_present]

/-- With fewer than 100 reports nothing is left out. -/
theorem c160_all (n : ℕ) (h : n < 100) {α : Type} (l : List α) : every (volumesInc n) l = l := by
  have e : volumesInc n = 1 := by unfold volumesInc; omega
  rw [e]
  unfold every
  have : (List.range l.length).filter (fun i => decide (i % 1 = 0)) = List.range l.length := by
    rw [List.filter_eq_self]; intro a _; simp [Nat.mod_one]
  rw [this]
  clear this
  induction l with
  | nil => rfl
  | cons a l ih => simp only [List.length_cons, List.range_succ_eq_map, List.filterMap_cons, List.getElem?_cons_zero, List.filterMap_map, Function.comp_def, List.getElem?_cons_succ, ih]

theorem mem_zip {α β : Type} : ∀ (l : List α) (m : List β) (k : ℕ) (a : α) (b : β), l[k]? = some a → m[k]? = some b → (a, b) ∈ l.zip m := by
  intro l m k a b h1 h2
  refine List.mem_iff_getElem?.2 ⟨k, ?_⟩
  simp [List.getElem?_zip_eq_some, h1, h2]

/-- **C160, violated**: a grain number that was missing in some report and is back in a later one is tabulated with the wrong time: the volume `v`
it has then stands beside an earlier time. -/
theorem c160_violation_returns (rs : List Report) (g : ℕ) (P Q : List Report) (r' : Report) (v : ℝ) (hrs : present rs = P ++ r' :: Q)
    (hn : ∃ r ∈ P, r.vs.length ≤ g) (hv : r'.vs[g]? = some v) (ht : (present rs).Pairwise fun a b => a.t < b.t) (hlen : (present rs).length < 100) :
    ∃ L pairs t', volumes (log rs) = some L ∧ L[g]? = some pairs ∧ (t', v) ∈ pairs ∧ t' < r'.t := by
  have hmost : g < most rs := by
    have hm : r' ∈ rs := by
      have : r' ∈ present rs := by rw [hrs]; simp
      exact (List.mem_filter.1 this).1
    have hg : g < r'.vs.length := by
      by_contra hc
      rw [List.getElem?_eq_none (by omega)] at hv
      exact absurd hv (by simp)
    have key : ∀ (l : List Report) (m : ℕ), m ≤ l.foldl (fun m r => max m r.vs.length) m ∧
        ∀ r ∈ l, r.vs.length ≤ l.foldl (fun m r => max m r.vs.length) m := by
      intro l
      induction l with
      | nil => intro m; exact ⟨le_rfl, by simp⟩
      | cons a l ih =>
        intro m
        obtain ⟨h1, h2⟩ := ih (max m a.vs.length)
        simp only [List.foldl_cons]
        refine ⟨by omega, fun r hr => ?_⟩
        rcases List.mem_cons.1 hr with rfl | h
        · omega
        · exact h2 r h
    have := (key rs 0).2 r' hm
    unfold most
    omega
  set col := P.filterMap fun r => r.vs[g]? with hcol
  have hk : col.length < P.length := by
    obtain ⟨r, hr, hrg⟩ := hn
    rw [hcol]
    have := List.length_filterMap_le (fun r : Report => r.vs[g]?) P
    refine lt_of_le_of_ne this fun he => ?_
    obtain ⟨A, B, rfl⟩ := List.append_of_mem hr
    have e : r.vs[g]? = none := List.getElem?_eq_none hrg
    have l1 := List.length_filterMap_le (fun r : Report => r.vs[g]?) A
    have l2 := List.length_filterMap_le (fun r : Report => r.vs[g]?) B
    simp only [List.filterMap_append, List.filterMap_cons, e, List.length_append, List.length_cons] at he
    omega
  refine ⟨_, _, (P[col.length]'hk).t, c160_table rs, by rw [List.getElem?_map, List.getElem?_range hmost]; rfl, ?_, ?_⟩
  · beta_reduce
    rw [c160_all _ hlen, ← filterMap_present, hrs]
    refine mem_zip _ _ col.length _ _ ?_ ?_
    · rw [List.getElem?_map, List.getElem?_append_left hk, List.getElem?_eq_getElem hk]; rfl
    · rw [List.filterMap_append, ← hcol, List.getElem?_append_right le_rfl, Nat.sub_self, List.filterMap_cons, hv]
      rfl
  · rw [hrs] at ht
    exact (List.pairwise_append.1 ht).2.2 _ (List.getElem_mem hk) r' (by simp)

/-- **C160, violated**: if grains are reported in a cycle whose line is not printed, the script fails. -/
theorem c160_violation_no_cycle (rs : List Report) (r : Report) (hr : r.vs ≠ []) (vs : List ℝ) (hvs : vs ≠ [])
    (hlen : (present (rs ++ [r])).length < 100) : volumes (log (rs ++ [r]) ++ .other :: volumeLines 0 vs) = none := by
  obtain ⟨s1, a1, a2, a3, a4⟩ := read_log rs st0
  obtain ⟨s, b1, b2, b3, b4, b5⟩ := read_report r s1
  obtain ⟨s', c1, c2, c3, c4, c5, c6⟩ := read_volumes vs 0 s (Nat.zero_le _) hvs
  have hl : (log (rs ++ [r]) ++ .other :: volumeLines 0 vs).foldlM volumesLine st0 = some s' := by
    have e : log (rs ++ [r]) = log rs ++ r.lines := by simp [log]
    have o : volumesLine s Line.other = some s := rfl
    rw [e, List.foldlM_append, List.foldlM_append, a1]
    simp only [Option.bind_eq_bind, Option.bind_some, b1, List.foldlM_cons, o, c1]
  have times : s'.times.length = (present (rs ++ [r])).length := by
    rw [c4, b4 hr, b2, a2]
    simp [st0, hr, present]
  have first : ∀ l : List Report, (l.filterMap fun r => r.vs[0]?).length = (present l).length := by
    intro l
    induction l with
    | nil => rfl
    | cons a l ih =>
      unfold present at ih ⊢
      rcases h : a.vs with _ | ⟨v, w⟩
      · simpa [h] using ih
      · simpa [h] using ih
  have col : (s'.vols.getD 0 []).length = (present (rs ++ [r])).length + 1 := by
    rw [c6, b5, a4]
    rcases h : r.vs with _ | ⟨v, w⟩
    · exact absurd h hr
    · rcases vs with _ | ⟨v', w'⟩
      · exact absurd rfl hvs
      · have f := first rs
        simp only [st0, List.getD_nil, List.nil_append, List.length_append, f]
        simp [present, h]
  have h0 : 0 < s'.vols.length := by
    rw [c5]
    have : 0 < vs.length := List.length_pos_iff.2 hvs
    omega
  unfold volumes table
  rw [hl, Option.bind_some]
  refine mapM_none _ _ (s'.vols[0]) (List.getElem_mem h0) ?_
  rw [List.getD_eq_getElem?_getD, List.getElem?_eq_getElem h0, Option.getD_some] at col
  have inc : volumesInc s'.times.length = 1 := by rw [times]; unfold volumesInc; omega
  unfold rows steps
  rw [inc, if_neg one_ne_zero, Option.bind_some]
  refine mapM_none _ _ s'.times.length ?_ ?_
  · rw [List.mem_filter]
    exact ⟨by rw [List.mem_range, col, times]; omega, by simp [Nat.mod_one]⟩
  · simp

/-- Lines of cycles in a log. -/
def cycles (l : List Line) : ℕ := (l.filter fun x => match x with | .cycle _ => true | _ => false).length

theorem coring_times (l : List Line) : ∀ s s' : St, l.foldlM coringLine s = some s' →
    s'.times.length + (if s'.found then 1 else 0) ≤ s.times.length + (if s.found then 1 else 0) + cycles l := by
  induction l with
  | nil => intro s s' h; simp at h; subst h; simp [cycles]
  | cons x l ih =>
    intro s s' h
    rw [List.foldlM_cons, Option.bind_eq_bind, Option.bind_eq_some_iff] at h
    obtain ⟨s1, h1, h2⟩ := h
    have := ih s1 s' h2
    cases x with
    | cycle t =>
      simp only [coringLine, Option.some.injEq] at h1
      subst h1
      simp only [cycles, List.filter_cons, if_true, List.length_cons] at this ⊢
      omega
    | deviation g c =>
      simp only [coringLine, value, Option.map_eq_some_iff] at h1
      obtain ⟨w, -, rfl⟩ := h1
      simp only [cycles, List.filter_cons] at this ⊢
      cases hf : s.found <;> simp [hf] at this ⊢ <;> omega
    | volume g v =>
      simp only [coringLine, Option.some.injEq] at h1
      subst h1
      simpa [cycles, List.filter_cons] using this
    | other =>
      simp only [coringLine, Option.some.injEq] at h1
      subst h1
      simpa [cycles, List.filter_cons] using this

theorem addAt_ne (vols : List (List ℝ)) (g : ℕ) (v : ℝ) (w : List (List ℝ)) (h : addAt vols g v = some w) : w ≠ [] := by
  unfold addAt at h
  dsimp only at h
  intro e
  subst e
  split_ifs at h with h1 h2 h2
  · have l := congrArg List.length (Option.some.inj h)
    simp at l
  · have l := congrArg List.length (Option.some.inj h)
    simp at l
    rw [l] at h2
    simp at h2

theorem coring_some (l : List Line) : ∀ s s' : St, l.foldlM coringLine s = some s' → (s.vols ≠ [] ∨ ∃ g c, Line.deviation g c ∈ l) → s'.vols ≠ [] := by
  induction l with
  | nil => intro s s' h; simp at h; subst h; simp
  | cons x l ih =>
    intro s s' h hs
    rw [List.foldlM_cons, Option.bind_eq_bind, Option.bind_eq_some_iff] at h
    obtain ⟨s1, h1, h2⟩ := h
    refine ih s1 s' h2 ?_
    cases x with
    | cycle t =>
      simp only [coringLine, Option.some.injEq] at h1
      subst h1
      simpa using hs
    | deviation g c =>
      simp only [coringLine, value, Option.map_eq_some_iff] at h1
      obtain ⟨w, hw, rfl⟩ := h1
      exact .inl (addAt_ne _ _ _ _ hw)
    | volume g v =>
      simp only [coringLine, Option.some.injEq] at h1
      subst h1
      simpa using hs
    | other =>
      simp only [coringLine, Option.some.injEq] at h1
      subst h1
      simpa using hs

/-- **C160, violated**: the script for the coring fails for every log with less than 49 cycles, whatever else it contains. -/
theorem c160_violation_coring (l : List Line) (hc : cycles l < 49) (hd : ∃ g c, Line.deviation g c ∈ l) : coring l = none := by
  unfold coring
  rcases h : l.foldlM coringLine st0 with _ | s
  · rfl
  · rw [Option.bind_some]
    have h1 := coring_times l st0 s h
    have h2 := coring_some l st0 s h (.inr hd)
    have h3 : s.times.length < 50 := by
      simp only [st0, List.length_nil, if_true] at h1
      omega
    have h4 : coringInc s.times.length = 0 := by unfold coringInc; omega
    obtain ⟨vol, hv⟩ := List.exists_mem_of_ne_nil _ h2
    unfold table
    exact mapM_none _ _ vol hv (by simp [rows, steps, h4])

/-! ## C161: distribution -/

theorem set_volumes (vs : List ℝ) : ∀ (d : Dict), (volumeLines d.vol.length vs).foldlM sizesLine d = some { d with vol := d.vol ++ vs } := by
  induction vs with
  | nil => intro d; simp [volumeLines]
  | cons v vs ih =>
    intro d
    have h1 : sizesLine d (.volume d.vol.length v) = some { d with vol := d.vol ++ [v] } := by simp [sizesLine, setAt]
    have h2 := ih { d with vol := d.vol ++ [v] }
    simp only [List.length_append, List.length_singleton, List.append_assoc, List.singleton_append] at h2
    simp only [volumeLines, List.foldlM_cons, h1, Option.bind_eq_bind, Option.bind_some, h2]

/-- What the script stores under a time. -/
def Stored (d : Dict) (t : ℝ) (vs : List ℝ) : Prop := (t, vs) ∈ d.vols ∧ ∀ w, (t, w) ∈ d.vols → w = vs

theorem assign_stored (d : Dict) (t : ℝ) (vs : List ℝ) (x : ℝ) : Stored ⟨x, [], assign d.vols t vs⟩ t vs := by
  constructor
  · simp [assign]
  · intro w hw
    simpa [assign] using hw

/-- **C161** (partial): the volumes of a report that is followed by a line other than that of a cycle are stored under the time of the report.  Missing: all
other reports, see below. -/
theorem c161_stored_partial (d : Dict) (hd : d.vol = []) (r : Report) (hr : r.vs ≠ []) :
    ∃ d', r.lines.foldlM sizesLine d = some d' ∧ d'.vol = [] ∧ Stored d' r.t r.vs ∧
      ∀ t ≠ r.t, ∀ vs, (t, vs) ∈ d'.vols ↔ (t, vs) ∈ d.vols := by
  have f1 : flush { d with time := r.t } = { d with time := r.t } := by simp [flush, hd]
  have h := set_volumes r.vs { d with time := r.t }
  simp only [hd, List.length_nil, List.nil_append] at h
  refine ⟨⟨r.t, [], assign d.vols r.t r.vs⟩, ?_, rfl, assign_stored d _ _ _, fun t ht vs => ?_⟩
  · have e1 : sizesLine d (.cycle r.t) = some { d with time := r.t } := by simp only [sizesLine, f1]
    have e2 : sizesLine { d with time := r.t } .other = some { d with time := r.t } := by simp only [sizesLine, f1]
    simp only [Report.lines, List.cons_append, List.foldlM_cons, e1, e2, Option.bind_eq_bind, Option.bind_some, List.foldlM_append]
    simp only [hd] at h ⊢
    rw [h]
    simp [sizesLine, flush, hr]
  · simp [assign, ht]

/-- **C161, violated**: the volumes of a report after which the next line is that of the following cycle are stored under the time of that cycle. -/
theorem c161_violation_next (d : Dict) (hd : d.vol = []) (r : Report) (hr : r.vs ≠ []) (t' : ℝ) (h' : t' ≠ r.t) :
    ∃ d', (Line.cycle r.t :: .other :: volumeLines 0 r.vs ++ [Line.cycle t']).foldlM sizesLine d = some d' ∧ Stored d' t' r.vs ∧
      ∀ vs, (r.t, vs) ∈ d'.vols ↔ (r.t, vs) ∈ d.vols := by
  have f1 : flush { d with time := r.t } = { d with time := r.t } := by simp [flush, hd]
  have h := set_volumes r.vs { d with time := r.t }
  simp only [hd, List.length_nil, List.nil_append] at h
  refine ⟨⟨t', [], assign d.vols t' r.vs⟩, ?_, assign_stored d _ _ _, fun vs => ?_⟩
  · have e1 : sizesLine d (.cycle r.t) = some { d with time := r.t } := by simp only [sizesLine, f1]
    have e2 : sizesLine { d with time := r.t } .other = some { d with time := r.t } := by simp only [sizesLine, f1]
    simp only [List.cons_append, List.foldlM_cons, e1, e2, Option.bind_eq_bind, Option.bind_some, List.foldlM_append]
    simp only [hd] at h ⊢
    rw [h]
    simp [sizesLine, flush, hr]
  · simp [assign, Ne.symm h']

/-- **C161, violated**: a report at the end of the log is not used. -/
theorem c161_violation_last (d : Dict) (hd : d.vol = []) (r : Report) :
    ∃ d', (Line.cycle r.t :: .other :: volumeLines 0 r.vs).foldlM sizesLine d = some d' ∧ d'.vols = d.vols := by
  have f1 : flush { d with time := r.t } = { d with time := r.t } := by simp [flush, hd]
  have h := set_volumes r.vs { d with time := r.t }
  simp only [hd, List.length_nil, List.nil_append] at h
  have e1 : sizesLine d (.cycle r.t) = some { d with time := r.t } := by simp only [sizesLine, f1]
  have e2 : sizesLine { d with time := r.t } .other = some { d with time := r.t } := by simp only [sizesLine, f1]
  refine ⟨⟨r.t, r.vs, d.vols⟩, ?_, rfl⟩
  simp only [List.foldlM_cons, e1, e2, Option.bind_eq_bind, Option.bind_some]
  simp only [hd] at h ⊢
  exact h

theorem maxV_ge (vols : List (ℝ × List ℝ)) : 0 ≤ maxV vols ∧ ∀ p ∈ vols, ∀ v ∈ p.2, v ≤ maxV vols := by
  have inner : ∀ (l : List ℝ) (m : ℝ), m ≤ l.foldl (fun m v => if v > m then v else m) m ∧
      ∀ v ∈ l, v ≤ l.foldl (fun m v => if v > m then v else m) m := by
    intro l
    induction l with
    | nil => intro m; exact ⟨le_rfl, by simp⟩
    | cons a l ih =>
      intro m
      obtain ⟨h1, h2⟩ := ih (if a > m then a else m)
      have h3 : m ≤ (if a > m then a else m) ∧ a ≤ (if a > m then a else m) := by split <;> constructor <;> linarith
      refine ⟨h3.1.trans h1, fun v hv => ?_⟩
      rcases List.mem_cons.1 hv with rfl | h
      · exact h3.2.trans h1
      · exact h2 v h
  have outer : ∀ (l : List (ℝ × List ℝ)) (m : ℝ), m ≤ l.foldl (fun m p => p.2.foldl (fun m v => if v > m then v else m) m) m ∧
      ∀ p ∈ l, ∀ v ∈ p.2, v ≤ l.foldl (fun m p => p.2.foldl (fun m v => if v > m then v else m) m) m := by
    intro l
    induction l with
    | nil => intro m; exact ⟨le_rfl, by simp⟩
    | cons a l ih =>
      intro m
      obtain ⟨h1, h2⟩ := ih (a.2.foldl (fun m v => if v > m then v else m) m)
      obtain ⟨h3, h4⟩ := inner a.2 m
      refine ⟨h3.trans h1, fun p hp v hv => ?_⟩
      rcases List.mem_cons.1 hp with rfl | h
      · exact (h4 v hv).trans h1
      · exact h2 p h v hv
  exact outer vols 0

open Classical in
/-- Number of volumes in interval `i`. -/
noncomputable def inside (h : ℝ) (vol : List ℝ) (i : ℕ) : ℕ := (vol.filter fun v => (i : ℝ) * h ≤ v ∧ v < ((i : ℝ) + 1) * h).length

theorem counts_spec (h : ℝ) (hh : 0 < h) (vol : List ℝ) (hv : ∀ v ∈ vol, 0 ≤ v ∧ v < 20 * h) :
    ∃ d, counts h vol = some d ∧ d.length = 20 ∧ (∀ i, i < 20 → d.getD i 0 = inside h vol i) ∧ d.sum = vol.length := by
  have key : ∀ (l : List ℝ) (d0 : List ℝ), (∀ v ∈ l, 0 ≤ v ∧ v < 20 * h) → d0.length = 20 → ∃ d, l.foldlM (fun dist vv =>
      let i := ⌊vv / h⌋
      let i := if i < 0 then i + 20 else i
      if 0 ≤ i ∧ i < 20 then some (dist.modify i.toNat (· + 1)) else none) d0 = some d ∧ d.length = 20 ∧
      (∀ i, i < 20 → d.getD i 0 = d0.getD i 0 + inside h l i) ∧ d.sum = d0.sum + l.length := by
    intro l
    induction l with
    | nil => intro d0 _ h0; exact ⟨d0, by simp, h0, by simp [inside], by simp⟩
    | cons v l ih =>
      intro d0 hl h0
      obtain ⟨v0, v1⟩ := hl v (by simp)
      have f0 : 0 ≤ ⌊v / h⌋ := Int.floor_nonneg.2 (by positivity)
      have f1 : ⌊v / h⌋ < 20 := by
        rw [Int.floor_lt, div_lt_iff₀ hh]; push_cast; linarith
      obtain ⟨n, hn⟩ := Int.eq_ofNat_of_zero_le f0
      have hn20 : n < 20 := by omega
      have b1 : (n : ℝ) * h ≤ v := by
        have := Int.floor_le (v / h)
        rw [hn, le_div_iff₀ hh] at this
        exact_mod_cast this
      have b2 : v < ((n : ℝ) + 1) * h := by
        have := Int.lt_floor_add_one (v / h)
        rw [hn, div_lt_iff₀ hh] at this
        exact_mod_cast this
      obtain ⟨d, e1, e2, e3, e4⟩ := ih (d0.modify n (· + 1)) (fun w hw => hl w (List.mem_cons_of_mem _ hw)) (by simp [h0])
      refine ⟨d, ?_, e2, fun i hi => ?_, ?_⟩
      · rw [List.foldlM_cons]
        simp only [hn, Int.ofNat_eq_natCast, Int.natCast_nonneg, not_lt.2 (Int.natCast_nonneg n), if_false, true_and]
        rw [if_pos (by omega), Int.toNat_natCast]
        simpa using e1
      · rw [e3 i hi]
        have m1 : (d0.modify n (· + 1)).getD i 0 = d0.getD i 0 + if i = n then 1 else 0 := by
          rw [List.getD_eq_getElem?_getD, List.getD_eq_getElem?_getD, List.getElem?_modify]
          by_cases e : i = n
          · subst e; simp [List.getElem?_eq_getElem (show i < d0.length by omega)]
          · simp [e, Ne.symm e]
        have m2 : inside h (v :: l) i = (if i = n then 1 else 0) + inside h l i := by
          unfold inside
          by_cases e : i = n
          · subst e
            rw [List.filter_cons_of_pos (by simpa using ⟨b1, b2⟩)]
            simp; omega
          · rw [List.filter_cons_of_neg, if_neg e, zero_add]
            simp only [decide_eq_true_eq, not_and, not_lt]
            intro c1
            by_contra c2
            push Not at c2
            have a1 : (i : ℝ) < (n : ℝ) + 1 := by
              by_contra hc; push Not at hc
              have := mul_le_mul_of_nonneg_right hc hh.le
              linarith
            have a2 : (n : ℝ) < (i : ℝ) + 1 := by
              by_contra hc; push Not at hc
              have := mul_le_mul_of_nonneg_right hc hh.le
              linarith
            have a3 : i < n + 1 := by exact_mod_cast a1
            have a4 : n < i + 1 := by exact_mod_cast a2
            omega
        rw [m1, m2]
        push_cast
        split <;> ring
      · rw [e4]
        have m3 : ∀ (l : List ℝ) (n : ℕ), n < l.length → (l.modify n (· + 1)).sum = l.sum + 1 := by
          intro l
          induction l with
          | nil => intro n h; simp at h
          | cons a l ih =>
            intro n h
            rcases n with _ | n
            · simp [List.modify]; ring
            · have := ih n (by simpa using h)
              simp [this]; ring
        rw [m3 d0 n (by omega), List.length_cons]
        push_cast; ring
  obtain ⟨d, h1, h2, h3, h4⟩ := key vol (List.replicate 20 0) hv (by simp)
  refine ⟨d, h1, h2, fun i hi => ?_, by simpa using h4⟩
  have e : (List.replicate 20 (0 : ℝ)).getD i 0 = 0 := by
    rw [List.getD_eq_getElem?_getD, List.getElem?_replicate, if_pos hi]; rfl
  rw [h3 i hi, e, zero_add]

/-- **C161**: what is printed for a time are the middles of 20 equal intervals, and beside each the share of the grains whose volume lies in it; the shares
add up to one. -/
theorem c161_shares (vols : List (ℝ × List ℝ)) (t : ℝ) (vol : List ℝ) (hm : (t, vol) ∈ vols) (hne : vol ≠ [])
    (hpos : ∀ v ∈ vol, 0 < v) :
    ∃ out, distribution (binWidth vols) vol = some out ∧
      out = (List.range 20).map (fun (i : ℕ) => (((i : ℝ) + 1 / 2) * binWidth vols, (inside (binWidth vols) vol i : ℝ) / vol.length)) ∧
      (out.map Prod.snd).sum = 1 := by
  obtain ⟨hm0, hmax⟩ := maxV_ge vols
  obtain ⟨v, hv⟩ := List.exists_mem_of_ne_nil vol hne
  have hM : 0 < maxV vols := lt_of_lt_of_le (hpos v hv) (hmax _ hm v hv)
  have hh : 0 < binWidth vols := by unfold binWidth; positivity
  obtain ⟨d, h1, h2, h3, h4⟩ := counts_spec (binWidth vols) hh vol fun w hw => ⟨(hpos w hw).le, by
    have := hmax _ hm w hw
    unfold binWidth
    norm_num
    linarith⟩
  have hd : (List.range 20).map (fun i => d.getD i 0) = d := by
    apply List.ext_getElem
    · simp [h2]
    · intro i hi1 hi2
      simp [List.getD_eq_getElem?_getD, List.getElem?_eq_getElem hi2]
  have hl : (vol.length : ℝ) ≠ 0 := by
    have : 0 < vol.length := List.length_pos_iff.2 hne
    positivity
  refine ⟨_, by unfold distribution; rw [h1]; rfl, ?_, ?_⟩
  · refine List.map_congr_left fun i hi => ?_
    rw [h3 i (List.mem_range.1 hi)]
    norm_num
  · rw [List.map_map]
    have e : (List.range 20).map (Prod.snd ∘ fun (i : ℕ) => (((i : ℝ) + 0.5) * binWidth vols, d.getD i 0 / (vol.length : ℝ))) =
        d.map (fun x => x * (vol.length : ℝ)⁻¹) := by
      conv_rhs => rw [← hd]
      rw [List.map_map]
      rfl
    rw [e, List.sum_map_mul_right, List.map_id', h4, mul_inv_cancel₀ hl]

/-! ## Examples -/

/-- Two grains, of which one disappears. -/
example : ∀ g, Never [⟨0, [1, 2]⟩, ⟨1, [3]⟩] g := by
  intro g
  simp [Never, present]
  omega

/-- A second grain nucleates: its volume 5 at time 1 is tabulated at time 0. -/
example : ∃ L pairs t', volumes (log [⟨0, [1]⟩, ⟨1, [2, 5]⟩]) = some L ∧ L[1]? = some pairs ∧ (t', (5 : ℝ)) ∈ pairs ∧ t' < (1 : ℝ) :=
  c160_violation_returns [⟨0, [1]⟩, ⟨1, [2, 5]⟩] 1 [⟨0, [1]⟩] [] ⟨1, [2, 5]⟩ 5 (by simp [present]) (by simp) (by simp) (by simp [present])
    (by simp [present])

end AMPE.GrainScripts.Props
