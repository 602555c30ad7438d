import Verif.Model.LinePlot
import Mathlib.Tactic.Linarith
import Mathlib.Tactic.NormNum
import Mathlib.Data.List.Basic
import Mathlib.Data.List.Nodup

/-!
# C165: profiles along a line

Specification: the plotted profile of a field consists of the points of the line through that field, all of them, in their order.
-/

namespace AMPE.LinePlot.Props

open AMPE.LinePlot

/-! ## Text -/

theorem split_ne (d : Char) (l : List Char) : split d l ≠ [] := by
  cases l with
  | nil => simp [split]
  | cons c cs =>
    simp only [split]
    split_ifs
    · simp
    · split <;> simp

theorem split_app (d : Char) (a b : List Char) (h : d ∉ a) : split d (a ++ d :: b) = a :: split d b := by
  induction a with
  | nil => simp [split]
  | cons c a ih =>
    simp only [List.mem_cons, not_or] at h
    simp only [List.cons_append, split, if_neg (Ne.symm h.1), ih h.2]

theorem split_none (d : Char) (a : List Char) (h : d ∉ a) : split d a = [a] := by
  induction a with
  | nil => rfl
  | cons c a ih =>
    simp only [List.mem_cons, not_or] at h
    simp only [split, if_neg (Ne.symm h.1), ih h.2]

/-- Numbers are written as words: no blanks, ends of line or `#`, not empty; reading gives the rounded number `g x`. -/
structure Format (fmt : ℝ → List Char) (parse : List Char → Option ℝ) (g : ℝ → ℝ) : Prop where
  nl : ∀ x, '\n' ∉ fmt x
  blank : ∀ x, ' ' ∉ fmt x
  hash : ∀ x, '#' ∉ fmt x
  some : ∀ x, fmt x ≠ []
  read : ∀ x, parse (fmt x) = Option.some (g x)

/-- The points of a curve as VisIt gives them, shifted by the start of the line and rounded. -/
noncomputable def points (g : ℝ → ℝ) (x0 : ℝ) (vals : List ℝ) : List (ℝ × ℝ) :=
  (List.range (vals.length / 2)).map fun i => (g (x0 + vals.getD (2 * i) 0), g (vals.getD (2 * i + 1) 0))

theorem takeWhile_all (p : Char → Bool) (l : List Char) (h : ∀ c ∈ l, p c = true) : l.takeWhile p = l := by
  induction l with
  | nil => rfl
  | cons a l ih => rw [List.takeWhile_cons, if_pos (h a List.mem_cons_self), ih fun c hc => h c (List.mem_cons_of_mem _ hc)]

theorem words_row {fmt parse g} (hf : Format fmt parse g) (a b : ℝ) :
    (split ' ' ((fmt a ++ "  ".toList ++ fmt b).takeWhile (· ≠ '#'))).filter (· ≠ []) = [fmt a, fmt b] := by
  have h1 : (fmt a ++ "  ".toList ++ fmt b).takeWhile (· ≠ '#') = fmt a ++ ' ' :: ([] ++ ' ' :: fmt b) := by
    rw [takeWhile_all]
    · simp
    · intro c hc
      simp only [String.reduceToList, List.mem_append, List.mem_cons, List.not_mem_nil, or_false, or_self] at hc
      rcases hc with (h | h) | h
      · have := hf.hash a; simp; rintro rfl; exact this h
      · subst h; decide
      · have := hf.hash b; simp; rintro rfl; exact this h
  rw [h1, split_app _ _ _ (hf.blank a), split_app _ _ _ (by simp), split_none _ _ (hf.blank b)]
  simp [hf.some a, hf.some b]

theorem lines_rows {fmt parse g} (hf : Format fmt parse g) (x0 : ℝ) (vals : List ℝ) (is : List ℕ) (rest : List Char) :
    split '\n' (is.flatMap (row fmt x0 vals) ++ rest) =
      is.map (fun i => fmt (x0 + vals.getD (2 * i) 0) ++ "  ".toList ++ fmt (vals.getD (2 * i + 1) 0)) ++ split '\n' rest := by
  induction is with
  | nil => simp
  | cons i is ih =>
    have := split_app '\n' (fmt (x0 + vals.getD (2 * i) 0) ++ "  ".toList ++ fmt (vals.getD (2 * i + 1) 0))
      (is.flatMap (row fmt x0 vals) ++ rest) (by simp [hf.nl])
    rw [ih] at this
    simpa [row, List.append_assoc] using this

theorem mapM_rows {fmt parse g} (hf : Format fmt parse g) (x0 : ℝ) (vals : List ℝ) (is : List ℕ) :
    (is.map fun i => [fmt (x0 + vals.getD (2 * i) 0), fmt (vals.getD (2 * i + 1) 0)]).mapM (fun w => w.mapM parse) =
      some (is.map fun i => [g (x0 + vals.getD (2 * i) 0), g (vals.getD (2 * i + 1) 0)]) := by
  induction is with
  | nil => rfl
  | cons i is ih =>
    simp only [List.map_cons, List.mapM_cons, ih]
    simp [hf.read]

/-- What is read from a file: all points but the first, whose line is the continuation of the comment. -/
theorem load_text {fmt parse g} (hf : Format fmt parse g) (name : List Char) (hn : '\n' ∉ name) (t x0 : ℝ) (vals f : List _)
    (h : text false fmt name t x0 vals = some f) :
    loadtxt parse f = some (((List.range (vals.length / 2)).drop 1).map fun i => [g (x0 + vals.getD (2 * i) 0), g (vals.getD (2 * i + 1) 0)]) := by
  simp only [text, Bool.false_eq_true, if_false, Option.some.injEq] at h
  subst h
  have hc : ∀ l : List Char, ((header fmt name t ++ l).takeWhile (· ≠ '#')) = [] := by
    intro l; simp [header]
  have hnl : '\n' ∉ header fmt name t := by simp [header, hn, hf.nl]
  have hnil : (split ' ' []).filter (· ≠ []) = [] := by simp [split]
  have hrest : split '\n' ['\n'] = [[], []] := by simp [split]
  unfold loadtxt
  rcases hr : List.range (vals.length / 2) with _ | ⟨i, is⟩
  · simp only [List.flatMap_nil, List.append_nil]
    rw [split_app _ _ _ hnl]
    have := hc []
    rw [List.append_nil] at this
    simp only [List.map_cons, this, hnil, split, List.map_nil]
    simp [split]
  · have e : header fmt name t ++ (i :: is).flatMap (row fmt x0 vals) ++ ['\n'] =
        (header fmt name t ++ (fmt (x0 + vals.getD (2 * i) 0) ++ "  ".toList ++ fmt (vals.getD (2 * i + 1) 0))) ++
          '\n' :: (is.flatMap (row fmt x0 vals) ++ ['\n']) := by
      simp [row, List.append_assoc]
    rw [e, split_app _ _ _ (by simp [hnl, hf.nl]), lines_rows hf, hrest]
    simp only [List.map_cons, hc, hnil, List.map_append, List.map_map, List.map_nil, List.takeWhile_nil, List.drop_succ_cons, List.drop_zero]
    have : (fun l => (split ' ' (List.takeWhile (fun c => decide (c ≠ '#')) l)).filter (fun w => decide (w ≠ []))) ∘
        (fun i => fmt (x0 + vals.getD (2 * i) 0) ++ "  ".toList ++ fmt (vals.getD (2 * i + 1) 0)) =
        fun i => [fmt (x0 + vals.getD (2 * i) 0), fmt (vals.getD (2 * i + 1) 0)] := by
      funext i
      exact words_row hf _ _
    rw [this]
    rw [List.filter_cons_of_neg (by simp), List.filter_append, List.filter_eq_self.2]
    · simp only [List.filter_cons, ne_eq, not_true_eq_false, decide_false, Bool.false_eq_true, if_false, List.filter_nil, List.append_nil]
      exact mapM_rows hf x0 vals is
    · intro w hw
      simp only [List.mem_map] at hw
      obtain ⟨i, -, rfl⟩ := hw
      simp

/-- **C165** (partial, violated for the first point) The plotted profile consists of the points of the line except the first one, in their order. -/
theorem c165_points_partial {fmt parse g} (hf : Format fmt parse g) (name : List Char) (hn : '\n' ∉ name) (t x0 : ℝ) (vals f : List _)
    (h : text false fmt name t x0 vals = some f) (h3 : 3 ≤ vals.length / 2) : plotted parse f = some ((points g x0 vals).drop 1) := by
  unfold plotted
  rw [load_text hf name hn t x0 vals f h]
  have hl : ((List.range (vals.length / 2)).drop 1).length = vals.length / 2 - 1 := by simp
  have hall : ∀ r ∈ ((List.range (vals.length / 2)).drop 1).map (fun i => [g (x0 + vals.getD (2 * i) 0), g (vals.getD (2 * i + 1) 0)]),
      r.length = 2 := by
    intro r hr
    simp only [List.mem_map] at hr
    obtain ⟨i, -, rfl⟩ := hr
    rfl
  dsimp only
  rw [if_pos]
  · simp only [points, ← List.map_drop, List.map_map]
    rfl
  · refine ⟨by rw [List.length_map, hl]; omega, fun r hr => ?_⟩
    rw [hall r hr]
    refine ⟨?_, le_refl 2⟩
    have hpos : 0 < (((List.range (vals.length / 2)).drop 1).map (fun i => [g (x0 + vals.getD (2 * i) 0), g (vals.getD (2 * i + 1) 0)])).length := by
      rw [List.length_map, hl]; omega
    rw [List.getD_eq_getElem?_getD, List.getElem?_eq_getElem hpos]
    exact (hall _ (List.getElem_mem hpos)).symm

/-- **C165** (violation) The plotted profile is never that of the line: its first point is missing. -/
theorem c165_violation_first {fmt parse g} (hf : Format fmt parse g) (name : List Char) (hn : '\n' ∉ name) (t x0 : ℝ) (vals f : List _)
    (h : text false fmt name t x0 vals = some f) : plotted parse f ≠ some (points g x0 vals) := by
  unfold plotted
  rw [load_text hf name hn t x0 vals f h]
  dsimp only
  split_ifs with hc
  · intro he
    have h2 := hc.1
    have := congrArg List.length (Option.some.inj he)
    simp only [List.length_map, List.length_drop, List.length_range, points] at this h2
    omega
  · simp

/-- **C165** (violation) A line with at most two points cannot be plotted. -/
theorem c165_violation_short {fmt parse g} (hf : Format fmt parse g) (name : List Char) (hn : '\n' ∉ name) (t x0 : ℝ) (vals f : List _)
    (h : text false fmt name t x0 vals = some f) (h2 : vals.length / 2 ≤ 2) : plotted parse f = none := by
  unfold plotted
  rw [load_text hf name hn t x0 vals f h]
  dsimp only
  rw [if_neg]
  intro hc
  have := hc.1
  simp only [List.length_map, List.length_drop, List.length_range] at this
  omega

/-- **C165** (violation) With Python 3 no file is written. -/
theorem c165_violation_python3 (fmt : ℝ → List Char) (name : List Char) (t x0 : ℝ) (vals : List ℝ) : text true fmt name t x0 vals = none := rfl

/-! ## Which curve goes to which file -/

theorem erase_all (l r : List String) (hl : l.Nodup) : r.foldl List.erase l = l.filter fun v => decide (v ∉ r) := by
  induction r generalizing l with
  | nil => simp
  | cons a r ih =>
    simp only [List.foldl_cons]
    rw [ih _ (hl.erase a), hl.erase_eq_filter, List.filter_filter]
    congr 1
    funext v
    by_cases h1 : v = a <;> by_cases h2 : v ∈ r <;> simp [h1, h2]

theorem keep_eq (has : String → Bool) (l : List String) (hl : l.Nodup) : keep has l = l.filter has := by
  unfold keep
  rw [erase_all _ _ hl]
  refine List.filter_congr fun v hv => ?_
  by_cases h : has v = true <;> simp [h, hv]

theorem nodup_draw (has : ℕ → String → Bool) (k : ℕ) : (draw has k).1.Nodup := by
  induction k with
  | zero => simp [draw, allVars]
  | succ k ih =>
    simp only [draw]
    rw [keep_eq _ _ ih]
    exact ih.filter _

/-- Fields kept: those of every dump. -/
theorem kept (has : ℕ → String → Bool) (k : ℕ) : (draw has k).1 = allVars.filter fun v => decide (∀ i < k, has i v = true) := by
  induction k with
  | zero => simp [draw]
  | succ k ih =>
    simp only [draw]
    rw [keep_eq _ _ (nodup_draw has k), ih, List.filter_filter]
    refine List.filter_congr fun v _ => ?_
    rw [Bool.eq_iff_iff]
    simp only [Bool.and_eq_true, decide_eq_true_eq]
    constructor
    · rintro ⟨h1, h2⟩ i hi
      rcases Nat.lt_succ_iff_lt_or_eq.1 hi with h | rfl
      · exact h2 i h
      · exact h1
    · exact fun h => ⟨h k (Nat.lt_succ_self k), fun i hi => h i (Nat.lt_succ_of_lt hi)⟩

/-- Fields that a dump has, in the order asked for. -/
def fieldsOf (has : ℕ → String → Bool) (k : ℕ) : List String := allVars.filter (has k)

theorem draw_same (has : ℕ → String → Bool) (hs : ∀ k, ∀ v ∈ allVars, has 0 v = true → has k v = true) (k : ℕ) :
    draw has (k + 1) = (fieldsOf has 0, (List.range (k + 1)).flatMap fun i => (fieldsOf has 0).map fun v => (i, v)) := by
  induction k with
  | zero =>
    have h1 : (draw has 1).1 = fieldsOf has 0 := by
      rw [kept]; refine List.filter_congr fun v _ => ?_
      simp
    refine Prod.ext h1 ?_
    simp [draw, fieldsOf]
  | succ k ih =>
    have hk : (fieldsOf has 0).filter (has (k + 1)) = fieldsOf has 0 := by
      rw [List.filter_eq_self]
      intro v hv
      simp only [fieldsOf, List.mem_filter] at hv
      exact hs _ v hv.1 hv.2
    have hnd : (fieldsOf has 0).Nodup := by
      unfold fieldsOf
      exact List.Nodup.filter _ (by simp [allVars])
    rw [draw, ih]
    simp only [keep_eq _ _ hnd, hk]
    rw [List.range_succ (n := k + 1)]
    simp [List.flatMap_append]

theorem flat_get (l : List String) (F k j : ℕ) (hk : k < F) (hj : j < l.length) :
    ((List.range F).flatMap fun i => l.map fun v => (i, v))[k * l.length + j]? = some (k, l[j]) := by
  induction F with
  | zero => omega
  | succ F ih =>
    have hlen : ((List.range F).flatMap fun i => l.map fun v => (i, v)).length = F * l.length := by
      clear ih hk
      induction F with
      | zero => simp
      | succ F ih => rw [List.range_succ, List.flatMap_append, List.length_append, ih]; simp [Nat.succ_mul]
    rw [List.range_succ, List.flatMap_append]
    rcases Nat.lt_succ_iff_lt_or_eq.1 hk with h | rfl
    · have hlt : k * l.length + j < F * l.length := by
        have := Nat.mul_le_mul_right l.length (Nat.succ_le_of_lt h)
        rw [Nat.succ_mul] at this
        omega
      rw [List.getElem?_append_left (by rw [hlen]; exact hlt)]
      exact ih h
    · rw [List.getElem?_append_right (by rw [hlen]; omega), hlen, Nat.add_sub_cancel_left]
      simp [hj]

/-- **C165** (partial: every dump has the fields of the first) Each file gets the curve of its field and dump. -/
theorem c165_labels_partial (has : ℕ → String → Bool) (hs : ∀ k, ∀ v ∈ allVars, has 0 v = true → has k v = true) (F k j : ℕ) (hk : k < F)
    (hj : j < (fieldsOf has 0).length) : curveFor has F k j = some ((fieldsOf has 0)[j], k, (fieldsOf has 0)[j]) := by
  obtain ⟨F, rfl⟩ := Nat.exists_eq_add_of_lt hk
  have hF : k + F + 1 = (k + F) + 1 := rfl
  unfold curveFor
  rw [hF, draw_same has hs]
  dsimp only
  rw [flat_get _ _ _ _ (by omega) hj, List.getElem?_eq_getElem hj]

theorem first_curves (has : ℕ → String → Bool) (F : ℕ) : (fieldsOf has 0).map (fun v => (0, v)) <+: (draw has (F + 1)).2 := by
  induction F with
  | zero => simp [draw, fieldsOf]
  | succ F ih =>
    rw [draw]
    exact ih.trans (List.prefix_append _ _)

/-- **C165** (violation) If a later dump lacks a field that the first one has, the file of the second dump's first field contains a curve of the
first dump. -/
theorem c165_violation_labels (has : ℕ → String → Bool) (F : ℕ) (v : String) (hv : v ∈ allVars) (h0 : has 0 v = true) (i : ℕ) (hi : i ≤ F)
    (hm : has i v = false) (hpos : (draw has (F + 1)).1 ≠ []) : ∃ w label, curveFor has (F + 1) 1 0 = some (label, 0, w) := by
  have hlt : (draw has (F + 1)).1.length < (fieldsOf has 0).length := by
    have hsub : (draw has (F + 1)).1 = (fieldsOf has 0).filter fun v => decide (∀ i < F + 1, has i v = true) := by
      rw [kept, fieldsOf, List.filter_filter]
      refine List.filter_congr fun w _ => ?_
      rw [Bool.eq_iff_iff]
      simp only [Bool.and_eq_true, decide_eq_true_eq]
      exact ⟨fun h => ⟨h, h 0 (by omega)⟩, fun h => h.1⟩
    rw [hsub]
    refine lt_of_le_of_ne (List.length_filter_le _ _) fun he => ?_
    have := List.length_filter_eq_length_iff.1 he v (by simp [fieldsOf, hv, h0])
    simp only [decide_eq_true_eq] at this
    rw [this i (by omega)] at hm
    cases hm
  have hp := first_curves has F
  have hget : (draw has (F + 1)).2[(draw has (F + 1)).1.length]? = some (0, (fieldsOf has 0)[(draw has (F + 1)).1.length]) := by
    obtain ⟨r, hr⟩ := hp
    rw [← hr, List.getElem?_append_left (by simpa using hlt)]
    simp [hlt]
  have h1 : 0 < (draw has (F + 1)).1.length := List.length_pos_iff.2 hpos
  unfold curveFor
  dsimp only
  rw [one_mul, add_zero, hget, List.getElem?_eq_getElem h1]
  exact ⟨_, _, rfl⟩

/-! ## Instances -/

/-- A phase and a composition in every dump. -/
def exHas (_ : ℕ) (v : String) : Bool := v = "phase0" || v = "concentration0"

example : curveFor exHas 3 2 1 = some ("concentration0", 2, "concentration0") :=
  c165_labels_partial exHas (fun _ _ _ h => h) 3 2 1 (by norm_num) (by decide)

/-- The composition is missing in the second dump: the file "phase0" of the second dump is the composition of the first. -/
example : curveFor (fun k v => exHas k v && !(k = 1 && v = "concentration0")) 2 1 0 = some ("phase0", 0, "concentration0") := by decide

example : ∃ w label, curveFor (fun k v => exHas k v && !(k = 1 && v = "concentration0")) 2 1 0 = some (label, 0, w) :=
  c165_violation_labels _ 1 "concentration0" (by decide) (by decide) 1 le_rfl (by decide) (by decide)

open Classical in
/-- Numbers written as `1` or `0`. -/
noncomputable def exFmt (x : ℝ) : List Char := if x = 1 then ['1'] else ['0']

noncomputable def exParse (w : List Char) : Option ℝ := if w = ['1'] then some 1 else if w = ['0'] then some 0 else none

open Classical in
theorem exFormat : Format exFmt exParse fun x => if x = 1 then 1 else 0 where
  nl x := by unfold exFmt; split_ifs <;> decide
  blank x := by unfold exFmt; split_ifs <;> decide
  hash x := by unfold exFmt; split_ifs <;> decide
  some x := by unfold exFmt; split_ifs <;> decide
  read x := by unfold exFmt exParse; split_ifs <;> simp_all

/-- Three points (0,1), (1,0), (0,0): the first is lost. -/
example : ∃ f, text false exFmt "q0".toList 0 0 [0, 1, 1, 0, 0, 0] = some f ∧ plotted exParse f = some [(1, 0), (0, 0)] := by
  refine ⟨_, rfl, ?_⟩
  rw [c165_points_partial exFormat "q0".toList (by decide) 0 0 [0, 1, 1, 0, 0, 0] _ rfl (by norm_num)]
  simp [points, List.range_succ]

end AMPE.LinePlot.Props
