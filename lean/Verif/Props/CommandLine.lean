import Verif.Model.CommandLine
import Mathlib.Data.Nat.Digits.Defs
import Mathlib.Tactic.Linarith

/-!
# C147: what a command line starts and where the run writes
-/

namespace AMPE.CommandLine.Props

open AMPE.CommandLine

/-! ## Specification -/

/-- The name of a file: a directory (empty or ending with a slash), a stem, and an extension (empty or starting with the last dot). -/
structure IsPath (dir stem ext file : Str) : Prop where
  whole : file = dir ++ (stem ++ ext)
  dir : dir = [] ∨ ∃ d, dir = d ++ ['/']
  flat : '/' ∉ stem ++ ext
  ext : (ext = [] ∧ '.' ∉ stem) ∨ ∃ e, ext = '.' :: e ∧ '.' ∉ e

/-- The decimal numeral of a natural number. -/
def numeral (n : ℕ) : Str := if n = 0 then ['0'] else ((Nat.digits 10 n).reverse).map fun d => Char.ofNat (48 + d)

/-! ## The last occurrence -/

theorem lastOf_none {c : Char} {s : Str} (h : c ∉ s) : lastOf c s = npos := by
  induction s with
  | nil => rfl
  | cons x s ih =>
    simp only [List.mem_cons, not_or] at h
    simp [lastOf, ih h.2, Ne.symm h.1]

theorem lastOf_app {c : Char} {s e : Str} (h : c ∉ e) (hl : s.length < npos) : lastOf c (s ++ c :: e) = s.length := by
  induction s with
  | nil => simp [lastOf, lastOf_none h]
  | cons x s ih =>
    simp only [List.length_cons] at hl
    have := ih (by omega)
    simp only [List.cons_append, lastOf, this, List.length_cons]
    rw [if_neg (by omega)]

theorem lastOf_le {c : Char} (s : Str) (hl : s.length < npos) : lastOf c s = npos ∨ lastOf c s < s.length := by
  induction s with
  | nil => left; rfl
  | cons x s ih =>
    simp only [List.length_cons] at hl ⊢
    simp only [lastOf]
    rcases ih (by omega) with h | h
    · rw [if_pos h]
      split_ifs
      · right; omega
      · left; rfl
    · rw [if_neg (by omega)]; right; omega

theorem lastOf_left {c : Char} {s e : Str} (h : c ∉ e) (hl : (s ++ e).length < npos) : lastOf c (s ++ e) = lastOf c s := by
  induction s with
  | nil => simp [lastOf_none h, lastOf]
  | cons x s ih =>
    simp only [List.cons_append, List.length_cons] at hl
    simp only [List.cons_append, lastOf, ih (by omega)]

theorem take_far {s : Str} {n : ℕ} (h : s.length ≤ n) : s.take n = s := List.take_of_length_le h

/-- The name of the run in terms of the three parts. -/
theorem name_of {dir stem ext file : Str} (h : IsPath dir stem ext file) (hl : file.length < 2 ^ 63) (hd : dir ≠ ['/']) : nameFromFile file = stem := by
  obtain ⟨hw, hdir, hflat, hext⟩ := h
  have hn : npos = 2 ^ 64 - 1 := rfl
  have hlen : file.length = dir.length + (stem.length + ext.length) := by rw [hw]; simp
  -- where the name starts
  have ha : (let a := lastOf '/' file; let a := if a = npos then 0 else a; if 0 < a then a + 1 else a) = dir.length := by
    rcases hdir with rfl | ⟨d, rfl⟩
    · rw [List.nil_append] at hw
      rw [hw, lastOf_none hflat]; simp
    · have e : file = d ++ '/' :: (stem ++ ext) := by rw [hw]; simp
      simp only [List.length_append, List.length_cons, List.length_nil] at hlen
      have : lastOf '/' file = d.length := by rw [e]; exact lastOf_app hflat (by omega)
      simp only [this, List.length_append, List.length_cons, List.length_nil]
      have hne : ¬ d.length = npos := by omega
      simp only [if_neg hne]
      rcases Nat.eq_zero_or_pos d.length with hz | hz
      · rw [List.length_eq_zero_iff] at hz; subst hz; exact absurd rfl hd
      · rw [if_pos hz]
  have hdrop : file.drop dir.length = stem ++ ext := by rw [hw]; simp
  unfold nameFromFile
  simp only [] at ha ⊢
  rw [ha]
  unfold substr
  rw [hdrop]
  rcases hext with ⟨rfl, hdot⟩ | ⟨e, rfl, hdot⟩
  · rw [List.append_nil]
    apply take_far
    have hb : lastOf '.' file = lastOf '.' dir := by
      rw [hw, List.append_nil]; exact lastOf_left hdot (by rw [List.length_append]; simp at hlen; omega)
    simp only [List.length_nil, add_zero] at hlen
    rcases lastOf_le (c := '.') dir (by omega) with h | h
    · rw [hb, h]
      have : (npos + 2 ^ 64 - dir.length) % 2 ^ 64 = npos - dir.length := by
        rw [show npos + 2 ^ 64 - dir.length = (npos - dir.length) + 2 ^ 64 by omega, Nat.add_mod_right, Nat.mod_eq_of_lt (by omega)]
      rw [this]; omega
    · rw [hb, Nat.mod_eq_of_lt (by omega)]; omega
  · have hb : lastOf '.' file = dir.length + stem.length := by
      have : file = (dir ++ stem) ++ '.' :: e := by rw [hw]; simp
      rw [this, lastOf_app hdot (by rw [List.length_append]; omega), List.length_append]
    have : (lastOf '.' file + 2 ^ 64 - dir.length) % 2 ^ 64 = stem.length := by
      rw [hb, show dir.length + stem.length + 2 ^ 64 - dir.length = stem.length + 2 ^ 64 by omega, Nat.add_mod_right, Nat.mod_eq_of_lt (by omega)]
    rw [this]; simp

/-- **C147** (names, files not in the root directory): without entries in the input file, the log, the restart files and the plots of a run are in
the current directory, named after the input file without its directory and extension. -/
theorem c147_names_partial {dir stem ext file : Str} (h : IsPath dir stem ext file) (hl : file.length < 2 ^ 63) (hd : dir ≠ ['/']) (db : Db)
    (h1 : db.runName = none) (h2 : db.logFile = none) (h3 : db.restartDir = none) (h4 : db.visitDir = none) :
    names db file = ⟨stem ++ ".log".toList, "r.".toList ++ stem, "v.".toList ++ stem⟩ := by
  simp [names, runName, h1, h2, h3, h4, name_of h hl hd]

/-- **C147** (names given): the entries of the input file have precedence, and `run_name` over the name of the file. -/
theorem c147_names_given (db : Db) (file : Str) :
    (∀ s, db.logFile = some s → (names db file).log = s) ∧ (∀ s, db.restartDir = some s → (names db file).restart = s) ∧
    (∀ s, db.visitDir = some s → (names db file).visit = s) ∧
    ∀ r, db.runName = some r → (db.logFile = none → (names db file).log = r ++ ".log".toList) ∧
      (db.restartDir = none → (names db file).restart = "r.".toList ++ r) ∧ (db.visitDir = none → (names db file).visit = "v.".toList ++ r) := by
  refine ⟨fun s h => by simp [names, h], fun s h => by simp [names, h], fun s h => by simp [names, h], fun r h => ⟨fun h' => ?_, fun h' => ?_, fun h' => ?_⟩⟩ <;>
    simp [names, runName, h, h']

/-- **C147** (violation, root): for an input file in the root directory the slash is part of the name: the log is written in the root directory, and the
restart files and plots in the directories `r.` and `v.`. -/
theorem c147_violation_root {stem ext : Str} (h : IsPath ['/'] stem ext ('/' :: (stem ++ ext))) (hl : ('/' :: (stem ++ ext)).length < 2 ^ 63) (db : Db)
    (h1 : db.runName = none) (h2 : db.logFile = none) (h3 : db.restartDir = none) (h4 : db.visitDir = none) :
    names db ('/' :: (stem ++ ext)) = ⟨'/' :: stem ++ ".log".toList, "r./".toList ++ stem, "v./".toList ++ stem⟩ := by
  obtain ⟨-, -, hflat, hext⟩ := h
  have hn : npos = 2 ^ 64 - 1 := rfl
  simp only [List.length_cons, List.length_append] at hl
  have key : nameFromFile ('/' :: (stem ++ ext)) = '/' :: stem := by
    have ha : lastOf '/' ('/' :: (stem ++ ext)) = 0 := lastOf_app (s := []) hflat (by norm_num [npos])
    unfold nameFromFile
    have hz : ¬ (0 = npos) := by unfold npos; norm_num
    simp only [ha, substr, if_neg hz, lt_irrefl, if_false, List.drop_zero]
    rcases hext with ⟨rfl, hdot⟩ | ⟨e, rfl, hdot⟩
    · rw [List.append_nil, lastOf_none (by simp [hdot])]
      apply take_far
      simp only [List.length_cons, List.length_nil] at hl ⊢
      norm_num [npos]; omega
    · have : '/' :: (stem ++ '.' :: e) = ('/' :: stem) ++ '.' :: e := rfl
      rw [this, lastOf_app hdot (by simp only [List.length_cons] at hl ⊢; omega)]
      rw [Nat.sub_zero, Nat.add_mod_right, Nat.mod_eq_of_lt (by simp only [List.length_cons] at hl ⊢; omega), List.take_left]
  simp [names, runName, h1, h2, h3, h4, key]

/-- **C147** (violation, shared names): input files with the same stem, in whatever directories and with whatever extensions, write to the same places. -/
theorem c147_violation_shared {dir dir' stem ext ext' file file' : Str} (h : IsPath dir stem ext file) (h' : IsPath dir' stem ext' file')
    (hl : file.length < 2 ^ 63) (hl' : file'.length < 2 ^ 63) (hd : dir ≠ ['/']) (hd' : dir' ≠ ['/']) (db : Db) : names db file = names db file' := by
  simp [names, runName, name_of h hl hd, name_of h' hl' hd']

/-! ## The command line -/

theorem digitsValue_digits (l : List ℕ) (hl : ∀ d ∈ l, d < 10) (v : ℕ) :
    digitsValue v (l.reverse.map fun d => Char.ofNat (48 + d)) = v * 10 ^ l.length + Nat.ofDigits 10 l := by
  have dig : ∀ d < 10, (Char.ofNat (48 + d)).isDigit = true ∧ (Char.ofNat (48 + d)).toNat - 48 = d := by decide
  have app : ∀ (s : Str) (v d : ℕ), d < 10 → (∀ c ∈ s, Char.isDigit c = true) →
      digitsValue v (s ++ [Char.ofNat (48 + d)]) = 10 * digitsValue v s + d := by
    intro s
    induction s with
    | nil => intro v d hd _; simp [digitsValue, (dig d hd).1, (dig d hd).2]
    | cons c s ih =>
      intro v d hd hs
      have hc := hs c (by simp)
      simp only [List.cons_append, digitsValue, hc, if_true]
      exact ih _ d hd fun x hx => hs x (by simp [hx])
  induction l with
  | nil => simp [digitsValue]
  | cons d l ih =>
    have hd := hl d (by simp)
    have hl' : ∀ e ∈ l, e < 10 := fun e he => hl e (by simp [he])
    simp only [List.reverse_cons, List.map_append, List.map_cons, List.map_nil]
    rw [app _ _ _ hd (by
      intro c hc
      simp only [List.mem_map, List.mem_reverse] at hc
      obtain ⟨e, he, rfl⟩ := hc
      exact (dig e (hl' e he)).1), ih hl', Nat.ofDigits_cons, List.length_cons]
    ring

theorem digitsValue_numeral (n : ℕ) : digitsValue 0 (numeral n) = n := by
  unfold numeral
  split_ifs with h
  · subst h; decide
  · rw [digitsValue_digits _ (fun d hd => Nat.digits_lt_base (by norm_num) hd), Nat.ofDigits_digits]; simp

theorem numeral_head (n : ℕ) : ∃ c s, numeral n = c :: s ∧ c.isDigit = true := by
  unfold numeral
  split_ifs with h
  · exact ⟨'0', [], rfl, by decide⟩
  · have dig : ∀ d < 10, (Char.ofNat (48 + d)).isDigit = true := by decide
    have hne : (Nat.digits 10 n).reverse ≠ [] := by simpa [Nat.digits_eq_nil_iff_eq_zero] using h
    obtain ⟨d, l, hdl⟩ := List.exists_cons_of_ne_nil hne
    refine ⟨Char.ofNat (48 + d), l.map fun d => Char.ofNat (48 + d), by rw [hdl]; rfl, dig d ?_⟩
    have : d ∈ Nat.digits 10 n := by rw [← List.mem_reverse, hdl]; simp
    exact Nat.digits_lt_base (by norm_num) this

theorem digit_not {c : Char} (h : c.isDigit = true) : isSpace c = false ∧ c ≠ '-' ∧ c ≠ '+' := by
  simp only [Char.isDigit, Bool.and_eq_true, decide_eq_true_eq] at h
  have h1 : 48 ≤ c.toNat := h.1
  refine ⟨?_, ?_, ?_⟩
  · simp only [isSpace, Bool.or_eq_false_iff, Bool.and_eq_false_iff, decide_eq_false_iff_not]
    refine ⟨fun e => ?_, Or.inr (by omega)⟩
    subst e; revert h1; decide
  · rintro rfl; revert h1; decide
  · rintro rfl; revert h1; decide

theorem atoi_numeral (n : ℕ) (hn : n < 2 ^ 31) : atoi (numeral n) = some (n : ℤ) := by
  obtain ⟨c, s, hs, hc⟩ := numeral_head n
  have hv := digitsValue_numeral n
  obtain ⟨h1, h2, h3⟩ := digit_not hc
  have hcast : (n : ℤ) < 2 ^ 31 := by exact_mod_cast hn
  unfold atoi
  rw [hs] at hv ⊢
  simp only [List.dropWhile_cons, h1]
  have key : signed (c :: s) = (n : ℤ) := by
    unfold signed
    split
    · rename_i e; injection e with e _; exact absurd e h2
    · rename_i e; injection e with e _; exact absurd e h3
    · rw [hv]
  simp only [Bool.false_eq_true, if_false]
  rw [key, if_pos ⟨by have : (0:ℤ) ≤ n := Int.natCast_nonneg n; linarith, hcast⟩]

/-- **C147** (start, one argument): a run with only an input file starts afresh. -/
theorem c147_fresh (prog file : Str) : main [prog, file] = some (.run (.fresh file)) := rfl

/-- **C147** (start, restart, numbers): with a directory and the numeral of a natural number, the run restarts from that dump. -/
theorem c147_restart_partial (prog file dir : Str) (n : ℕ) (hn : n < 2 ^ 31) :
    main [prog, file, dir, numeral n] = some (.run (.restart file dir n)) := by
  simp [main, atoi_numeral n hn, start]

/-- **C147** (start, restart): blanks in front of the number (space, tab, line feed, vertical tab, form feed, carriage return) do not matter. -/
theorem c147_blanks (prog file dir : Str) (b s : Str) (hb : ∀ c ∈ b, c ∈ [' ', '\t', '\n', Char.ofNat 11, Char.ofNat 12, '\r']) :
    main [prog, file, dir, b ++ s] = main [prog, file, dir, s] := by
  have hsp : ∀ c ∈ [' ', '\t', '\n', Char.ofNat 11, Char.ofNat 12, '\r'], isSpace c = true := by decide
  have : atoi (b ++ s) = atoi s := by
    unfold atoi
    rw [List.dropWhile_append_of_pos fun c hc => hsp c (hb c hc)]
  simp [main, this]

/-- **C147** (violation, negative number): with a negative number the directory is ignored and the run silently starts afresh. -/
theorem c147_violation_negative (prog file dir : Str) (n : ℕ) (h0 : 0 < n) (hn : n ≤ 2 ^ 31) :
    main [prog, file, dir, '-' :: numeral n] = some (.run (.fresh file)) := by
  have hcast : (n : ℤ) ≤ 2 ^ 31 := by exact_mod_cast hn
  have hpos : (0:ℤ) < n := by exact_mod_cast h0
  have : atoi ('-' :: numeral n) = some (-(n : ℤ)) := by
    have hsp : isSpace '-' = false := by decide
    simp only [atoi, List.dropWhile_cons, hsp, Bool.false_eq_true, if_false, signed, digitsValue_numeral]
    rw [if_pos ⟨by linarith, by linarith⟩]
  simp only [main, List.length_cons, List.length_nil, List.getD_cons_succ, List.getD_cons_zero, this, Option.map_some, start]
  rw [if_neg (by norm_num), if_pos (by norm_num), if_neg (by omega)]

/-- **C147** (violation, not a number): a third argument that starts with neither space, sign nor digit (also the empty one) is taken for dump number zero. -/
theorem c147_violation_text (prog file dir : Str) (s : Str) (hs : ∀ c t, s = c :: t → isSpace c = false ∧ c ≠ '-' ∧ c ≠ '+' ∧ c.isDigit = false) :
    main [prog, file, dir, s] = some (.run (.restart file dir 0)) := by
  have : atoi s = some 0 := by
    cases s with
    | nil => rfl
    | cons c t =>
      obtain ⟨h1, h2, h3, h4⟩ := hs c t rfl
      unfold atoi
      simp only [List.dropWhile_cons, h1, Bool.false_eq_true, if_false]
      have key : signed (c :: t) = 0 := by
        unfold signed
        split
        · rename_i e; injection e with e _; exact absurd e h2
        · rename_i e; injection e with e _; exact absurd e h3
        · simp [digitsValue, h4]
      rw [key]; norm_num
  simp [main, this, start]

/-- **C147** (violation, wrong number of arguments): the text of usage is printed, and then a pointer that was never set is deleted. -/
theorem c147_violation_usage (argv : List Str) : main argv = some .usageThenUndefined ↔ argv.length ≠ 2 ∧ argv.length ≠ 4 := by
  unfold main
  by_cases h : argv.length ≠ 2 ∧ argv.length ≠ 4
  · simp [h]
  · rw [if_neg h]
    simp only [h, iff_false]
    split_ifs <;> simp

/-- **C147** (model): the length of the orientation is 4 by default and for `Quat`, in two dimensions 1 for `KWC` and 2 for `KWCcomplex`; every other
value stops the run. -/
theorem c147_model (ndim : ℕ) (db : Db) (n : ℕ) : modelLength ndim db = some n ↔
    (n = 4 ∧ (db.modelType = none ∨ db.modelType = some "Quat".toList)) ∨
    (ndim = 2 ∧ n = 1 ∧ db.modelType = some "KWC".toList) ∨ (ndim = 2 ∧ n = 2 ∧ db.modelType = some "KWCcomplex".toList) := by
  have q1 : "KWC".toList ≠ "Quat".toList := by decide
  have q2 : "KWCcomplex".toList ≠ "Quat".toList := by decide
  have q3 : "KWCcomplex".toList ≠ "KWC".toList := by decide
  unfold modelLength
  generalize "Quat".toList = Q at *
  generalize "KWC".toList = K at *
  generalize "KWCcomplex".toList = C at *
  have e : ∀ k : ℕ, (some k = some n) ↔ n = k := fun k => by rw [Option.some.injEq]; exact ⟨Eq.symm, Eq.symm⟩
  rcases hm : db.modelType with _ | t
  · simp [e]
  · simp only [Option.getD_some, Option.some.injEq, reduceCtorEq, false_or]
    by_cases h1 : t = Q
    · subst h1
      rw [if_pos rfl, e]
      simp [q1.symm, q2.symm]
    · rw [if_neg h1]
      by_cases hd : ndim = 2
      · rw [if_pos hd]
        by_cases h2 : t = K
        · subst h2
          rw [if_pos rfl, e]; simp [h1, hd, q3.symm]
        · rw [if_neg h2]
          by_cases h3 : t = C
          · subst h3
            rw [if_pos rfl, e]; simp [h1, h2, hd]
          · rw [if_neg h3]; simp [h1, h2, h3]
      · rw [if_neg hd]; simp [h1, hd]

/-! ## Examples -/

example : IsPath "../runs.d/".toList "a.b".toList ".input".toList "../runs.d/a.b.input".toList where
  whole := by decide
  dir := Or.inr ⟨"../runs.d".toList, by decide⟩
  flat := by decide
  ext := Or.inr ⟨"input".toList, by decide, by decide⟩

example : IsPath "../runs.d/".toList "a".toList [] "../runs.d/a".toList := ⟨by decide, Or.inr ⟨"../runs.d".toList, by decide⟩, by decide, Or.inl ⟨rfl, by decide⟩⟩

example : numeral 12 = "12".toList := by simp [numeral]

end AMPE.CommandLine.Props
